import Verif.Spec.SignFree
import Verif.Lemmas.Rearranged

/-!
# The solver with changed signs of some unknowns
-/

namespace Verif

section flip
variable {s : List ℝ}

theorem flip_length (x : List ℝ) (h : x.length = s.length) : (flipWith s x).length = s.length := by simp [flipWith, h]

theorem sq_sign {e : ℝ} (h : e = 1 ∨ e = -1) : e * e = 1 := by rcases h with rfl | rfl <;> norm_num

theorem flip_flip (hs : IsSigns s) (x : List ℝ) (h : x.length = s.length) : flipWith s (flipWith s x) = x := by
  induction s generalizing x with
  | nil =>
    obtain rfl := List.length_eq_zero_iff.1 h
    rfl
  | cons e s ih =>
    obtain ⟨t, x, rfl⟩ : ∃ t y, x = t :: y := List.exists_cons_of_length_pos (by simp [h])
    have := ih (fun e he => hs e (List.mem_cons_of_mem _ he)) x (by simpa using h)
    simp only [flipWith, List.zipWith_cons_cons] at this ⊢
    rw [this, ← mul_assoc, sq_sign (hs e (List.mem_cons_self ..)), one_mul]

theorem flip_zip {f : ℝ → ℝ → ℝ} (hf : ∀ e, (e = 1 ∨ e = -1) → ∀ a b, f (e * a) (e * b) = e * f a b) (hs : IsSigns s) (a b : List ℝ) :
    List.zipWith f (flipWith s a) (flipWith s b) = flipWith s (List.zipWith f a b) := by
  induction s generalizing a b with
  | nil => simp [flipWith]
  | cons e s ih =>
    cases a with
    | nil => simp [flipWith]
    | cons a as =>
      cases b with
      | nil => simp [flipWith]
      | cons b bs =>
        have := ih (fun e he => hs e (List.mem_cons_of_mem _ he)) as bs
        simp only [flipWith, List.zipWith_cons_cons] at this ⊢
        rw [this, hf e (hs e (List.mem_cons_self ..))]

theorem flip_map {f : ℝ → ℝ} (hf : ∀ e, (e = 1 ∨ e = -1) → ∀ a, f (e * a) = e * f a) (hs : IsSigns s) (a : List ℝ) :
    (flipWith s a).map f = flipWith s (a.map f) := by
  induction s generalizing a with
  | nil => simp [flipWith]
  | cons e s ih =>
    cases a with
    | nil => simp [flipWith]
    | cons a as =>
      have := ih (fun e he => hs e (List.mem_cons_of_mem _ he)) as
      simp only [flipWith, List.zipWith_cons_cons, List.map_cons] at this ⊢
      rw [this, hf e (hs e (List.mem_cons_self ..))]

theorem flip_even {f : ℝ → ℝ} (hf : ∀ e, (e = 1 ∨ e = -1) → ∀ a, f (e * a) = f a) (hs : IsSigns s) (a : List ℝ) (h : a.length ≤ s.length) :
    (flipWith s a).map f = a.map f := by
  induction s generalizing a with
  | nil =>
    obtain rfl := List.length_eq_zero_iff.1 (Nat.le_zero.1 h)
    rfl
  | cons e s ih =>
    cases a with
    | nil => simp [flipWith]
    | cons a as =>
      have := ih (fun e he => hs e (List.mem_cons_of_mem _ he)) as (by simpa using h)
      simp only [flipWith, List.zipWith_cons_cons, List.map_cons] at this ⊢
      rw [this, hf e (hs e (List.mem_cons_self ..))]

theorem flip_vadd (hs : IsSigns s) (a b : List ℝ) : Num.vadd (flipWith s a) (flipWith s b) = flipWith s (Num.vadd a b) :=
  flip_zip (fun _ _ _ _ => (mul_add _ _ _).symm) hs a b

theorem flip_vsub (hs : IsSigns s) (a b : List ℝ) : Num.vsub (flipWith s a) (flipWith s b) = flipWith s (Num.vsub a b) :=
  flip_zip (fun _ _ _ _ => (mul_sub _ _ _).symm) hs a b

theorem flip_vscale (hs : IsSigns s) (a : List ℝ) (u : ℝ) : Num.vscale (flipWith s a) u = flipWith s (Num.vscale a u) :=
  flip_map (fun _ _ _ => mul_assoc _ _ _) hs a

theorem flip_vdivs (hs : IsSigns s) (a : List ℝ) (u : ℝ) : Num.vdivs (flipWith s a) u = flipWith s (Num.vdivs a u) :=
  flip_map (fun _ _ _ => mul_div_assoc _ _ _) hs a

theorem flip_vabs (hs : IsSigns s) (a : List ℝ) (h : a.length ≤ s.length) : Num.vabs (flipWith s a) = Num.vabs a :=
  flip_even (f := fun t => |t|) (fun e he a => by rcases he with rfl | rfl <;> simp) hs a h

theorem flip_norm (hs : IsSigns s) (a : List ℝ) (h : a.length ≤ s.length) : Num.norm (flipWith s a) = Num.norm a := by
  unfold Num.norm
  congr 2
  exact flip_even (f := fun t : ℝ => t * t) (fun e he a => by rcases he with rfl | rfl <;> ring) hs a h

theorem flip_zeros (x : List ℝ) (h : x.length = s.length) : flipWith s (x.map fun _ => (0 : ℝ)) = x.map fun _ => (0 : ℝ) := by
  induction s generalizing x with
  | nil =>
    obtain rfl := List.length_eq_zero_iff.1 h
    rfl
  | cons e s ih =>
    obtain ⟨t, x, rfl⟩ : ∃ t y, x = t :: y := List.exists_cons_of_length_pos (by simp [h])
    have := ih x (by simpa using h)
    simp only [flipWith, List.map_cons, List.zipWith_cons_cons, mul_zero] at this ⊢
    rw [this]

end flip

/-- A carry with changed signs. -/
def Carry.flip {opt : Optimizer ℝ} (s : List ℝ) (F : opt.State → opt.State) (c : Carry opt) : Carry opt :=
  { c with params := flipWith s c.params, updates := flipWith s c.updates, state := F c.state }

/-- The result of the inner minimiser with changed signs. -/
def InnerResult.flip (s : List ℝ) (r : InnerResult ℝ) : InnerResult ℝ := { r with x := flipWith s r.x, grad := flipWith s r.grad }

/-- The status of the solver with changed signs. -/
def Status.flip (s : List ℝ) (r : Status ℝ) : Status ℝ := { r with finX := flipWith s r.finX }

section solver
variable {opt : Optimizer ℝ} {gradOp : (List ℝ → ℝ) → List ℝ → List ℝ} {s : List ℝ}

/-- The shapes of a carry. -/
structure Carry.Fits (n : ℕ) {opt : Optimizer ℝ} (c : Carry opt) : Prop where
  params : c.params.length = n
  updates : c.updates.length = n
  grad : (opt.grad c.state).length ≤ n
  finite : opt.valueFinite c.state = true → (opt.grad c.state).length = n

theorem vg_length (hsh : opt.ShapeContract gradOp) {n : ℕ} (f : List ℝ → ℝ) {c : Carry opt} (hc : c.Fits n) :
    (valueAndGradFromState opt gradOp f c.params c.state).2.length = n := by
  unfold valueAndGradFromState
  split
  · rename_i hv
    exact hc.finite hv
  · rw [hsh.grad_length, hc.params]

theorem step_fits (hsh : opt.ShapeContract gradOp) {n : ℕ} (f : List ℝ → ℝ) {c : Carry opt} (hc : c.Fits n) :
    (innerStep opt gradOp f c).Fits n := by
  have hu := hsh.update_length _ c.state c.params (valueAndGradFromState opt gradOp f c.params c.state).1 f ((vg_length hsh f hc).trans hc.params.symm)
  rw [hc.params] at hu
  refine ⟨?_, hu.1, hu.2.le, fun _ => hu.2⟩
  simp only [innerStep, Num.vadd, List.length_zipWith, hu.1, hc.params, min_self]

theorem init_fits (hsh : opt.ShapeContract gradOp) (hsg : opt.SignContract gradOp) (f : List ℝ → ℝ) (x0 : List ℝ) (v : ℝ) :
    (initCarry opt f x0 v 10).Fits x0.length :=
  ⟨rfl, by simp [initCarry], hsg.init_grad x0, by simp [initCarry, hsh.init_value]⟩

theorem runOpt_grad (hsh : opt.ShapeContract gradOp) (hsg : opt.SignContract gradOp) {f : List ℝ → ℝ} {x0 : List ℝ} {tol : InnerTol ℝ}
    {r : InnerResult ℝ} (h : runOpt opt gradOp f x0 tol = some r) : r.grad.length ≤ x0.length := by
  obtain ⟨c, hc, rfl⟩ := Option.map_eq_some_iff.1 h
  exact (whileLoop_invariant (Carry.Fits x0.length) hc (init_fits hsh hsg f x0 _) fun a b ha _ hb => by cases hb; exact step_fits hsh f ha).grad

theorem runOpt_flip (hsh : opt.ShapeContract gradOp) (hsg : opt.SignContract gradOp) (hs : IsSigns s) (f : List ℝ → ℝ) {x0 : List ℝ}
    (hx : x0.length = s.length) (tol : InnerTol ℝ) :
    runOpt opt gradOp (fun y => f (flipWith s y)) (flipWith s x0) tol = (runOpt opt gradOp f x0 tol).map (InnerResult.flip s) := by
  obtain ⟨F, hi, hcount, hval, hfin, hgrad, hupd⟩ := hsg.state s hs
  unfold runOpt runOptCarry
  have hinit : initCarry opt (fun y => f (flipWith s y)) (flipWith s x0) tol.fstop 10 = (initCarry opt f x0 tol.fstop 10).flip s F := by
    have hz : (flipWith s x0).map (fun _ => Num.ofNat (α := ℝ) 0) = x0.map fun _ => Num.ofNat (α := ℝ) 0 := by
      rw [List.map_const', List.map_const', flip_length x0 hx, hx]
    have hz' : flipWith s (x0.map fun _ => Num.ofNat (α := ℝ) 0) = x0.map fun _ => Num.ofNat (α := ℝ) 0 := by
      have : (Num.ofNat 0 : ℝ) = 0 := Nat.cast_zero
      rw [this]
      exact flip_zeros x0 hx
    simp only [initCarry, Carry.flip, flip_flip hs x0 hx, hz, hz', hi x0 hx]
  rw [hinit, whileLoop_map (cond := innerContinue opt tol) (body := fun c => some (innerStep opt gradOp f c)) (Carry.flip s F)
    (Carry.Fits s.length) ?_ ?_ (fun a b ha hb => by cases hb; exact step_fits hsh f ha) ?_]
  · rw [Option.map_map, Option.map_map]
    congr 1
    funext c
    simp only [Function.comp_apply, Carry.result, InnerResult.flip, Carry.flip, hgrad, hcount]
  · intro c hc
    simp only [innerContinue, Carry.flip, hcount, hgrad, flip_norm hs _ hc.grad]
  · intro c hc
    have e : valueAndGradFromState opt gradOp (fun y => f (flipWith s y)) (flipWith s c.params) (F c.state) =
        ((valueAndGradFromState opt gradOp f c.params c.state).1, flipWith s (valueAndGradFromState opt gradOp f c.params c.state).2) := by
      unfold valueAndGradFromState
      simp only [hfin, hval, hgrad, flip_flip hs _ hc.params, hsg.grad s hs f _ hc.params]
      split <;> rfl
    have hu := hsh.update_length _ c.state c.params (valueAndGradFromState opt gradOp f c.params c.state).1 f ((vg_length hsh f hc).trans hc.params.symm)
    rw [hc.params] at hu
    simp only [innerStep, Carry.flip, e, hupd _ _ _ _ _ (vg_length hsh f hc) hc.params, Option.map_some, flip_vadd hs, flip_vsub hs]
    rw [flip_vabs hs _ (by simp [Num.vsub, Num.vadd, hc.params, hu.1]), flip_vabs hs _ (by simp [Num.vsub, hc.updates, hu.1])]
  · rw [← hx]
    exact init_fits hsh hsg f x0 _

/-- Two problems that agree up to the signs of the unknowns. -/
structure Flipped (s : List ℝ) (p p' : Problem ℝ) : Prop where
  f : ∀ x : List ℝ, x.length = s.length → p'.f (flipWith s x) = p.f x
  g : ∀ x : List ℝ, x.length = s.length → p'.g (flipWith s x) = p.g x
  h : ∀ x : List ℝ, x.length = s.length → p'.h (flipWith s x) = p.h x
  rest : ∃ g h f, p' = { p with f := f, g := g, h := h }

variable {p p' : Problem ℝ}

theorem outerBody_flip (hsh : opt.ShapeContract gradOp) (hloc : opt.LocalContract gradOp) (hsg : opt.SignContract gradOp)
    (hs : IsSigns s) (h : Flipped s p p') (tol : InnerTol ℝ) {t : Status ℝ}
    (ht : t.finX.length = s.length) :
    outerBody opt gradOp p' gplusHard tol (t.flip s) = (outerBody opt gradOp p gplusHard tol t).map (Status.flip s) ∧
      ∀ t', outerBody opt gradOp p gplusHard tol t = some t' → t'.finX.length = s.length := by
  have hx : (Num.vdivs t.finX t.xUnit).length = s.length := by simp [Num.vdivs, ht]
  have hl : ∀ y : List ℝ, y.length = s.length → augLag p' gplusHard t.finLam t.finMu t.finC (flipWith s y) =
      augLag p gplusHard t.finLam t.finMu t.finC y := by
    intro y hy
    unfold augLag
    rw [h.f y hy, h.g y hy, h.h y hy]
  have e : runOpt opt gradOp (innerObjective p' gplusHard (t.flip s)) (flipWith s (Num.vdivs t.finX t.xUnit)) tol =
      (runOpt opt gradOp (innerObjective p gplusHard t) (Num.vdivs t.finX t.xUnit) tol).map (InnerResult.flip s) := by
    rw [← runOpt_flip hsh hsg hs _ hx]
    refine runOpt_local hsh hloc (fun y hy => ?_) tol
    rw [flip_length _ hx] at hy
    have hy' := flip_length y hy
    have := hl (Num.vscale (flipWith s y) t.xUnit) (by simp [Num.vscale, hy'])
    rw [← flip_vscale hs, flip_flip hs y hy] at this
    exact this
  have hlen : ∀ r, runOpt opt gradOp (innerObjective p gplusHard t) (Num.vdivs t.finX t.xUnit) tol = some r →
      (Num.vscale r.x t.xUnit).length = s.length := fun r hr => by
    rw [Num.vscale, List.length_map, runOpt_length hsh hr, hx]
  obtain ⟨g', h', f', er⟩ := h.rest
  constructor
  · unfold outerBody
    have e1 : Num.vdivs (t.flip s).finX (t.flip s).xUnit = flipWith s (Num.vdivs t.finX t.xUnit) := flip_vdivs hs _ _
    rw [e1, e]
    cases hr : runOpt opt gradOp (innerObjective p gplusHard t) (Num.vdivs t.finX t.xUnit) tol with
    | none => rfl
    | some r =>
      simp only [Option.map_some, Option.some.injEq]
      have hlr := hlen r hr
      have hgl : r.grad.length ≤ s.length := (runOpt_grad hsh hsg hr).trans hx.le
      have hu : ∀ a b c d, updateMultiplier p' a b c d = updateMultiplier p a b c d := by
        intro a b c d
        unfold updateMultiplier
        rw [er]
      have hc : p'.cGrowth = p.cGrowth := by rw [er]
      simp only [outerUpdate, Status.flip, InnerResult.flip, flip_vscale hs, h.f _ hlr, h.g _ hlr, h.h _ hlr, hu, hc, flip_vsub hs,
        flip_norm hs _ hlr.le, flip_norm hs _ hgl]
      rw [flip_norm hs _ (by simp [Num.vsub, hlr, ht])]
  · intro t' ht'
    obtain ⟨r, hr, rfl⟩ := Option.map_eq_some_iff.1 ht'
    exact hlen r hr

/-- The constrained solver on the problem with changed signs: the same run with changed signs. -/
theorem solve_flip (hsh : opt.ShapeContract gradOp) (hloc : opt.LocalContract gradOp) (hsg : opt.SignContract gradOp)
    (hs : IsSigns s) (h : Flipped s p p') {x0 : List ℝ} (hx : x0.length = s.length) :
    solveConstrained opt gradOp p' gplusHard (flipWith s x0) = (solveConstrained opt gradOp p gplusHard x0).map (Status.flip s) := by
  obtain ⟨g', h', f', e⟩ := h.rest
  have t1 : p'.innerTol = p.innerTol := by rw [e]; rfl
  have t2 : p'.lastTol = p.lastTol := by rw [e]; rfl
  have hinit : initStatus p' (flipWith s x0) = (initStatus p x0).flip s := by
    have h1 : p'.muInit = p.muInit := by rw [e]
    have h2 : p'.lamInit = p.lamInit := by rw [e]
    have h3 : p'.cInit = p.cInit := by rw [e]
    simp only [initStatus, Status.flip, h.f _ hx, h.g _ hx, h.h _ hx, h1, h2, h3]
  unfold solveConstrained outerLoop
  rw [hinit, t1, t2]
  rw [whileLoop_map (cond := outerContinue p) (body := outerBody opt gradOp p gplusHard p.innerTol) (Status.flip s)
    (fun t => t.finX.length = s.length) ?_ (fun t ht => (outerBody_flip hsh hloc hsg hs h _ ht).1)
    (fun t t' ht ht' => (outerBody_flip hsh hloc hsg hs h _ ht).2 t' ht') hx]
  · cases hl : whileLoop (outerContinue p) (outerBody opt gradOp p gplusHard p.innerTol) (initStatus p x0) with
    | none => rfl
    | some t =>
      have ht : t.finX.length = s.length := whileLoop_invariant (fun t : Status ℝ => t.finX.length = s.length) hl hx
        fun t t' ht _ ht' => (outerBody_flip hsh hloc hsg hs h _ ht).2 t' ht'
      exact (outerBody_flip hsh hloc hsg hs h _ ht).1
  · intro t ht
    unfold outerContinue
    rw [e]
    rfl

end solver

end Verif
