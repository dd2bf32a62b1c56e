import Verif.Props.InnerProblem
import Verif.Props.GapBound
import Verif.Props.SolverTrace
import Verif.Props.SolverOuter
import Verif.Lemmas.Shape

/-!
# C163: a run that starts at a solution stays there
-/

namespace Verif

open Real

/-- A gradient of zero gives an update of zero. L-BFGS multiplies the gradient by a matrix and a step length, whatever its memory holds. -/
def Optimizer.RestContract (opt : Optimizer ℝ) : Prop :=
  ∀ (g : List ℝ) (s : opt.State) (p : List ℝ) (v : ℝ) (f : List ℝ → ℝ), g.length = p.length → (∀ t ∈ g, t = 0) →
    ∀ t ∈ (opt.update g s p v f).1, t = 0

theorem vadd_rest {x u : List ℝ} (hl : u.length = x.length) (h : ∀ t ∈ u, t = 0) : Num.vadd x u = x := by
  refine List.ext_getElem (by simp [Num.vadd, hl]) fun i h1 h2 => ?_
  have : u[i]'(by omega) = 0 := h _ (List.getElem_mem _)
  simp [Num.vadd, this]

theorem norm_rest {g : List ℝ} (h : ∀ t ∈ g, t = 0) : Num.norm g = 0 := by
  have : g = List.replicate g.length 0 := List.eq_replicate_iff.2 ⟨rfl, h⟩
  rw [num_norm, this]
  simp

section Inner

variable {opt : Optimizer ℝ} {gradOp : (List ℝ → ℝ) → List ℝ → List ℝ} {f : List ℝ → ℝ} {x0 : List ℝ}

/-- The state of a run that has not moved. -/
def AtRest (gradOp : (List ℝ → ℝ) → List ℝ → List ℝ) (f : List ℝ → ℝ) (x0 : List ℝ) (c : Carry opt) : Prop :=
  c.params = x0 ∧ (opt.valueFinite c.state = true → opt.grad c.state = gradOp f x0)

theorem innerStep_rest (hsh : opt.ShapeContract gradOp) (hgr : opt.GradContract gradOp) (hrest : opt.RestContract)
    (h0 : ∀ t ∈ gradOp f x0, t = 0) {c : Carry opt} (h : AtRest gradOp f x0 c) :
    AtRest gradOp f x0 (innerStep opt gradOp f c) ∧ opt.grad (innerStep opt gradOp f c).state = gradOp f x0 := by
  obtain ⟨h1, h2⟩ := h
  have hvg : (valueAndGradFromState opt gradOp f c.params c.state).2 = gradOp f x0 := by
    unfold valueAndGradFromState
    split
    · rename_i hv
      exact h2 hv
    · rw [h1]
  have hx : Num.vadd c.params (opt.update (valueAndGradFromState opt gradOp f c.params c.state).2 c.state c.params
      (valueAndGradFromState opt gradOp f c.params c.state).1 f).1 = x0 := by
    rw [vadd_rest, h1]
    · exact (hsh.update_length _ _ _ _ _ (by rw [hvg, hsh.grad_length, h1])).1
    · exact hrest _ _ _ _ _ (by rw [hvg, hsh.grad_length, h1]) (by rw [hvg]; exact h0)
  have hg : opt.grad (innerStep opt gradOp f c).state = gradOp f x0 := by
    have := hgr (valueAndGradFromState opt gradOp f c.params c.state).2 c.state c.params (valueAndGradFromState opt gradOp f c.params c.state).1 f
    rw [hx] at this
    exact this
  exact ⟨⟨hx, fun _ => hg⟩, hg⟩

theorem initCarry_rest (hsh : opt.ShapeContract gradOp) (fstop : ℝ) (n : ℕ) : AtRest gradOp f x0 (initCarry opt f x0 fstop n) :=
  ⟨rfl, fun h => by
    have := hsh.init_value x0
    rw [show (initCarry opt f x0 fstop n).state = opt.init x0 from rfl, this] at h
    cases h⟩

/-- **C163 (inner solve).** A solve that starts where the gradient vanishes returns its start, with any tolerances; if the tolerance of the
gradient is not negative, after one iteration. -/
theorem C163_inner (hc : opt.CountContract) (hsh : opt.ShapeContract gradOp) (hgr : opt.GradContract gradOp) (hrest : opt.RestContract)
    (h0 : ∀ t ∈ gradOp f x0, t = 0) {tol : InnerTol ℝ} {r : InnerResult ℝ} (hr : runOpt opt gradOp f x0 tol = some r) :
    r.x = x0 ∧ (0 ≤ tol.gtol → r.count = 1) := by
  unfold runOpt at hr
  cases hl : runOptCarry opt gradOp f x0 tol with
  | none => simp [hl] at hr
  | some c =>
    rw [hl] at hr
    cases hr
    unfold runOptCarry at hl
    refine ⟨(whileLoop_invariant (AtRest gradOp f x0) hl (initCarry_rest hsh _ _) fun a b ha _ hb => ?_).1, fun hg => ?_⟩
    · cases hb
      exact (innerStep_rest hsh hgr hrest h0 ha).1
    · have h1 := innerStep_rest hsh hgr hrest h0 (initCarry_rest (f := f) (x0 := x0) hsh tol.fstop 10)
      have hcount : opt.count (innerStep opt gradOp f (initCarry opt f x0 tol.fstop 10)).state = 1 := by
        have e := hc.update_count (valueAndGradFromState opt gradOp f x0 (opt.init x0)).2 (opt.init x0) x0
          (valueAndGradFromState opt gradOp f x0 (opt.init x0)).1 f
        rw [hc.init_count] at e
        exact e
      rw [whileLoop_unfold, if_pos (by simp [innerContinue, initCarry, hc.init_count]), Option.bind_some, whileLoop_unfold, if_neg] at hl
      · cases hl
        exact hcount
      · have hn : Num.lt tol.gtol (Num.norm (opt.grad (innerStep opt gradOp f (initCarry opt f x0 tol.fstop 10)).state)) = false := by
          rw [h1.2, norm_rest h0]
          simpa using hg
        simp [innerContinue, hcount, hn]

end Inner

/-! ## The augmented Lagrangian -/

/-- A point that satisfies the conditions of Karush, Kuhn and Tucker with the multipliers `L` and `M`. -/
structure KktPoint {N m n : ℕ} (p : Problem ℝ) (x : Fin N → ℝ) (L : Fin m → ℝ) (M : Fin n → ℝ) : Prop where
  functions : ∃ (H : (Fin N → ℝ) → Fin m → ℝ) (G : (Fin N → ℝ) → Fin n → ℝ) (f' : (Fin N → ℝ) →L[ℝ] ℝ) (H' : Fin m → (Fin N → ℝ) →L[ℝ] ℝ)
    (G' : Fin n → (Fin N → ℝ) →L[ℝ] ℝ), (∀ y, p.h (List.ofFn y) = List.ofFn (H y)) ∧ (∀ y, p.g (List.ofFn y) = List.ofFn (G y)) ∧
      HasFDerivAt (fun y => p.f (List.ofFn y)) f' x ∧ (∀ i, HasFDerivAt (fun y => H y i) (H' i) x) ∧
      (∀ j, HasFDerivAt (fun y => G y j) (G' j) x) ∧ (∀ i, H x i = 0) ∧ (∀ j, G x j ≤ 0 ∧ M j * G x j = 0) ∧
      f' + ∑ i, L i • H' i + ∑ j, M j • G' j = 0
  nonneg : ∀ j, 0 ≤ M j

/-- The gradient of the problem passed to the inner solver, at the present point. -/
theorem inner_gradient {N m n : ℕ} {p : Problem ℝ} {H : (Fin N → ℝ) → Fin m → ℝ} {G : (Fin N → ℝ) → Fin n → ℝ}
    (hH : ∀ y, p.h (List.ofFn y) = List.ofFn (H y)) (hG : ∀ y, p.g (List.ofFn y) = List.ofFn (G y)) {x : Fin N → ℝ} {f' : (Fin N → ℝ) →L[ℝ] ℝ}
    {H' : Fin m → (Fin N → ℝ) →L[ℝ] ℝ} {G' : Fin n → (Fin N → ℝ) →L[ℝ] ℝ} (hf' : HasFDerivAt (fun y => p.f (List.ofFn y)) f' x)
    (hH' : ∀ i, HasFDerivAt (fun y => H y i) (H' i) x) (hG' : ∀ j, HasFDerivAt (fun y => G y j) (G' j) x) {L : Fin m → ℝ} {M : Fin n → ℝ}
    {s : Status ℝ} (hL : s.finLam = List.ofFn L) (hM : s.finMu = List.ofFn M) (hc : 0 < s.finC) (hu : 0 < s.xUnit) :
    realGrad (innerObjective p gplusHard s) (Num.vdivs (List.ofFn x) s.xUnit) = List.ofFn fun i => s.xUnit *
      (f' + ∑ i, (L i + s.finC * H x i) • H' i + ∑ j, max (M j + s.finC * G x j) 0 • G' j) (Pi.single i 1) := by
  have hD := C11_augLag_derivative (fun y : Fin N → ℝ => List.ofFn y) p H G hH hG L M s.finC hc x f' H' G' hf' hH' hG'
  have hx : Num.vdivs (List.ofFn x) s.xUnit = List.ofFn fun i => x i / s.xUnit := by rw [Num.vdivs, map_ofFn']; rfl
  have hs : HasFDerivAt (fun y : Fin N → ℝ => fun i => y i * s.xUnit) (s.xUnit • ContinuousLinearMap.id ℝ (Fin N → ℝ)) fun i => x i / s.xUnit := by
    have := (s.xUnit • ContinuousLinearMap.id ℝ (Fin N → ℝ)).hasFDerivAt (x := fun i => x i / s.xUnit)
    refine this.congr_of_eventuallyEq (Filter.Eventually.of_forall fun y => ?_)
    funext i
    simp [mul_comm]
  have hback : (fun i => x i / s.xUnit * s.xUnit) = x := funext fun i => div_mul_cancel₀ _ hu.ne'
  rw [hx, realGrad_ofFn (D := s.xUnit • (f' + ∑ i, (L i + s.finC * H x i) • H' i + ∑ j, max (M j + s.finC * G x j) 0 • G' j))]
  · rfl
  · have h4 := HasFDerivAt.comp (g := fun y => augLag p gplusHard (List.ofFn L) (List.ofFn M) s.finC (List.ofFn y)) (fun i => x i / s.xUnit)
      (by simp only [hback]; exact hD) hs
    rw [ContinuousLinearMap.comp_smul, ContinuousLinearMap.comp_id] at h4
    refine h4.congr_of_eventuallyEq (Filter.Eventually.of_forall fun y => ?_)
    simp only [innerObjective, hL, hM, Function.comp_apply, Num.vscale, map_ofFn']
    rfl

theorem KktPoint.gradient {N m n : ℕ} {p : Problem ℝ} {x : Fin N → ℝ} {L : Fin m → ℝ} {M : Fin n → ℝ} (h : KktPoint p x L M) {s : Status ℝ}
    (hL : s.finLam = List.ofFn L) (hM : s.finMu = List.ofFn M) (hc : 0 < s.finC) (hu : 0 < s.xUnit) :
    ∀ t ∈ realGrad (innerObjective p gplusHard s) (Num.vdivs (List.ofFn x) s.xUnit), t = 0 := by
  obtain ⟨⟨H, G, f', H', G', hH, hG, hf', hH', hG', h0, h1, h2⟩, hM0⟩ := h
  have e1 : ∀ i, L i + s.finC * H x i = L i := fun i => by rw [h0, mul_zero, add_zero]
  have e2 : ∀ j, max (M j + s.finC * G x j) 0 = M j := by
    intro j
    rcases mul_eq_zero.1 (h1 j).2 with hj | hj
    · rw [hj, zero_add, max_eq_right (mul_nonpos_of_nonneg_of_nonpos hc.le (h1 j).1)]
    · rw [hj, mul_zero, add_zero, max_eq_left (hM0 j)]
  rw [inner_gradient hH hG hf' hH' hG' hL hM hc hu]
  simp only [e1, e2, h2]
  simp

/-- **C163 (zero multipliers).** At a point that satisfies the constraints, with all multipliers zero as at the start of every call, the inner
problem has gradient zero if and only if the objective has. So a run started at a solution that a constraint keeps away from the free optimum
leaves it. -/
theorem C163_zero_multipliers {N m n : ℕ} {p : Problem ℝ} {H : (Fin N → ℝ) → Fin m → ℝ} {G : (Fin N → ℝ) → Fin n → ℝ}
    (hH : ∀ y, p.h (List.ofFn y) = List.ofFn (H y)) (hG : ∀ y, p.g (List.ofFn y) = List.ofFn (G y)) {x : Fin N → ℝ} {f' : (Fin N → ℝ) →L[ℝ] ℝ}
    {H' : Fin m → (Fin N → ℝ) →L[ℝ] ℝ} {G' : Fin n → (Fin N → ℝ) →L[ℝ] ℝ} (hf' : HasFDerivAt (fun y => p.f (List.ofFn y)) f' x)
    (hH' : ∀ i, HasFDerivAt (fun y => H y i) (H' i) x) (hG' : ∀ j, HasFDerivAt (fun y => G y j) (G' j) x) (h0 : ∀ i, H x i = 0)
    (h1 : ∀ j, G x j ≤ 0) {s : Status ℝ} (hL : s.finLam = List.replicate m 0) (hM : s.finMu = List.replicate n 0) (hc : 0 < s.finC)
    (hu : 0 < s.xUnit) :
    (∀ t ∈ realGrad (innerObjective p gplusHard s) (Num.vdivs (List.ofFn x) s.xUnit), t = 0) ↔ f' = 0 := by
  have e2 : ∀ j, max ((fun _ : Fin n => (0 : ℝ)) j + s.finC * G x j) 0 = 0 := fun j => by
    rw [zero_add, max_eq_right (mul_nonpos_of_nonneg_of_nonpos hc.le (h1 j))]
  have e1 : ∀ i, (fun _ : Fin m => (0 : ℝ)) i + s.finC * H x i = 0 := fun i => by simp [h0 i]
  rw [inner_gradient hH hG hf' hH' hG' (L := fun _ => 0) (M := fun _ => 0) (by simp [hL]) (by simp [hM]) hc hu]
  simp only [e1, e2, zero_smul, Finset.sum_const_zero, add_zero]
  constructor
  · intro h
    refine ContinuousLinearMap.coe_injective (LinearMap.pi_ext' fun i => LinearMap.ext_ring ?_)
    have := h _ (List.mem_ofFn.2 ⟨i, rfl⟩)
    simpa [hu.ne'] using this
  · rintro rfl
    simp

theorem outerBody_rest {opt : Optimizer ℝ} (hc : opt.CountContract) (hsh : opt.ShapeContract realGrad) (hgr : opt.GradContract realGrad)
    (hrest : opt.RestContract) {N m n : ℕ} {p : Problem ℝ} {x : Fin N → ℝ} {L : Fin m → ℝ} {M : Fin n → ℝ} (h : KktPoint p x L M) {s t : Status ℝ}
    (hx : s.finX = List.ofFn x) (hL : s.finLam = List.ofFn L) (hM : s.finMu = List.ofFn M) (hcp : 0 < s.finC) (hu : 0 < s.xUnit)
    (hcg : 0 < p.cGrowth) {tol : InnerTol ℝ} (ht : outerBody opt realGrad p gplusHard tol s = some t) :
    (t.finX = List.ofFn x ∧ t.finLam = List.ofFn L ∧ t.finMu = List.ofFn M ∧ 0 < t.finC ∧ 0 < t.xUnit) ∧
      (0 ≤ tol.gtol → t.totNiter = s.totNiter + 1) ∧ t.outerDx = 0 ∧ t.finG = p.g (List.ofFn x) ∧ t.finH = p.h (List.ofFn x) := by
  obtain ⟨i, rfl, hrun, -⟩ := outerBody_spec hc ht
  have hin := C163_inner hc hsh hgr hrest (x0 := Num.vdivs s.finX s.xUnit) (by rw [hx]; exact h.gradient hL hM hcp hu) hrun
  have hix : Num.vscale i.x s.xUnit = List.ofFn x := by rw [hin.1, vscale_vdivs hu.ne', hx]
  have hX : (outerUpdate p gplusHard s i).finX = List.ofFn x := hix
  obtain ⟨⟨H, G, f', H', G', hH, hG, -, -, -, h0, h1, -⟩, hM0⟩ := h
  have hfix := (C12_fixed_point_iff p s i L (H x) M (G x) hcp hL hM hM0 (by rw [hX, hH]) (by rw [hX, hG])).2 ⟨h0, h1⟩
  refine ⟨⟨hX, hfix.1.trans hL, hfix.2.trans hM, ?_, ?_⟩, fun hg => ?_, ?_, ?_, ?_⟩
  · show 0 < if updateMultiplier p _ _ s.finC i.count then s.finC else Num.mul s.finC p.cGrowth
    split
    · exact hcp
    · exact mul_pos hcp hcg
  · show 0 < if Num.eq (Num.norm (Num.vscale i.x s.xUnit)) (Num.ofNat 0) then (Num.ofNat 1 : ℝ) else Num.norm (Num.vscale i.x s.xUnit)
    rw [hix]
    split
    · simp
    · rename_i hne
      have h5 : Num.norm (List.ofFn x) = √(∑ i, x i ^ 2) := num_norm_ofFn x
      have h6 : Num.norm (List.ofFn x) ≠ 0 := by simpa using hne
      rw [h5] at h6 ⊢
      exact lt_of_le_of_ne (sqrt_nonneg _) h6.symm
  · show s.totNiter + i.count = _
    rw [hin.2 hg]
  · show Num.norm (Num.vsub (Num.vscale i.x s.xUnit) s.finX) = 0
    rw [hix, hx, vsub_ofFn, num_norm_ofFn]
    simp
  · show p.g (Num.vscale i.x s.xUnit) = _
    rw [hix]
  · show p.h (Num.vscale i.x s.xUnit) = _
    rw [hix]

/-- **C163 (solver).** A constrained solve that starts at a Karush-Kuhn-Tucker point with its multipliers returns this point and these
multipliers, with any tolerances and limits. With usual tolerances it needs two iterations, one of the loop and the last one. -/
theorem C163_solver {opt : Optimizer ℝ} (hc : opt.CountContract) (hsh : opt.ShapeContract realGrad) (hgr : opt.GradContract realGrad)
    (hrest : opt.RestContract) {N m n : ℕ} {p : Problem ℝ} {x : Fin N → ℝ} {L : Fin m → ℝ} {M : Fin n → ℝ} (h : KktPoint p x L M)
    (hL : p.lamInit = List.ofFn L) (hM : p.muInit = List.ofFn M) (hci : 0 < p.cInit) (hcg : 0 < p.cGrowth) {r : Status ℝ}
    (hr : solveConstrained opt realGrad p gplusHard (List.ofFn x) = some r) :
    r.finX = List.ofFn x ∧ r.finLam = List.ofFn L ∧ r.finMu = List.ofFn M ∧
      (0 ≤ p.gtolInner → 0 ≤ p.gtolInnerLast → 0 < p.xstopOuter → 0 < p.ctolOuter → r.totNiter = 2) := by
  unfold solveConstrained at hr
  cases hl : outerLoop opt realGrad p gplusHard (List.ofFn x) with
  | none => simp [hl] at hr
  | some s =>
    rw [hl, Option.bind_some] at hr
    unfold outerLoop at hl
    have hinit : (initStatus p (List.ofFn x)).finX = List.ofFn x ∧ (initStatus p (List.ofFn x)).finLam = List.ofFn L ∧
        (initStatus p (List.ofFn x)).finMu = List.ofFn M ∧ 0 < (initStatus p (List.ofFn x)).finC ∧ 0 < (initStatus p (List.ofFn x)).xUnit :=
      ⟨rfl, hL, hM, hci, by simp [initStatus]⟩
    have hs := whileLoop_invariant (fun s : Status ℝ => s.finX = List.ofFn x ∧ s.finLam = List.ofFn L ∧ s.finMu = List.ofFn M ∧ 0 < s.finC ∧
      0 < s.xUnit) hl hinit fun a b ha _ hb => (outerBody_rest hc hsh hgr hrest h ha.1 ha.2.1 ha.2.2.1 ha.2.2.2.1 ha.2.2.2.2 hcg hb).1
    obtain ⟨ht, hcount, -⟩ := outerBody_rest hc hsh hgr hrest h hs.1 hs.2.1 hs.2.2.1 hs.2.2.2.1 hs.2.2.2.2 hcg hr
    refine ⟨ht.1, ht.2.1, ht.2.2.1, fun g1 g2 hx hct => ?_⟩
    rw [hcount g2]
    rw [whileLoop_unfold, if_pos (by simp [outerContinue, initStatus])] at hl
    cases hb : outerBody opt realGrad p gplusHard p.innerTol (initStatus p (List.ofFn x)) with
    | none => simp [hb] at hl
    | some t =>
      obtain ⟨-, h1, h2, h3, h4⟩ := outerBody_rest hc hsh hgr hrest h hinit.1 hinit.2.1 hinit.2.2.1 hinit.2.2.2.1 hinit.2.2.2.2 hcg hb
      rw [hb, Option.bind_some, whileLoop_unfold, if_neg] at hl
      · cases hl
        rw [h1 g1]
        rfl
      · obtain ⟨⟨H, G, f', H', G', hH, hG, -, -, -, k0, k1, -⟩, -⟩ := h
        have e0 : t.totNiter = 1 := h1 g1
        simp only [outerContinue, e0, h2, h3, h4, hH, hG]
        have a1 : (List.ofFn (G x)).any (fun gi => Num.le p.ctolOuter gi) = false := by
          rw [List.any_eq_false]
          intro v hv
          obtain ⟨j, rfl⟩ := List.mem_ofFn.1 hv
          simpa using (k1 j).1.trans_lt hct
        have a2 : (List.ofFn (H x)).any (fun hi => Num.le p.ctolOuter (Num.abs hi)) = false := by
          rw [List.any_eq_false]
          intro v hv
          obtain ⟨j, rfl⟩ := List.mem_ofFn.1 hv
          simpa [k0 j] using hct
        have a3 : Num.le p.xstopOuter (0 : ℝ) = false := by simpa using hx
        rw [a1, a2, a3]
        simp

theorem gradientDescent_rest (step : ℝ) : (gradientDescent realGrad step).RestContract := by
  intro g s p v f _ h t ht
  simp only [gradientDescent, List.mem_map] at ht
  obtain ⟨a, ha, rfl⟩ := ht
  rw [h a ha]
  simp

/-- The distance from 2, to be made small on the numbers up to 1, with a multiplier for the constraint. -/
noncomputable def stopAtOne (m : ℝ) : Problem ℝ where
  f x := (x.headD 0 - 2) ^ 2
  g x := [x.headD 0 - 1]
  h _ := []
  cInit := 1
  cGrowth := 2
  lamInit := []
  muInit := [m]
  xstopOuter := 1 / 10
  ctolOuter := 1 / 10
  fstopInner := 0
  xstopInner := 0
  gtolInner := 1 / 10
  fstopInnerLast := 0
  xstopInnerLast := 0
  gtolInnerLast := 1 / 10
  maxiterTot := 100
  maxiterInner := 100
  cSafe := 1

theorem stopAtOne_f (m : ℝ) : HasFDerivAt (fun y : Fin 1 → ℝ => (stopAtOne m).f (List.ofFn y))
    ((-2 : ℝ) • ContinuousLinearMap.proj (R := ℝ) (φ := fun _ : Fin 1 => ℝ) 0) (fun _ => 1) := by
  have h := ((ContinuousLinearMap.proj (R := ℝ) (φ := fun _ : Fin 1 => ℝ) 0).hasFDerivAt (x := fun _ => 1)).sub_const (2 : ℝ)
  have h2 := h.pow 2
  refine (h2.congr_of_eventuallyEq (Filter.Eventually.of_forall fun y => ?_)).congr_fderiv ?_
  · simp [stopAtOne]
  · ext
    simp
    norm_num

theorem stopAtOne_g (j : Fin 1) : HasFDerivAt (fun y : Fin 1 → ℝ => y 0 - 1)
    (ContinuousLinearMap.proj (R := ℝ) (φ := fun _ : Fin 1 => ℝ) 0) (fun _ => 1) :=
  ((ContinuousLinearMap.proj (R := ℝ) (φ := fun _ : Fin 1 => ℝ) 0).hasFDerivAt (x := fun _ => 1)).sub_const (1 : ℝ)

/-- With the multiplier 2 a run that starts at 1 stays there: two runs of the inner solver, of one iteration each. -/
example (r : Status ℝ) (hr : solveConstrained (gradientDescent realGrad (1 / 4)) realGrad (stopAtOne 2) gplusHard [1] = some r) :
    r.finX = [1] ∧ r.finMu = [2] ∧ r.totNiter = 2 := by
  have hk : KktPoint (stopAtOne 2) (fun _ : Fin 1 => 1) (fun _ : Fin 0 => 0) (fun _ : Fin 1 => 2) := by
    refine ⟨⟨fun _ i => i.elim0, fun y _ => y 0 - 1, _, fun i => i.elim0, fun _ => ContinuousLinearMap.proj 0, fun y => ?_, fun y => ?_,
      stopAtOne_f 2, fun i => i.elim0, stopAtOne_g, fun i => i.elim0, fun j => ?_, ?_⟩, fun _ => by norm_num⟩
    · simp [stopAtOne]
    · simp [stopAtOne]
    · norm_num
    · ext
      simp
  obtain ⟨h1, -, h2, h3⟩ := C163_solver (gradientDescent_count _ _) (gradientDescent_shape realGrad (fun f p => by simp [realGrad]) (1 / 4))
    (fun _ _ _ _ _ => rfl) (gradientDescent_rest _) hk (by simp [stopAtOne]) (by simp [stopAtOne]) (by simp [stopAtOne]) (by simp [stopAtOne])
    (r := r) (by simpa using hr)
  refine ⟨by simpa using h1, by simpa using h2, h3 ?_ ?_ ?_ ?_⟩ <;> norm_num [stopAtOne]

/-- With the multiplier 0 the same point is still the solution, but the inner problem is not at rest there. -/
example : ¬ ∀ t ∈ realGrad (innerObjective (stopAtOne 0) gplusHard (initStatus (stopAtOne 0) [1])) (Num.vdivs [1] (1 : ℝ)), t = 0 := by
  have hu : (initStatus (stopAtOne 0) [1]).xUnit = (1 : ℝ) := by
    simp [initStatus]
  have h := C163_zero_multipliers (p := stopAtOne 0) (m := 0) (n := 1) (H := fun _ i => i.elim0) (G := fun y _ => y 0 - 1) (H' := fun i => i.elim0) (fun y => by simp [stopAtOne])
    (fun y => by simp [stopAtOne]) (stopAtOne_f 0) (fun i => i.elim0) stopAtOne_g (fun i => i.elim0) (fun _ => by norm_num)
    (s := initStatus (stopAtOne 0) [1]) rfl rfl (by simp [initStatus, stopAtOne]) (by rw [hu]; norm_num)
  rw [hu] at h
  intro h0
  have h1 := h.1 (by simpa using h0)
  have h2 := congrArg (fun D : (Fin 1 → ℝ) →L[ℝ] ℝ => D fun _ => 1) h1
  norm_num at h2

/-- Gradient descent from the minimum of a parabola: one iteration. -/
example (r : InnerResult ℝ) (hr : runOpt (gradientDescent realGrad (1 / 4)) realGrad quadObj [0] ⟨50, 0, 0, 1 / 10⟩ = some r) :
    r.x = [0] ∧ r.count = 1 := by
  obtain ⟨h1, h2⟩ := C163_inner (gradientDescent_count _ _) (gradientDescent_shape realGrad (fun f p => by simp [realGrad]) (1 / 4))
    (fun _ _ _ _ _ => rfl) (gradientDescent_rest _) (by
      have := realGrad_quadObj 0 0
      simp only [add_zero, mul_zero] at this
      rw [show quadObj = fun x => quadObj x from rfl, this]
      simp) hr
  exact ⟨h1, h2 (by norm_num)⟩

end Verif
