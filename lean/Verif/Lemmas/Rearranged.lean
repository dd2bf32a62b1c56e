import Verif.Spec.Listing
import Verif.Lemmas.While

/-!
# The solver with rearranged constraints
-/

namespace Verif

section while_
variable {σ : Type}

/-- Two loops whose states correspond end in corresponding states. -/
theorem whileLoop_map {cond cond' : σ → Bool} {body body' : σ → Option σ} (F : σ → σ) (I : σ → Prop)
    (hc : ∀ s, I s → cond' (F s) = cond s) (hb : ∀ s, I s → body' (F s) = (body s).map F)
    (hI : ∀ s t, I s → body s = some t → I t) {s : σ} (hs : I s) :
    whileLoop cond' body' (F s) = (whileLoop cond body s).map F := by
  have hit : ∀ n s, I s → iterM body' n (F s) = (iterM body n s).map F ∧ ∀ t, iterM body n s = some t → I t := by
    intro n
    induction n with
    | zero => exact fun s hs => ⟨rfl, fun t ht => by cases ht; exact hs⟩
    | succ n ih =>
      intro s hs
      rw [iterM, iterM, hb s hs]
      cases h : body s with
      | none => simp
      | some t =>
        simp only [Option.map_some, Option.bind_some]
        exact ih t (hI s t hs h)
  cases h : whileLoop cond body s with
  | some r =>
    obtain ⟨h1, n, h2, h3⟩ := whileLoop_spec h
    refine whileLoop_eq_of (n := n) (by rw [(hit n s hs).1, h2]; rfl) ?_ fun m hm => ?_
    · rw [hc r ((hit n s hs).2 r h2), h1]
    · obtain ⟨t, ht, hct⟩ := h3 m hm
      exact ⟨F t, by rw [(hit m s hs).1, ht]; rfl, by rw [hc t ((hit m s hs).2 t ht), hct]⟩
  | none =>
    cases h' : whileLoop cond' body' (F s) with
    | none => rfl
    | some r' =>
      exfalso
      obtain ⟨h1, n, h2, h3⟩ := whileLoop_spec h'
      rw [(hit n s hs).1] at h2
      obtain ⟨r, hr, rfl⟩ := Option.map_eq_some_iff.1 h2
      have : whileLoop cond body s = some r := by
        refine whileLoop_eq_of (n := n) hr ?_ fun m hm => ?_
        · rw [← hc r ((hit n s hs).2 r hr), h1]
        · obtain ⟨t', ht', hct⟩ := h3 m hm
          rw [(hit m s hs).1] at ht'
          obtain ⟨t, ht, rfl⟩ := Option.map_eq_some_iff.1 ht'
          exact ⟨t, ht, by rw [← hc t ((hit m s hs).2 t ht), hct]⟩
      rw [h] at this
      cases this

end while_

/-- A fixed rearrangement of lists of `m` numbers: it keeps the entries, and corresponding entries stay together. -/
structure Rearranges (m : ℕ) (R : List ℝ → List ℝ) : Prop where
  perm : ∀ l, l.length = m → (R l).Perm l
  pairs : ∀ a b, a.length = m → b.length = m → ((R a).zip (R b)).Perm (a.zip b)
  zip : ∀ (f : ℝ → ℝ → ℝ) (a b : List ℝ), a.length = m → b.length = m → R (List.zipWith f a b) = List.zipWith f (R a) (R b)

/-- The status of the solver with rearranged constraints: everything else is the same. -/
def Status.rearrange (R T : List ℝ → List ℝ) (s : Status ℝ) : Status ℝ :=
  { s with finG := R s.finG, finMu := R s.finMu, finH := T s.finH, finLam := T s.finLam }

namespace Rearranges

variable {m : ℕ} {R : List ℝ → List ℝ}

theorem length (h : Rearranges m R) {l : List ℝ} (hl : l.length = m) : (R l).length = m := (h.perm l hl).length_eq.trans hl

theorem map (h : Rearranges m R) (f : ℝ → ℝ) {l : List ℝ} (hl : l.length = m) : R (l.map f) = (R l).map f := by
  have h1 : ∀ l : List ℝ, l.map f = List.zipWith (fun x _ => f x) l l := by
    intro l
    rw [List.zipWith_self]
  rw [h1, h1, h.zip _ _ _ hl hl]

protected theorem id (m : ℕ) : Rearranges m id := ⟨fun _ _ => .refl _, fun _ _ _ _ => .refl _, fun _ _ _ _ _ => rfl⟩

protected theorem comp {R' : List ℝ → List ℝ} (h : Rearranges m R) (h' : Rearranges m R') : Rearranges m (R' ∘ R) :=
  ⟨fun l hl => (h'.perm _ (h.length hl)).trans (h.perm l hl),
  fun a b ha hb => (h'.pairs _ _ (h.length ha) (h.length hb)).trans (h.pairs a b ha hb), fun f a b ha hb => by
    rw [Function.comp_apply, h.zip f a b ha hb, h'.zip f _ _ (h.length ha) (h.length hb)]
    rfl⟩

/-- Leave the first `k` entries and rearrange the others. -/
theorem block (k : ℕ) (h : Rearranges m R) : Rearranges (k + m) fun l => l.take k ++ R (l.drop k) where
  perm l hl := by
    conv_rhs => rw [← List.take_append_drop k l]
    exact (h.perm _ (by rw [List.length_drop]; omega)).append_left _
  pairs a b ha hb := by
    have e : a.zip b = (a.take k).zip (b.take k) ++ (a.drop k).zip (b.drop k) := by
      rw [← List.zip_append (by simp [ha, hb]), List.take_append_drop, List.take_append_drop]
    rw [e, List.zip_append (by simp [ha, hb])]
    exact (h.pairs _ _ (by rw [List.length_drop]; omega) (by rw [List.length_drop]; omega)).append_left _
  zip f a b ha hb := by
    rw [List.zipWith_append (by simp [ha, hb]), List.take_zipWith, List.drop_zipWith, h.zip]
    · rw [List.length_drop]; omega
    · rw [List.length_drop]; omega

/-- Exchange the first `j` entries and the next `k`. -/
theorem swap (j k m : ℕ) : Rearranges (j + (k + m)) fun l => (l.drop j).take k ++ (l.take j ++ (l.drop j).drop k) where
  perm l hl := by
    conv_rhs => rw [← List.take_append_drop j l, ← List.take_append_drop k (l.drop j)]
    exact List.perm_append_comm_assoc _ _ _
  pairs a b ha hb := by
    have e : a.zip b = (a.take j).zip (b.take j) ++ (((a.drop j).take k).zip ((b.drop j).take k) ++
        ((a.drop j).drop k).zip ((b.drop j).drop k)) := by
      rw [← List.zip_append (by simp [ha, hb]), ← List.zip_append (by simp [ha, hb]), List.take_append_drop, List.take_append_drop,
        List.take_append_drop, List.take_append_drop]
    rw [e, List.zip_append (by simp [ha, hb]), List.zip_append (by simp [ha, hb])]
    exact List.perm_append_comm_assoc _ _ _
  zip f a b ha hb := by
    rw [List.zipWith_append (by simp [ha, hb]), List.zipWith_append (by simp [ha, hb]), List.take_zipWith, List.drop_zipWith,
      List.take_zipWith, List.drop_zipWith]

/-- Blocks of fixed lengths in another order: one rearrangement works for all values. -/
theorem of_perm {ι D : Type} {e : ι → D → List ℝ} {l' l : List ι} (h : l'.Perm l) {len : ι → ℕ}
    (hlen : ∀ i ∈ l, ∀ d, (e i d).length = len i) :
    ∃ R, Rearranges ((l.map len).sum) R ∧ ∀ d, (l'.map fun i => e i d).flatten = R (l.map fun i => e i d).flatten := by
  induction h with
  | nil => exact ⟨id, .id _, fun d => rfl⟩
  | @cons i l1 l2 hp ih =>
    obtain ⟨R, hR, he⟩ := ih fun j hj => hlen j (List.mem_cons_of_mem _ hj)
    refine ⟨_, by simpa using hR.block (len i), fun d => ?_⟩
    have := hlen i (List.mem_cons_self ..) d
    simp only [List.map_cons, List.flatten_cons]
    rw [List.take_left' this, List.drop_left' this, he]
  | swap i j l =>
    refine ⟨_, by simpa [add_assoc] using swap (len i) (len j) (l.map len).sum, fun d => ?_⟩
    have hi := hlen i (by simp) d
    have hj := hlen j (by simp) d
    simp only [List.map_cons, List.flatten_cons]
    rw [List.take_left' hi, ← List.drop_drop, List.drop_left' hi, List.take_left' hj, List.drop_left' hj]
  | @trans l1 l2 l3 h12 h23 ih12 ih23 =>
    obtain ⟨R, hR, he⟩ := ih23 hlen
    obtain ⟨R', hR', he'⟩ := ih12 fun i hi => hlen i (h23.mem_iff.1 hi)
    rw [(h23.map len).sum_eq] at hR'
    exact ⟨R' ∘ R, hR.comp hR', fun d => by rw [he', he]; rfl⟩

theorem sum (h : Rearranges m R) {l : List ℝ} (hl : l.length = m) : Num.sum (R l) = Num.sum l := by
  change (R l).foldr (· + ·) ((0 : ℕ) : ℝ) = l.foldr (· + ·) ((0 : ℕ) : ℝ)
  rw [Nat.cast_zero]
  exact (h.perm l hl).sum_eq

theorem sum_map (h : Rearranges m R) (f : ℝ → ℝ) {l : List ℝ} (hl : l.length = m) : Num.sum ((R l).map f) = Num.sum (l.map f) := by
  rw [← h.map f hl, h.sum (by simpa using hl)]

theorem any (h : Rearranges m R) (f : ℝ → Bool) {l : List ℝ} (hl : l.length = m) : (R l).any f = l.any f := by
  rw [Bool.eq_iff_iff, List.any_eq_true, List.any_eq_true]
  exact exists_congr fun x => and_congr_left fun _ => (h.perm l hl).mem_iff

theorem all (h : Rearranges m R) (f : ℝ → Bool) {l : List ℝ} (hl : l.length = m) : (R l).all f = l.all f := by
  rw [Bool.eq_iff_iff, List.all_eq_true, List.all_eq_true]
  exact forall_congr' fun x => by rw [(h.perm l hl).mem_iff]

end Rearranges

section solver
variable {opt : Optimizer ℝ} {gradOp : (List ℝ → ℝ) → List ℝ → List ℝ}

/-- The inner minimiser depends on the objective at vectors of the right shape only. -/
theorem runOpt_local (hs : opt.ShapeContract gradOp) (hloc : opt.LocalContract gradOp) {f f' : List ℝ → ℝ} {x0 : List ℝ}
    (h : ∀ y : List ℝ, y.length = x0.length → f' y = f y) (tol : InnerTol ℝ) : runOpt opt gradOp f' x0 tol = runOpt opt gradOp f x0 tol := by
  unfold runOpt runOptCarry
  congr 1
  have h0 : initCarry opt f' x0 tol.fstop 10 = initCarry opt f x0 tol.fstop 10 := by
    simp only [initCarry, h x0 rfl]
  rw [h0]
  have hg : ∀ c : Carry opt, (opt.valueFinite c.state = true → (opt.grad c.state).length = c.params.length) →
      (valueAndGradFromState opt gradOp f c.params c.state).2.length = c.params.length := by
    intro c h2
    unfold valueAndGradFromState
    split
    · rename_i hv
      exact h2 hv
    · exact hs.grad_length _ _
  have := whileLoop_map (cond := innerContinue opt tol) (cond' := innerContinue opt tol)
    (body := fun c => some (innerStep opt gradOp f c)) (body' := fun c => some (innerStep opt gradOp f' c)) id
    (fun c : Carry opt => c.params.length = x0.length ∧ (opt.valueFinite c.state = true → (opt.grad c.state).length = c.params.length))
    (fun _ _ => rfl) ?_ ?_ (s := initCarry opt f x0 tol.fstop 10) ⟨rfl, by simp [initCarry, hs.init_value]⟩
  · rw [id, Option.map_id] at this
    exact this
  · rintro c ⟨h1, h2⟩
    have ha : ∀ y : List ℝ, y.length = c.params.length → f' y = f y := fun y hy => h y (hy.trans h1)
    have e : valueAndGradFromState opt gradOp f' c.params c.state = valueAndGradFromState opt gradOp f c.params c.state := by
      unfold valueAndGradFromState
      rw [ha _ rfl, hloc.grad f' f c.params ha]
    simp only [innerStep, id, Option.map_some, e, hloc.update f' f _ _ _ _ (hg c h2) ha]
  · rintro s t ⟨h1, h2⟩ ht
    cases ht
    have hu := hs.update_length _ s.state s.params (valueAndGradFromState opt gradOp f s.params s.state).1 f (hg s h2)
    have hp : (innerStep opt gradOp f s).params.length = s.params.length := by
      simp only [innerStep, Num.vadd, List.length_zipWith, hu.1, min_self]
    refine ⟨hp.trans h1, fun _ => ?_⟩
    rw [hp]
    exact hu.2

/-- Two problems with the same objective and rearranged constraints, for vectors of length `n`. -/
structure Rearranged (n m k : ℕ) (R T : List ℝ → List ℝ) (p p' : Problem ℝ) : Prop where
  ineq : Rearranges m R
  eq : Rearranges k T
  f : ∀ x : List ℝ, x.length = n → p'.f x = p.f x
  g_length : ∀ x : List ℝ, x.length = n → (p.g x).length = m
  h_length : ∀ x : List ℝ, x.length = n → (p.h x).length = k
  g : ∀ x : List ℝ, x.length = n → p'.g x = R (p.g x)
  h : ∀ x : List ℝ, x.length = n → p'.h x = T (p.h x)
  mu_length : p.muInit.length = m
  lam_length : p.lamInit.length = k
  rest : ∃ g h f, p' = { p with f := f, g := g, h := h, muInit := R p.muInit, lamInit := T p.lamInit }

variable {n m k : ℕ} {R T : List ℝ → List ℝ} {p p' : Problem ℝ}

/-- What stays true of the status. -/
structure Fits (n m k : ℕ) (s : Status ℝ) : Prop where
  x : s.finX.length = n
  g : s.finG.length = m
  mu : s.finMu.length = m
  h : s.finH.length = k
  lam : s.finLam.length = k

theorem gplus_rearrange (hR : Rearranges m R) {g mu : List ℝ} (hg : g.length = m) (hmu : mu.length = m) (c : ℝ) :
    gplusHard (R g) (R mu) c = R (gplusHard g mu c) := (hR.zip _ g mu hg hmu).symm

theorem gplus_length {g mu : List ℝ} (hg : g.length = m) (hmu : mu.length = m) (c : ℝ) : (gplusHard g mu c).length = m := by
  simp [gplusHard, hg, hmu]

theorem augLag_rearrange (h : Rearranged n m k R T p p') {lam mu : List ℝ} (hl : lam.length = k) (hm : mu.length = m) (c : ℝ) {y : List ℝ}
    (hy : y.length = n) : augLag p' gplusHard (T lam) (R mu) c y = augLag p gplusHard lam mu c y := by
  have hg := h.g_length y hy
  have hh := h.h_length y hy
  unfold augLag Num.dot
  rw [h.f y hy, h.g y hy, h.h y hy, gplus_rearrange h.ineq hg hm, ← h.eq.zip _ _ _ hl hh, ← h.ineq.zip _ _ _ hm (gplus_length hg hm c),
    h.eq.sum (by simp [hl, hh]), h.ineq.sum (by simp [hm, gplus_length hg hm c]), h.eq.sum_map _ hh,
    h.ineq.sum_map _ (gplus_length hg hm c)]

theorem norm_rearrange (hR : Rearranges m R) {a b : List ℝ} (ha : a.length = m) (hb : b.length = m) :
    Num.norm (Num.vsub (R a) (R b)) = Num.norm (Num.vsub a b) := by
  unfold Num.norm Num.vsub
  rw [← hR.zip _ a b ha hb, hR.sum_map _ (by simp [ha, hb])]

theorem outerUpdate_rearrange (h : Rearranged n m k R T p p') {s : Status ℝ} (hs : Fits n m k s) {r : InnerResult ℝ}
    (hr : (Num.vscale r.x s.xUnit).length = n) :
    outerUpdate p' gplusHard (s.rearrange R T) r = (outerUpdate p gplusHard s r).rearrange R T := by
  have hg := h.g_length _ hr
  have hh := h.h_length _ hr
  obtain ⟨g', h', f', e⟩ := h.rest
  have hu : updateMultiplier p' (R (p.g (Num.vscale r.x s.xUnit))) (T (p.h (Num.vscale r.x s.xUnit))) s.finC r.count =
      updateMultiplier p (p.g (Num.vscale r.x s.xUnit)) (p.h (Num.vscale r.x s.xUnit)) s.finC r.count := by
    unfold updateMultiplier
    rw [h.ineq.all _ hg, h.eq.all _ hh, e]
  have hc : p'.cGrowth = p.cGrowth := by rw [e]
  simp only [outerUpdate, Status.rearrange, h.f _ hr, h.g _ hr, h.h _ hr, norm_rearrange h.ineq hs.g hg, norm_rearrange h.eq hs.h hh, hu, hc,
    gplus_rearrange h.ineq hg hs.mu, ← h.ineq.map _ (gplus_length hg hs.mu s.finC), ← h.eq.map _ hh]
  have e1 := h.ineq.zip Num.add s.finMu ((gplusHard (p.g (Num.vscale r.x s.xUnit)) s.finMu s.finC).map fun t => Num.mul s.finC t) hs.mu
    (by simp [gplus_length hg hs.mu])
  have e2 := h.eq.zip Num.add s.finLam ((p.h (Num.vscale r.x s.xUnit)).map fun t => Num.mul s.finC t) hs.lam (by simp [hh])
  unfold Num.vadd
  rw [e1, e2]
  congr!

theorem fits_update (h : Rearranged n m k R T p p') {s : Status ℝ} (hs : Fits n m k s) {r : InnerResult ℝ}
    (hr : (Num.vscale r.x s.xUnit).length = n) : Fits n m k (outerUpdate p gplusHard s r) where
  x := hr
  g := h.g_length _ hr
  h := h.h_length _ hr
  mu := by simp [outerUpdate, Num.vadd, hs.mu, gplus_length (h.g_length _ hr) hs.mu]
  lam := by simp [outerUpdate, Num.vadd, hs.lam, h.h_length _ hr]

theorem outerBody_rearrange (hsh : opt.ShapeContract gradOp) (hloc : opt.LocalContract gradOp) (h : Rearranged n m k R T p p')
    (tol : InnerTol ℝ) {s : Status ℝ} (hs : Fits n m k s) :
    outerBody opt gradOp p' gplusHard tol (s.rearrange R T) = (outerBody opt gradOp p gplusHard tol s).map (Status.rearrange R T) ∧
      ∀ t, outerBody opt gradOp p gplusHard tol s = some t → Fits n m k t := by
  have hx : (Num.vdivs s.finX s.xUnit).length = n := by simp [Num.vdivs, hs.x]
  have e : runOpt opt gradOp (innerObjective p' gplusHard (s.rearrange R T)) (Num.vdivs s.finX s.xUnit) tol =
      runOpt opt gradOp (innerObjective p gplusHard s) (Num.vdivs s.finX s.xUnit) tol := by
    refine runOpt_local hsh hloc (fun y hy => ?_) tol
    exact augLag_rearrange h hs.lam hs.mu s.finC (by simp [Num.vscale, hy, hx])
  have hlen : ∀ r, runOpt opt gradOp (innerObjective p gplusHard s) (Num.vdivs s.finX s.xUnit) tol = some r →
      (Num.vscale r.x s.xUnit).length = n := fun r hr => by
    rw [Num.vscale, List.length_map, runOpt_length hsh hr, hx]
  constructor
  · unfold outerBody
    change (runOpt opt gradOp (innerObjective p' gplusHard (s.rearrange R T)) (Num.vdivs s.finX s.xUnit) tol).map _ = _
    rw [e]
    cases hr : runOpt opt gradOp (innerObjective p gplusHard s) (Num.vdivs s.finX s.xUnit) tol with
    | none => rfl
    | some r =>
      simp only [Option.map_some, Option.some.injEq]
      exact outerUpdate_rearrange h hs (hlen r hr)
  · intro t ht
    obtain ⟨r, hr, rfl⟩ := Option.map_eq_some_iff.1 ht
    exact fits_update h hs (hlen r hr)

theorem fits_init (h : Rearranged n m k R T p p') {x0 : List ℝ} (hx : x0.length = n) : Fits n m k (initStatus p x0) :=
  ⟨hx, h.g_length _ hx, h.mu_length, h.h_length _ hx, h.lam_length⟩

theorem initStatus_rearrange (h : Rearranged n m k R T p p') {x0 : List ℝ} (hx : x0.length = n) :
    initStatus p' x0 = (initStatus p x0).rearrange R T := by
  obtain ⟨g', h', f', e⟩ := h.rest
  have h1 : p'.muInit = R p.muInit := by rw [e]
  have h2 : p'.lamInit = T p.lamInit := by rw [e]
  have h3 : p'.cInit = p.cInit := by rw [e]
  simp only [initStatus, Status.rearrange, h.f _ hx, h.g _ hx, h.h _ hx, h1, h2, h3]

/-- The constrained solver on the rearranged problem: the same run, with rearranged constraint values and multipliers. -/
theorem solve_rearrange (hsh : opt.ShapeContract gradOp) (hloc : opt.LocalContract gradOp) (h : Rearranged n m k R T p p') {x0 : List ℝ}
    (hx : x0.length = n) :
    solveConstrained opt gradOp p' gplusHard x0 = (solveConstrained opt gradOp p gplusHard x0).map (Status.rearrange R T) := by
  obtain ⟨g', h', f', e⟩ := h.rest
  have t1 : p'.innerTol = p.innerTol := by rw [e]; rfl
  have t2 : p'.lastTol = p.lastTol := by rw [e]; rfl
  unfold solveConstrained outerLoop
  rw [initStatus_rearrange h hx, t1, t2]
  rw [whileLoop_map (cond := outerContinue p) (body := outerBody opt gradOp p gplusHard p.innerTol) (Status.rearrange R T) (Fits n m k)
    ?_ (fun s hs => (outerBody_rearrange hsh hloc h _ hs).1) (fun s t hs ht => (outerBody_rearrange hsh hloc h _ hs).2 t ht) (fits_init h hx)]
  · cases hl : whileLoop (outerContinue p) (outerBody opt gradOp p gplusHard p.innerTol) (initStatus p x0) with
    | none => rfl
    | some s =>
      have hs : Fits n m k s := whileLoop_invariant (Fits n m k) hl (fits_init h hx)
        fun s t hs _ ht => (outerBody_rearrange hsh hloc h _ hs).2 t ht
      exact (outerBody_rearrange hsh hloc h _ hs).1
  · intro s hs
    unfold outerContinue
    simp only [Status.rearrange]
    rw [h.ineq.any _ hs.g, h.eq.any _ hs.h, e]
    rfl

theorem solve_fits (hsh : opt.ShapeContract gradOp) (hloc : opt.LocalContract gradOp) (h : Rearranged n m k R T p p') {x0 : List ℝ}
    (hx : x0.length = n) {s : Status ℝ} (hs : solveConstrained opt gradOp p gplusHard x0 = some s) : Fits n m k s := by
  unfold solveConstrained outerLoop at hs
  obtain ⟨t, ht, hb⟩ := Option.bind_eq_some_iff.1 hs
  have hf : Fits n m k t := whileLoop_invariant (Fits n m k) ht (fits_init h hx)
    fun s t hs _ ht => (outerBody_rearrange hsh hloc h _ hs).2 t ht
  exact (outerBody_rearrange hsh hloc h _ hf).2 s hb

theorem Fits.sameUpToOrder {s : Status ℝ} (h : Fits n m k s) (hR : Rearranges m R) (hT : Rearranges k T) :
    (s.rearrange R T).SameUpToOrder s :=
  ⟨rfl, (hR.length h.g).trans (hR.length h.mu).symm, h.g.trans h.mu.symm, hR.pairs _ _ h.g h.mu,
    (hT.length h.h).trans (hT.length h.lam).symm, h.h.trans h.lam.symm, hT.pairs _ _ h.h h.lam⟩

end solver

end Verif
