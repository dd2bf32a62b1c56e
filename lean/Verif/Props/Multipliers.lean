import Verif.Lemmas.Outer
import Verif.Spec.Toy
import Mathlib.Analysis.Calculus.FDeriv.Add
import Mathlib.Analysis.Calculus.FDeriv.Mul
import Mathlib.Analysis.Calculus.Deriv.Pow
import Mathlib.Analysis.Calculus.Deriv.Mul
import Mathlib.Analysis.Calculus.Deriv.Add
import Mathlib.Analysis.Calculus.Deriv.Comp
import Mathlib.Analysis.Calculus.Deriv.Slope
import Mathlib.Tactic.NormNum

/-!
# Properties C06, C07, C11, C12, C13: multipliers, penalty, stationarity, scaling (real arithmetic)
-/

namespace Verif

/-! ## C06: multipliers -/

theorem mu_update_scalar {g mu c : ℝ} (hc : 0 < c) : mu + c * max g (-mu / c) = max (mu + c * g) 0 := by
  rw [mul_max_of_nonneg _ _ hc.le, mul_div_cancel₀ _ hc.ne', ← max_add_add_left]
  simp

theorem finMu_outerUpdate {n : ℕ} (p : Problem ℝ) (s : Status ℝ) (r : InnerResult ℝ) (M G : Fin n → ℝ)
    (hc : 0 < s.finC) (hM : s.finMu = List.ofFn M) (hG : p.g (Num.vscale r.x s.xUnit) = List.ofFn G) :
    (outerUpdate p gplusHard s r).finMu = List.ofFn fun i => max (M i + s.finC * G i) 0 := by
  simp only [outerUpdate, hM, hG, gplusHard, zipWith_ofFn, map_ofFn', Num.vadd, num_add, num_mul, num_max,
    num_div, num_neg]
  congr 1
  funext i
  exact mu_update_scalar hc

/-- The invariant of C06 and C07. -/
structure PenaltyInv (p : Problem ℝ) (n : ℕ) (s : Status ℝ) : Prop where
  c_pos : 0 < s.finC
  c_ge : p.cInit ≤ s.finC
  c_le : s.finC ≤ max p.cInit (p.cSafe * p.cGrowth)
  mu : ∃ M : Fin n → ℝ, s.finMu = List.ofFn M ∧ ∀ i, 0 ≤ M i

theorem PenaltyInv.init {p : Problem ℝ} {n : ℕ} (x0 : List ℝ) (hc : 0 < p.cInit) (M : Fin n → ℝ)
    (hM : p.muInit = List.ofFn M) (hM0 : ∀ i, 0 ≤ M i) : PenaltyInv p n (initStatus p x0) :=
  ⟨hc, le_rfl, le_max_left _ _, M, hM, hM0⟩

theorem finC_outerUpdate (p : Problem ℝ) (gplus : List ℝ → List ℝ → ℝ → List ℝ) (s : Status ℝ) (r : InnerResult ℝ) :
    (outerUpdate p gplus s r).finC = s.finC ∨
      ((outerUpdate p gplus s r).finC = s.finC * p.cGrowth ∧ s.finC < p.cSafe ∧ r.count < p.maxiterInner ∧
        ((∃ g ∈ (outerUpdate p gplus s r).finG, p.ctolOuter ≤ g) ∨
          (∃ h ∈ (outerUpdate p gplus s r).finH, p.ctolOuter ≤ |h|))) := by
  by_cases hu : updateMultiplier p (p.g (Num.vscale r.x s.xUnit)) (p.h (Num.vscale r.x s.xUnit)) s.finC r.count = true
  · left; simp [outerUpdate, hu]
  · right
    have hu' := Bool.eq_false_iff.2 hu
    refine ⟨by simp [outerUpdate, hu'], ?_⟩
    simp only [updateMultiplier, Bool.or_eq_false_iff, Bool.and_eq_false_iff, decide_eq_false_iff_not] at hu'
    obtain ⟨⟨h1, h2⟩, h3⟩ := hu'
    refine ⟨(num_le_false _ _).1 h2, by omega, ?_⟩
    rcases h1 with h1 | h1
    · left
      rw [List.all_eq_false] at h1
      obtain ⟨g, hg, hlt⟩ := h1
      exact ⟨g, hg, by simpa using hlt⟩
    · right
      rw [List.all_eq_false] at h1
      obtain ⟨h, hh, hlt⟩ := h1
      exact ⟨h, hh, by simpa using hlt⟩

theorem PenaltyInv.step {p : Problem ℝ} {n : ℕ} {s : Status ℝ} (hg : ∀ x, (p.g x).length = n)
    (hgrow : 1 ≤ p.cGrowth) (hs : PenaltyInv p n s) (r : InnerResult ℝ) :
    PenaltyInv p n (outerUpdate p gplusHard s r) := by
  obtain ⟨M, hM, hM0⟩ := hs.mu
  have hG : ∃ G : Fin n → ℝ, p.g (Num.vscale r.x s.xUnit) = List.ofFn G := by
    have hl := hg (Num.vscale r.x s.xUnit)
    subst hl
    exact ⟨_, (List.ofFn_getElem (xs := p.g (Num.vscale r.x s.xUnit))).symm⟩
  obtain ⟨G, hG⟩ := hG
  have hmu := finMu_outerUpdate p s r M G hs.c_pos hM hG
  have hmul : s.finC ≤ s.finC * p.cGrowth := le_mul_of_one_le_right hs.c_pos.le hgrow
  rcases finC_outerUpdate p gplusHard s r with h | ⟨h, hsafe, -, -⟩
  · exact ⟨h ▸ hs.c_pos, h ▸ hs.c_ge, h ▸ hs.c_le, _, hmu, fun i => le_max_right _ _⟩
  · refine ⟨by rw [h]; exact lt_of_lt_of_le hs.c_pos hmul, by rw [h]; exact hs.c_ge.trans hmul, ?_, _, hmu,
      fun i => le_max_right _ _⟩
    rw [h]
    exact le_trans (mul_le_mul_of_nonneg_right hsafe.le (by linarith)) (le_max_right _ _)

theorem PenaltyInv.iter {opt : Optimizer ℝ} (hc : opt.CountContract) (gradOp : (List ℝ → ℝ) → List ℝ → List ℝ)
    {p : Problem ℝ} {n : ℕ} (hg : ∀ x, (p.g x).length = n) (hgrow : 1 ≤ p.cGrowth) (hcinit : 0 < p.cInit)
    (hlen : p.muInit.length = n) (hmu : ∀ m ∈ p.muInit, 0 ≤ m) (x0 : List ℝ) {tol : InnerTol ℝ} (k : ℕ)
    (s : Status ℝ) (h : iterM (outerBody opt gradOp p gplusHard tol) k (initStatus p x0) = some s) :
    PenaltyInv p n s := by
  subst hlen
  refine outerIter_invariant (PenaltyInv p _) ?_ ?_ k s h
  · refine PenaltyInv.init x0 hcinit (fun i => p.muInit[i]) List.ofFn_getElem.symm ?_
    intro i
    exact hmu _ (List.getElem_mem _)
  · intro s t hs hst
    obtain ⟨r, rfl, -⟩ := outerBody_spec hc hst
    exact hs.step hg hgrow r

theorem solve_is_iter {opt : Optimizer ℝ} {gradOp : (List ℝ → ℝ) → List ℝ → List ℝ} {p : Problem ℝ}
    {gplus : List ℝ → List ℝ → ℝ → List ℝ} {x0 : List ℝ} {r : Status ℝ}
    (h : solveConstrained opt gradOp p gplus x0 = some r) :
    ∃ k s, iterM (outerBody opt gradOp p gplus p.innerTol) k (initStatus p x0) = some s ∧
      outerBody opt gradOp p gplus p.lastTol s = some r := by
  unfold solveConstrained at h
  cases hl : outerLoop opt gradOp p gplus x0 with
  | none => simp [hl] at h
  | some s =>
    obtain ⟨-, k, hk, -⟩ := whileLoop_spec (σ := Status ℝ) hl
    simp only [hl, Option.bind_some] at h
    exact ⟨k, s, hk, h⟩

/-- **C06.** With non-negative initial multipliers, a positive initial penalty and growth rate at least 1: after any number of
outer iterations all inequality multipliers are non-negative and the penalty is positive; a further iteration, with either set of
tolerances, sets each multiplier to `max(mu + c*g, 0)` where `mu` and `c` are the multiplier and penalty before the iteration and `g`
is the constraint value at the new point, hence to exactly 0 where `g <= -mu/c`; and the returned status comes from the final status of
the loop by such an iteration. -/
theorem C06_multipliers_nonneg (opt : Optimizer ℝ) (hc : opt.CountContract)
    (gradOp : (List ℝ → ℝ) → List ℝ → List ℝ) (p : Problem ℝ) (x0 : List ℝ)
    (hlen : ∀ x, (p.g x).length = p.muInit.length) (hgrow : 1 ≤ p.cGrowth) (hcinit : 0 < p.cInit)
    (hmu : ∀ m ∈ p.muInit, 0 ≤ m) :
    (∀ k s, iterM (outerBody opt gradOp p gplusHard p.innerTol) k (initStatus p x0) = some s →
      (s.finMu.length = p.muInit.length ∧ (∀ m ∈ s.finMu, 0 ≤ m) ∧ 0 < s.finC) ∧
      ∀ tol t, outerBody opt gradOp p gplusHard tol s = some t →
        (t.finMu.length = p.muInit.length ∧ ∀ m ∈ t.finMu, 0 ≤ m) ∧
        ∀ (i : ℕ) (m g m' : ℝ), s.finMu[i]? = some m → (p.g t.finX)[i]? = some g → t.finMu[i]? = some m' →
          m' = max (m + s.finC * g) 0 ∧ (g ≤ -m / s.finC → m' = 0)) ∧
    (∀ r, solveConstrained opt gradOp p gplusHard x0 = some r →
      ∃ k s, outerLoop opt gradOp p gplusHard x0 = some s ∧
        iterM (outerBody opt gradOp p gplusHard p.innerTol) k (initStatus p x0) = some s ∧
        outerBody opt gradOp p gplusHard p.lastTol s = some r) := by
  have key : ∀ k s, iterM (outerBody opt gradOp p gplusHard p.innerTol) k (initStatus p x0) = some s →
      PenaltyInv p p.muInit.length s :=
    fun k s h => PenaltyInv.iter hc gradOp hlen hgrow hcinit rfl hmu x0 k s h
  have conv : ∀ s, PenaltyInv p p.muInit.length s →
      s.finMu.length = p.muInit.length ∧ ∀ m ∈ s.finMu, 0 ≤ m := by
    intro s hs
    obtain ⟨M, hM, hM0⟩ := hs.mu
    rw [hM]
    refine ⟨List.length_ofFn, ?_⟩
    intro m hm
    obtain ⟨i, rfl⟩ := List.mem_ofFn.1 hm
    exact hM0 i
  refine ⟨?_, ?_⟩
  · intro k s hk
    have hs := key k s hk
    refine ⟨⟨(conv s hs).1, (conv s hs).2, hs.c_pos⟩, ?_⟩
    intro tol t hb
    obtain ⟨res, rfl, -⟩ := outerBody_spec hc hb
    refine ⟨conv _ (hs.step hlen hgrow res), ?_⟩
    intro i m g m' hm hg hm'
    obtain ⟨M, hM, hM0⟩ := hs.mu
    have hl := hlen (Num.vscale res.x s.xUnit)
    have hG : ∃ G : Fin p.muInit.length → ℝ, p.g (Num.vscale res.x s.xUnit) = List.ofFn G := by
      rw [← hl]
      exact ⟨_, (List.ofFn_getElem (xs := p.g (Num.vscale res.x s.xUnit))).symm⟩
    obtain ⟨G, hG⟩ := hG
    rw [finMu_outerUpdate p s res M G hs.c_pos hM hG] at hm'
    rw [hM] at hm
    have hg' : (p.g (Num.vscale res.x s.xUnit))[i]? = some g := hg
    rw [hG] at hg'
    rw [List.getElem?_ofFn] at hm hg' hm'
    split at hm
    · rename_i hi
      simp only [hi, dif_pos, Option.some.injEq] at hm hg' hm'
      have heq : m' = max (m + s.finC * g) 0 := by rw [← hm', ← hm, ← hg']
      refine ⟨heq, ?_⟩
      intro hle
      rw [heq, max_eq_right_iff]
      rw [le_div_iff₀ hs.c_pos] at hle
      linarith
    · simp at hm
  · intro r hr
    unfold solveConstrained at hr
    cases hl : outerLoop opt gradOp p gplusHard x0 with
    | none => simp [hl] at hr
    | some s =>
      obtain ⟨-, k, hk, -⟩ := whileLoop_spec (σ := Status ℝ) hl
      simp only [hl, Option.bind_some] at hr
      exact ⟨k, s, rfl, hk, hr⟩

/-- A two-constraint problem meeting the hypotheses of C06 and C07. -/
noncomputable def exampleProblem : Problem ℝ where
  f := fun x => (x.sum) ^ 2
  g := fun x => [x.sum - 1, 2 - x.sum]
  h := fun x => [x.sum]
  cInit := 1
  cGrowth := 2
  lamInit := [0]
  muInit := [0, 3]
  xstopOuter := 1
  ctolOuter := 1
  fstopInner := 0
  xstopInner := 0
  gtolInner := 0
  fstopInnerLast := 0
  xstopInnerLast := 0
  gtolInnerLast := 0
  maxiterTot := 10
  maxiterInner := 5
  cSafe := 1000

example : (∀ x, (exampleProblem.g x).length = exampleProblem.muInit.length) ∧ 1 ≤ exampleProblem.cGrowth ∧
    0 < exampleProblem.cInit ∧ ∀ m ∈ exampleProblem.muInit, 0 ≤ m := by
  refine ⟨fun x => rfl, ?_, ?_, ?_⟩ <;> simp [exampleProblem]

/-! ## C07: penalty -/

/-- **C07.** With `c_init > 0` and growth rate at least 1, after any number of outer iterations the penalty is positive, at
least `c_init` and at most `max c_init (c_k_safe*growth)`; the next outer iteration either keeps it or multiplies it by
the growth rate, and the latter only if the penalty is below the safe limit and some constraint is violated by `ctol` or
more at the new point. -/
theorem C07_penalty_monotone_bounded (opt : Optimizer ℝ) (hc : opt.CountContract)
    (gradOp : (List ℝ → ℝ) → List ℝ → List ℝ) (p : Problem ℝ) (x0 : List ℝ)
    (hlen : ∀ x, (p.g x).length = p.muInit.length) (hgrow : 1 ≤ p.cGrowth) (hcinit : 0 < p.cInit)
    (hmu : ∀ m ∈ p.muInit, 0 ≤ m) (k : ℕ) (s : Status ℝ)
    (h : iterM (outerBody opt gradOp p gplusHard p.innerTol) k (initStatus p x0) = some s) :
    (0 < s.finC ∧ p.cInit ≤ s.finC ∧ s.finC ≤ max p.cInit (p.cSafe * p.cGrowth)) ∧
    ∀ tol t, outerBody opt gradOp p gplusHard tol s = some t →
      s.finC ≤ t.finC ∧ t.finC ≤ max p.cInit (p.cSafe * p.cGrowth) ∧
      (t.finC = s.finC ∨ (t.finC = s.finC * p.cGrowth ∧ s.finC < p.cSafe ∧
        ((∃ g ∈ p.g t.finX, p.ctolOuter ≤ g) ∨ (∃ h ∈ p.h t.finX, p.ctolOuter ≤ |h|)))) := by
  have hs := PenaltyInv.iter hc gradOp hlen hgrow hcinit rfl hmu x0 k s h
  refine ⟨⟨hs.c_pos, hs.c_ge, hs.c_le⟩, ?_⟩
  intro tol t ht
  obtain ⟨r, rfl, -⟩ := outerBody_spec hc ht
  refine ⟨?_, (hs.step hlen hgrow r).c_le, ?_⟩
  · rcases finC_outerUpdate p gplusHard s r with h | ⟨h, -⟩
    · exact h.ge
    · rw [h]; exact le_mul_of_one_le_right hs.c_pos.le hgrow
  · rcases finC_outerUpdate p gplusHard s r with h | ⟨h, h2, -, h3⟩
    · exact Or.inl h
    · exact Or.inr ⟨h, h2, h3⟩

/-! ## C11: stationarity -/

/-- Derivative of one inequality term `mu*g+ + c/2 g+^2` as a function of the constraint value. -/
theorem hasDerivAt_gplus_term {mu c : ℝ} (hc : 0 < c) (t : ℝ) :
    HasDerivAt (fun t => mu * max t (-mu / c) + c / 2 * (max t (-mu / c) * max t (-mu / c)))
      (max (mu + c * t) 0) t := by
  -- rewrite as ((max (mu + c t) 0)^2 - mu^2) / (2c)
  have hrew : (fun t => mu * max t (-mu / c) + c / 2 * (max t (-mu / c) * max t (-mu / c)))
      = fun t => ((max (mu + c * t) 0) ^ 2 - mu ^ 2) / (2 * c) := by
    funext t
    rw [← mu_update_scalar (g := t) (mu := mu) hc]
    field_simp
    ring
  rw [hrew]
  have hsq : ∀ u : ℝ, HasDerivAt (fun u : ℝ => (max u 0) ^ 2) (2 * max u 0) u := by
    intro u
    rcases lt_trichotomy u 0 with hu | hu | hu
    · have h1 : HasDerivAt (fun _ : ℝ => (0 : ℝ)) 0 u := hasDerivAt_const _ _
      have h2 : (2 : ℝ) * max u 0 = 0 := by rw [max_eq_right hu.le]; simp
      rw [h2]
      refine h1.congr_of_eventuallyEq ?_
      filter_upwards [Iio_mem_nhds hu] with v hv
      rw [max_eq_right (le_of_lt hv)]; simp
    · subst hu
      have h2 : (2 : ℝ) * max 0 0 = 0 := by simp
      rw [h2]
      rw [hasDerivAt_iff_isLittleO]
      simp only [max_self, ne_eq, OfNat.ofNat_ne_zero, not_false_eq_true, zero_pow, sub_zero, smul_zero]
      have : (fun x : ℝ => (max x 0) ^ 2) =O[nhds 0] fun x : ℝ => x * x := by
        refine Asymptotics.IsBigO.of_bound 1 (Filter.Eventually.of_forall fun x => ?_)
        rw [one_mul, Real.norm_eq_abs, Real.norm_eq_abs, abs_of_nonneg (sq_nonneg _), abs_of_nonneg (mul_self_nonneg x)]
        rcases le_total x 0 with h | h
        · rw [max_eq_right h]; simpa using mul_self_nonneg x
        · rw [max_eq_left h]; exact (sq x).le
      refine this.trans_isLittleO ?_
      have hx : (fun x : ℝ => x * x) =o[nhds 0] fun x : ℝ => x * 1 := by
        refine Asymptotics.IsBigO.mul_isLittleO (Asymptotics.isBigO_refl _ _) ?_
        rw [Asymptotics.isLittleO_one_iff]
        exact Filter.tendsto_id
      simpa using hx
    · have h1 : HasDerivAt (fun v : ℝ => v ^ 2) (2 * u) u := by simpa using hasDerivAt_pow 2 u
      rw [max_eq_left hu.le]
      refine h1.congr_of_eventuallyEq ?_
      filter_upwards [Ioi_mem_nhds hu] with v hv
      rw [max_eq_left (le_of_lt hv)]
  have hlin : HasDerivAt (fun t : ℝ => mu + c * t) c t := by
    simpa using ((hasDerivAt_id t).const_mul c).const_add mu
  have hcomp := (hsq (mu + c * t)).comp t hlin
  have := (hcomp.sub_const (mu ^ 2)).div_const (2 * c)
  refine this.congr_deriv ?_
  field_simp

/-- **C11.** For objective and constraints differentiable at `x` (as functions on any normed space through any encoding of
points as lists), the augmented Lagrangian with the hard mask is differentiable at `x`, including at kinks, and its derivative
is `f' + Σ (lam + c h) h' + Σ max(mu + c g, 0) g'`. -/
theorem C11_augLag_derivative {E : Type} [NormedAddCommGroup E] [NormedSpace ℝ E] (enc : E → List ℝ)
    {m n : ℕ} (p : Problem ℝ) (H : E → Fin m → ℝ) (G : E → Fin n → ℝ)
    (hH : ∀ y, p.h (enc y) = List.ofFn (H y)) (hG : ∀ y, p.g (enc y) = List.ofFn (G y))
    (L : Fin m → ℝ) (M : Fin n → ℝ) (c : ℝ) (hc : 0 < c) (x : E)
    (f' : E →L[ℝ] ℝ) (H' : Fin m → E →L[ℝ] ℝ) (G' : Fin n → E →L[ℝ] ℝ)
    (hf' : HasFDerivAt (fun y => p.f (enc y)) f' x) (hH' : ∀ i, HasFDerivAt (fun y => H y i) (H' i) x)
    (hG' : ∀ j, HasFDerivAt (fun y => G y j) (G' j) x) :
    HasFDerivAt (fun y => augLag p gplusHard (List.ofFn L) (List.ofFn M) c (enc y))
      (f' + ∑ i, (L i + c * H x i) • H' i + ∑ j, (max (M j + c * G x j) 0) • G' j) x := by
  have hform : (fun y => augLag p gplusHard (List.ofFn L) (List.ofFn M) c (enc y)) = fun y =>
      p.f (enc y) + ∑ i, (L i * H y i + c / 2 * (H y i * H y i))
        + ∑ j, (M j * max (G y j) (-M j / c) + c / 2 * (max (G y j) (-M j / c) * max (G y j) (-M j / c))) := by
    funext y
    simp only [augLag, hH, hG, gplusHard, zipWith_ofFn, map_ofFn', num_sum, List.sum_ofFn, num_add, num_mul, num_div,
      num_max, num_neg, num_ofNat, num_dot_ofFn, Finset.sum_add_distrib, Finset.mul_sum, mul_add]
    push_cast
    ring
  rw [hform]
  refine (hf'.add ?_).add ?_
  · refine HasFDerivAt.fun_sum fun i _ => ?_
    have h1 : HasDerivAt (fun t : ℝ => L i * t + c / 2 * (t * t)) (L i + c * H x i) (H x i) := by
      have := ((hasDerivAt_id (H x i)).const_mul (L i)).add
        (((hasDerivAt_id (H x i)).mul (hasDerivAt_id (H x i))).const_mul (c / 2))
      refine this.congr_deriv ?_
      simp only [id]
      ring
    exact h1.comp_hasFDerivAt x (hH' i)
  · refine HasFDerivAt.fun_sum fun j _ => ?_
    have := (hasDerivAt_gplus_term (mu := M j) hc (G x j)).comp_hasFDerivAt x (hG' j)
    exact this

/-- **C11** (consequence): if the inner objective is stationary at the returned point, then the point together with the
multipliers *stored after the step* satisfies the stationarity condition of the constrained problem. -/
theorem C11_kkt_stationarity {E : Type} [NormedAddCommGroup E] [NormedSpace ℝ E] (enc : E → List ℝ)
    {m n : ℕ} (p : Problem ℝ) (H : E → Fin m → ℝ) (G : E → Fin n → ℝ)
    (hH : ∀ y, p.h (enc y) = List.ofFn (H y)) (hG : ∀ y, p.g (enc y) = List.ofFn (G y))
    (s : Status ℝ) (r : InnerResult ℝ) (hc : 0 < s.finC) (hLlen : s.finLam.length = m) (hMlen : s.finMu.length = n)
    (x : E) (hx : enc x = (outerUpdate p gplusHard s r).finX)
    (f' : E →L[ℝ] ℝ) (H' : Fin m → E →L[ℝ] ℝ) (G' : Fin n → E →L[ℝ] ℝ)
    (hf' : HasFDerivAt (fun y => p.f (enc y)) f' x) (hH' : ∀ i, HasFDerivAt (fun y => H y i) (H' i) x)
    (hG' : ∀ j, HasFDerivAt (fun y => G y j) (G' j) x)
    (hstat : HasFDerivAt (fun y => augLag p gplusHard s.finLam s.finMu s.finC (enc y)) (0 : E →L[ℝ] ℝ) x) :
    ∃ (lam : Fin m → ℝ) (mu : Fin n → ℝ), (outerUpdate p gplusHard s r).finLam = List.ofFn lam ∧
      (outerUpdate p gplusHard s r).finMu = List.ofFn mu ∧
      f' + ∑ i, lam i • H' i + ∑ j, mu j • G' j = 0 := by
  obtain ⟨L, hL⟩ := exists_ofFn hLlen
  obtain ⟨M, hM⟩ := exists_ofFn hMlen
  have hxv : enc x = Num.vscale r.x s.xUnit := hx
  refine ⟨fun i => L i + s.finC * H x i, fun j => max (M j + s.finC * G x j) 0, ?_, ?_, ?_⟩
  · simp only [outerUpdate]
    rw [← hxv, hH, hL]
    simp only [map_ofFn', Num.vadd, zipWith_ofFn, num_add, num_mul]
  · exact finMu_outerUpdate p s r _ (G x) hc hM (by rw [← hxv, hG])
  · have hd := C11_augLag_derivative enc p H G hH hG L M s.finC hc x f' H' G' hf' hH' hG'
    rw [← hL, ← hM] at hd
    exact hd.unique hstat

/-- The hypotheses of C11 are met, at a kink, by `f = 0`, `g(x) = x`, no equality, `mu = 0`, `c = 1`, at `x = 0`. -/
example : HasFDerivAt (fun y : ℝ => augLag { exampleProblem with f := fun _ => 0, g := fun x => x, h := fun _ => [] }
    gplusHard (List.ofFn (![] : Fin 0 → ℝ)) (List.ofFn ![0]) 1 [y])
    ((0 : ℝ →L[ℝ] ℝ) + ∑ i : Fin 0, ((![] : Fin 0 → ℝ) i + 1 * (![] : Fin 0 → ℝ) i) • (0 : ℝ →L[ℝ] ℝ)
      + ∑ j : Fin 1, (max ((![0] : Fin 1 → ℝ) j + 1 * (fun _ : Fin 1 => (0 : ℝ)) j) 0) • ContinuousLinearMap.id ℝ ℝ) 0 :=
  C11_augLag_derivative (fun y : ℝ => [y]) _ (fun _ => ![]) (fun y _ => y) (fun y => by simp) (fun y => by simp)
    _ _ 1 one_pos 0 0 (fun _ => 0) (fun _ => ContinuousLinearMap.id ℝ ℝ) (hasFDerivAt_const _ _)
    (fun i => i.elim0) (fun _ => hasFDerivAt_id _)

/-! ## C12: fixed points -/

/-- **C12.** An outer update leaves the multipliers unchanged exactly if the new point is feasible and complementary to the
multipliers. -/
theorem C12_fixed_point_iff {m n : ℕ} (p : Problem ℝ) (s : Status ℝ) (r : InnerResult ℝ) (L H : Fin m → ℝ)
    (M G : Fin n → ℝ) (hc : 0 < s.finC) (hL : s.finLam = List.ofFn L) (hM : s.finMu = List.ofFn M)
    (hM0 : ∀ j, 0 ≤ M j)
    (hH : p.h (outerUpdate p gplusHard s r).finX = List.ofFn H)
    (hG : p.g (outerUpdate p gplusHard s r).finX = List.ofFn G) :
    ((outerUpdate p gplusHard s r).finLam = s.finLam ∧ (outerUpdate p gplusHard s r).finMu = s.finMu) ↔
      ((∀ i, H i = 0) ∧ ∀ j, G j ≤ 0 ∧ M j * G j = 0) := by
  have hH' : p.h (Num.vscale r.x s.xUnit) = List.ofFn H := hH
  have hG' : p.g (Num.vscale r.x s.xUnit) = List.ofFn G := hG
  have hlam : (outerUpdate p gplusHard s r).finLam = List.ofFn fun i => L i + s.finC * H i := by
    simp only [outerUpdate, hH', hL, map_ofFn', Num.vadd, zipWith_ofFn, num_add, num_mul]
  have hmu := finMu_outerUpdate p s r M G hc hM hG'
  rw [hlam, hmu, hL, hM, List.ofFn_inj, List.ofFn_inj, funext_iff, funext_iff]
  refine and_congr (forall_congr' fun i => ?_) (forall_congr' fun j => ?_)
  · constructor
    · intro h
      have : s.finC * H i = 0 := by linarith
      exact (mul_eq_zero.1 this).resolve_left hc.ne'
    · intro h; rw [h]; ring
  · have h0 := hM0 j
    constructor
    · intro h
      rcases le_total (M j + s.finC * G j) 0 with hle | hle
      · rw [max_eq_right hle] at h
        rw [← h] at hle ⊢
        simp only [zero_add, zero_mul, and_true] at hle ⊢
        exact nonpos_of_mul_nonpos_right hle hc
      · rw [max_eq_left hle] at h
        have : s.finC * G j = 0 := by linarith
        have hg : G j = 0 := (mul_eq_zero.1 this).resolve_left hc.ne'
        rw [hg]; simp
    · rintro ⟨hg, hmg⟩
      rcases mul_eq_zero.1 hmg with h | h
      · rw [h, zero_add, max_eq_right]
        exact mul_nonpos_of_nonneg_of_nonpos hc.le hg
      · rw [h]; simp [h0]

/-! ## C13: scaling -/

theorem vscale_vdivs {v : List ℝ} {u : ℝ} (hu : u ≠ 0) : Num.vscale (Num.vdivs v u) u = v := by
  simp only [Num.vscale, Num.vdivs, List.map_map]
  conv_rhs => rw [← List.map_id v]
  apply List.map_congr_left
  intro a _
  simp [hu]

/-- **C13.** After any number of outer iterations the scale factor is positive; each inner solve minimises, in scaled
coordinates, a function whose value at the scaled start is the augmented Lagrangian at exactly the previous outer
iterate, and whose value at `y/scale` is the augmented Lagrangian at `y`, independently of the scale. -/
theorem C13_scaling_invisible (opt : Optimizer ℝ) (hc : opt.CountContract)
    (gradOp : (List ℝ → ℝ) → List ℝ → List ℝ) (p : Problem ℝ) (gplus : List ℝ → List ℝ → ℝ → List ℝ) (x0 : List ℝ)
    (k : ℕ) (s : Status ℝ)
    (h : iterM (outerBody opt gradOp p gplus p.innerTol) k (initStatus p x0) = some s) :
    0 < s.xUnit ∧ Num.vscale (Num.vdivs s.finX s.xUnit) s.xUnit = s.finX ∧
      ∀ (u : ℝ) (y : List ℝ), u ≠ 0 →
        innerObjective p gplus { s with xUnit := u } (Num.vdivs y u) = augLag p gplus s.finLam s.finMu s.finC y := by
  have hpos : 0 < s.xUnit := by
    refine outerIter_invariant (fun s => 0 < s.xUnit) (by simp [initStatus]) ?_ k s h
    intro s t _ hst
    obtain ⟨r, rfl, -⟩ := outerBody_spec hc hst
    simp only [outerUpdate]
    split
    · simp
    · rename_i hne
      have hne' : Num.norm (Num.vscale r.x s.xUnit) ≠ 0 := by simpa using hne
      exact lt_of_le_of_ne (num_norm_nonneg _) (Ne.symm hne')
  refine ⟨hpos, vscale_vdivs hpos.ne', ?_⟩
  intro u y hu
  simp only [innerObjective]
  rw [vscale_vdivs hu]

end Verif
