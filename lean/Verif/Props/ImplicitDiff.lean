import Verif.Model.ImplicitDiff
import Mathlib.Analysis.Calculus.FDeriv.Prod
import Mathlib.Analysis.Calculus.FDeriv.Mul
import Mathlib.Analysis.Calculus.FDeriv.Pow
import Mathlib.Analysis.Calculus.ContDiff.Operations
import Mathlib.Tactic.Ring
import Mathlib.Tactic.NormNum
import Mathlib.Tactic.Linarith

/-!
# Properties C33, C34, C35, C63: gradients of the metrics
-/

namespace Verif

open Filter Topology

section
variable {X Y : Type} [NormedAddCommGroup X] [NormedSpace ℝ X] [NormedAddCommGroup Y] [NormedSpace ℝ Y]

/-- First partial derivative in the first argument through the joint derivative. -/
theorem fderiv_fst_eq {L : X × Y → ℝ} {x : X} {y : Y} (h : DifferentiableAt ℝ L (x, y)) (w : X) :
    fderiv ℝ (fun x1 => L (x1, y)) x w = fderiv ℝ L (x, y) (w, 0) := by
  have h1 : HasFDerivAt (fun x1 : X => (x1, y)) (ContinuousLinearMap.inl ℝ X Y) x := hasFDerivAt_prodMk_left x y
  have := h.hasFDerivAt.comp x h1
  change fderiv ℝ (L ∘ fun x1 => (x1, y)) x w = _
  rw [this.fderiv]
  simp

theorem fderiv_snd_eq {L : X × Y → ℝ} {x : X} {y : Y} (h : DifferentiableAt ℝ L (x, y)) (w : Y) :
    fderiv ℝ (fun y1 => L (x, y1)) y w = fderiv ℝ L (x, y) (0, w) := by
  have h1 : HasFDerivAt (fun y1 : Y => (x, y1)) (ContinuousLinearMap.inr ℝ X Y) y := hasFDerivAt_prodMk_right x y
  have := h.hasFDerivAt.comp y h1
  change fderiv ℝ (L ∘ fun y1 => (x, y1)) y w = _
  rw [this.fderiv]
  simp

/-- The reported gradient for a family of points that is stationary up to a residual: if the derivative of `l` at `xs y` in
direction `w` is a function of `y` with derivative `R w`, the derivative of the metric along `xs` is the reported gradient
plus `R vihp`. -/
theorem total_derivative_eq_reported_add (l F : X → Y → ℝ) (y0 : Y) (xs : Y → X)
    (hl : ContDiffAt ℝ 2 (Function.uncurry l) (xs y0, y0))
    (hF : DifferentiableAt ℝ (Function.uncurry F) (xs y0, y0)) (hxs : DifferentiableAt ℝ xs y0)
    (R : X → Y →L[ℝ] ℝ) (hR : ∀ w, HasFDerivAt (fun y => fderiv ℝ (fun x => l x y) (xs y) w) (R w) y0)
    (vihp : X) (hv : SolvesHessian l F (xs y0) y0 vihp) (dy : Y) :
    fderiv ℝ (fun y => F (xs y) y) y0 dy = reportedGrad l F (xs y0) y0 vihp dy + R vihp dy := by
  set L := Function.uncurry l with hL
  set p0 : X × Y := (xs y0, y0) with hp0
  have hd : ∀ᶠ p in 𝓝 p0, DifferentiableAt ℝ L p := by
    filter_upwards [hl.eventually (by simp)] with p hp
    exact hp.differentiableAt (by norm_num)
  have hd2 : DifferentiableAt ℝ (fderiv ℝ L) p0 :=
    (hl.fderiv_right (m := 1) (by norm_num)).differentiableAt (by norm_num)
  set B := fderiv ℝ (fderiv ℝ L) p0 with hB
  have hsymm : ∀ u v, B u v = B v u := by
    intro u v
    have := hl.isSymmSndFDerivAt (by simp)
    exact this u v
  have keyX : ∀ u, HasFDerivAt (fun x => fderiv ℝ L (x, y0) u)
      ((ContinuousLinearMap.apply ℝ ℝ u).comp (B.comp (ContinuousLinearMap.inl ℝ X Y))) (xs y0) := by
    intro u
    have h1 : HasFDerivAt (fderiv ℝ L) B (xs y0, y0) := hd2.hasFDerivAt
    exact (ContinuousLinearMap.apply ℝ ℝ u).hasFDerivAt.comp (xs y0)
      (h1.comp (xs y0) (hasFDerivAt_prodMk_left (xs y0) y0))
  have hdx : ∀ᶠ x in 𝓝 (xs y0), DifferentiableAt ℝ L (x, y0) := by
    have hc : ContinuousAt (fun x : X => (x, y0)) (xs y0) := by fun_prop
    exact hc.eventually hd
  -- the Hessian system in terms of B
  have hv' : ∀ w, B (vihp, 0) (w, 0) = fderiv ℝ (Function.uncurry F) p0 (w, 0) := by
    intro w
    have h1 := hv w
    have h2 : (fun x1 => fderiv ℝ (fun x2 => l x2 y0) x1 w) =ᶠ[𝓝 (xs y0)] fun x1 => fderiv ℝ L (x1, y0) (w, 0) := by
      filter_upwards [hdx] with x1 hx1
      exact fderiv_fst_eq hx1 w
    rw [h2.fderiv_eq, (keyX (w, 0)).fderiv] at h1
    have h3 := fderiv_fst_eq hF w
    change fderiv ℝ (fun x1 => F x1 y0) (xs y0) w = _ at h3
    rw [h3] at h1
    simpa using h1
  -- differentiate the stationarity residual
  have hcurve : HasFDerivAt (fun y => (xs y, y)) ((fderiv ℝ xs y0).prod (ContinuousLinearMap.id ℝ Y)) y0 :=
    hxs.hasFDerivAt.prodMk (hasFDerivAt_id y0)
  have hst : ∀ w, B (fderiv ℝ xs y0 dy, dy) (w, 0) = R w dy := by
    intro w
    have h1 : HasFDerivAt (fun y => fderiv ℝ L (xs y, y) (w, 0)) ((ContinuousLinearMap.apply ℝ ℝ ((w, 0) : X × Y)).comp
        (B.comp ((fderiv ℝ xs y0).prod (ContinuousLinearMap.id ℝ Y)))) y0 := by
      have h0 : HasFDerivAt (fderiv ℝ L) B (xs y0, y0) := hd2.hasFDerivAt
      exact (ContinuousLinearMap.apply ℝ ℝ ((w, 0) : X × Y)).hasFDerivAt.comp y0
        (HasFDerivAt.comp (f := fun y => (xs y, y)) y0 h0 hcurve)
    have hdy : ∀ᶠ y in 𝓝 y0, DifferentiableAt ℝ L (xs y, y) := hcurve.continuousAt.eventually hd
    have h2 : (fun y => fderiv ℝ L (xs y, y) (w, 0)) =ᶠ[𝓝 y0] fun y => fderiv ℝ (fun x => l x y) (xs y) w := by
      filter_upwards [hdy] with y hy
      exact (fderiv_fst_eq hy w).symm
    have h3 := (hR w).congr_of_eventuallyEq h2
    have := congrArg (fun (T : Y →L[ℝ] ℝ) => T dy) (h1.unique h3)
    simpa using this
  have hchain : fderiv ℝ (fun y => F (xs y) y) y0 dy =
      fderiv ℝ (Function.uncurry F) p0 (fderiv ℝ xs y0 dy, 0) + fderiv ℝ (Function.uncurry F) p0 (0, dy) := by
    have := HasFDerivAt.comp (f := fun y => (xs y, y)) (g := Function.uncurry F) y0 hF.hasFDerivAt hcurve
    change fderiv ℝ (Function.uncurry F ∘ fun y => (xs y, y)) y0 dy = _
    rw [this.fderiv, ← map_add]
    simp
  have hFy : fderiv ℝ (fun y1 => F (xs y0) y1) y0 dy = fderiv ℝ (Function.uncurry F) p0 (0, dy) := fderiv_snd_eq hF dy
  rw [hchain, reportedGrad, hFy, ← hv', hsymm]
  have h1 : B (fderiv ℝ xs y0 dy, dy) (vihp, 0) =
      B (fderiv ℝ xs y0 dy, 0) (vihp, 0) + B (0, dy) (vihp, 0) := by
    rw [← ContinuousLinearMap.add_apply, ← map_add]
    simp
  have h2 := hst vihp
  rw [h1] at h2
  have h3 : (fun x1 => fderiv ℝ (fun y1 => l x1 y1) y0 dy) =ᶠ[𝓝 (xs y0)] fun x1 => fderiv ℝ L (x1, y0) (0, dy) := by
    filter_upwards [hdx] with x1 hx1
    exact fderiv_snd_eq hx1 dy
  rw [h3.fderiv_eq, (keyX (0, dy)).fderiv]
  have h4 : ((ContinuousLinearMap.apply ℝ ℝ ((0, dy) : X × Y)).comp (B.comp (ContinuousLinearMap.inl ℝ X Y))) vihp =
      B (vihp, 0) (0, dy) := by simp
  rw [h4, hsymm (vihp, 0) (0, dy)]
  linarith

/-- **C34.** Let `xs y` be a differentiable family of stationary points of a Lagrangian `l` that is twice continuously
differentiable near `(xs y0, y0)`, let `vihp` solve the Hessian system, and let the metric `F` be differentiable. Then the
reported gradient is the derivative of `y -> F (xs y) y`. -/
theorem C34_reported_is_total_derivative (l F : X → Y → ℝ) (y0 : Y) (xs : Y → X)
    (hl : ContDiffAt ℝ 2 (Function.uncurry l) (xs y0, y0))
    (hF : DifferentiableAt ℝ (Function.uncurry F) (xs y0, y0)) (hxs : DifferentiableAt ℝ xs y0)
    (hstat : ∀ᶠ y in 𝓝 y0, ∀ w, fderiv ℝ (fun x => l x y) (xs y) w = 0)
    (vihp : X) (hv : SolvesHessian l F (xs y0) y0 vihp) (dy : Y) :
    fderiv ℝ (fun y => F (xs y) y) y0 dy = reportedGrad l F (xs y0) y0 vihp dy := by
  have h := total_derivative_eq_reported_add l F y0 xs hl hF hxs (fun _ => 0) (fun w => ?_) vihp hv dy
  · simpa using h
  · refine (hasFDerivAt_const (0 : ℝ) y0).congr_of_eventuallyEq ?_
    filter_upwards [hstat] with y hy
    exact hy w

end

/-- A problem meeting the hypotheses: `l x y = (x - y)^2`, metric `F x y = x * y`, optimum `x = y`, so
`F (xs y) y = y^2` with derivative 2 at 1. The Hessian is 2 and `vihp = 1/2`. -/
example : ∃ (l F : ℝ → ℝ → ℝ) (xs : ℝ → ℝ) (v : ℝ), ContDiff ℝ 2 (Function.uncurry l) ∧
    DifferentiableAt ℝ (Function.uncurry F) (xs 1, 1) ∧ DifferentiableAt ℝ xs 1 ∧
    (∀ᶠ y in 𝓝 1, ∀ w, fderiv ℝ (fun x => l x y) (xs y) w = 0) ∧ SolvesHessian l F (xs 1) 1 v ∧
    reportedGrad l F (xs 1) 1 v 1 = 2 := by
  have hx : ∀ y x w : ℝ, fderiv ℝ (fun x : ℝ => (x - y) ^ 2) x w = 2 * (x - y) * w := by
    intro y x w
    have : HasFDerivAt (fun x : ℝ => (x - y) ^ 2) ((2 * (x - y)) • ContinuousLinearMap.id ℝ ℝ) x := by
      simpa using ((hasFDerivAt_id x).sub_const y).pow 2
    rw [this.fderiv]
    simp
  have hy : ∀ y x w : ℝ, fderiv ℝ (fun y : ℝ => (x - y) ^ 2) y w = 2 * (y - x) * w := by
    intro y x w
    have : (fun y : ℝ => (x - y) ^ 2) = fun y => (y - x) ^ 2 := by funext; ring
    rw [this, hx]
  have hsolve : SolvesHessian (fun x y : ℝ => (x - y) ^ 2) (fun x y => x * y) 1 1 (1 / 2) := by
    intro w
    simp only [hx]
    have h1 : HasFDerivAt (fun x : ℝ => 2 * (x - 1) * w) ((2 * w) • ContinuousLinearMap.id ℝ ℝ) 1 := by
      have := (((hasFDerivAt_id (𝕜 := ℝ) (1 : ℝ)).sub_const 1).const_mul 2).mul_const w
      refine this.congr_fderiv ?_
      ext
      simp [mul_comm]
    have h2 : HasFDerivAt (fun x : ℝ => x * 1) (ContinuousLinearMap.id ℝ ℝ) (1 : ℝ) := by
      refine ((hasFDerivAt_id (𝕜 := ℝ) (1 : ℝ)).mul_const 1).congr_fderiv ?_
      ext
      simp
    rw [h1.fderiv, h2.fderiv]
    simp
    ring
  have hCD : ContDiff ℝ 2 (Function.uncurry fun x y : ℝ => (x - y) ^ 2) := by
    change ContDiff ℝ 2 fun p : ℝ × ℝ => (p.1 - p.2) ^ 2
    fun_prop
  have hFd : DifferentiableAt ℝ (Function.uncurry fun x y : ℝ => x * y) (1, 1) := by
    change DifferentiableAt ℝ (fun p : ℝ × ℝ => p.1 * p.2) (1, 1)
    fun_prop
  have hst : ∀ᶠ y in 𝓝 (1 : ℝ), ∀ w, fderiv ℝ (fun x : ℝ => (x - y) ^ 2) y w = 0 := by
    filter_upwards with y w
    rw [hx]
    ring
  refine ⟨fun x y => (x - y) ^ 2, fun x y => x * y, fun y => y, 1 / 2, hCD, hFd, differentiableAt_id, hst, hsolve, ?_⟩
  rw [← C34_reported_is_total_derivative _ _ 1 (fun y => y) hCD.contDiffAt hFd differentiableAt_id hst _ hsolve 1]
  have : HasFDerivAt (fun y : ℝ => y * y) ((2 : ℝ) • ContinuousLinearMap.id ℝ ℝ) 1 := by
    refine ((hasFDerivAt_id (1 : ℝ)).mul (hasFDerivAt_id (1 : ℝ))).congr_fderiv ?_
    ext
    norm_num
  rw [this.fderiv]
  simp

/-! ## C63 -/

section
variable {X : Type} [NormedAddCommGroup X] [NormedSpace ℝ X] {n : ℕ}

/-- **C63, false of the code.** At an unconstrained optimum with nondegenerate Hessian the reported derivative of `f_obj`
with respect to the objective weights is zero in every direction. -/
theorem C63_reported_weight_gradient_zero_violated_partial (f : Fin n → X → ℝ) (w0 : Fin n → ℝ) (x0 : X)
    (hstat : ∀ u, fderiv ℝ (fun x => weightedObjective f x w0) x0 u = 0)
    (hnondeg : ∀ v, (∀ u, fderiv ℝ (fun x1 => fderiv ℝ (fun x2 => weightedObjective f x2 w0) x1 u) x0 v = 0) → v = 0)
    (vihp : X) (hv : SolvesHessian (weightedObjective f) (fObjMetric f w0) x0 w0 vihp) (dw : Fin n → ℝ) :
    reportedGrad (weightedObjective f) (fObjMetric f w0) x0 w0 vihp dw = 0 := by
  have : vihp = 0 := by
    apply hnondeg
    intro u
    rw [hv u]
    exact hstat u
  subst this
  simp [reportedGrad, fObjMetric]

/-- What it should be: the derivative of the optimal objective with respect to weight `i` is the value of term `i`. -/
theorem C63_true_weight_gradient_partial (f : Fin n → X → ℝ) (hf : ∀ i, Differentiable ℝ (f i)) (w0 : Fin n → ℝ)
    (xs : (Fin n → ℝ) → X) (hxs : DifferentiableAt ℝ xs w0)
    (hstat : ∀ u, fderiv ℝ (fun x => weightedObjective f x w0) (xs w0) u = 0) (dw : Fin n → ℝ) :
    fderiv ℝ (fun w => weightedObjective f (xs w) w) w0 dw = ∑ i, dw i * f i (xs w0) := by
  have hder : HasFDerivAt (fun w => weightedObjective f (xs w) w)
      (∑ i, (w0 i • (fderiv ℝ (f i) (xs w0)).comp (fderiv ℝ xs w0) + f i (xs w0) • ContinuousLinearMap.proj i)) w0 := by
    unfold weightedObjective
    apply HasFDerivAt.fun_sum
    intro i _
    have h1 : HasFDerivAt (fun w : Fin n → ℝ => w i) (ContinuousLinearMap.proj i : (Fin n → ℝ) →L[ℝ] ℝ) w0 :=
      hasFDerivAt_apply i w0
    have h2 : HasFDerivAt (fun w => f i (xs w)) ((fderiv ℝ (f i) (xs w0)).comp (fderiv ℝ xs w0)) w0 :=
      ((hf i) (xs w0)).hasFDerivAt.comp w0 hxs.hasFDerivAt
    exact h1.mul h2
  have hx : HasFDerivAt (fun x => weightedObjective f x w0) (∑ i, w0 i • fderiv ℝ (f i) (xs w0)) (xs w0) := by
    unfold weightedObjective
    apply HasFDerivAt.fun_sum
    intro i _
    exact ((hf i) (xs w0)).hasFDerivAt.const_mul (w0 i)
  have h0 := hstat (fderiv ℝ xs w0 dw)
  rw [hx.fderiv] at h0
  rw [hder.fderiv]
  simp only [ContinuousLinearMap.sum_apply, ContinuousLinearMap.smul_apply, smul_eq_mul, ContinuousLinearMap.add_apply,
    ContinuousLinearMap.comp_apply, ContinuousLinearMap.proj_apply] at h0 ⊢
  rw [Finset.sum_add_distrib, h0, zero_add]
  exact Finset.sum_congr rfl fun i _ => mul_comm _ _

end

/-- A concrete problem: one term `x^2 + 1` with weight 1. The optimum is 0, the true derivative is 1, the reported one 0. -/
theorem C63_witness_violated_partial :
    ∃ (f : Fin 1 → ℝ → ℝ) (w0 : Fin 1 → ℝ) (xs : (Fin 1 → ℝ) → ℝ) (vihp : ℝ),
      (∀ u, fderiv ℝ (fun x => weightedObjective f x w0) (xs w0) u = 0) ∧
      SolvesHessian (weightedObjective f) (fObjMetric f w0) (xs w0) w0 vihp ∧
      fderiv ℝ (fun w => weightedObjective f (xs w) w) w0 (fun _ => 1) = 1 ∧
      reportedGrad (weightedObjective f) (fObjMetric f w0) (xs w0) w0 vihp (fun _ => 1) = 0 := by
  have hd : ∀ x w : ℝ, fderiv ℝ (fun x : ℝ => weightedObjective (n := 1) (fun _ x => x ^ 2 + 1) x (fun _ => 1)) x w =
      2 * x * w := by
    intro x w
    have h : HasFDerivAt (fun x : ℝ => weightedObjective (n := 1) (fun _ x => x ^ 2 + 1) x (fun _ => 1))
        ((2 * x) • ContinuousLinearMap.id ℝ ℝ) x := by
      have := ((hasFDerivAt_id (𝕜 := ℝ) x).pow 2).add_const (1 : ℝ)
      simpa [weightedObjective] using this
    rw [h.fderiv]
    simp
  have hs : ∀ u, fderiv ℝ (fun x : ℝ => weightedObjective (n := 1) (fun _ x => x ^ 2 + 1) x (fun _ => 1)) 0 u = 0 := by
    intro u
    rw [hd]
    ring
  have hsolve : SolvesHessian (weightedObjective (n := 1) fun _ (x : ℝ) => x ^ 2 + 1)
      (fObjMetric (fun _ x => x ^ 2 + 1) fun _ => 1) 0 (fun _ => 1) 0 := by
    intro u
    rw [map_zero]
    exact (hs u).symm
  refine ⟨fun _ x => x ^ 2 + 1, fun _ => 1, fun _ => 0, 0, hs, hsolve, ?_, ?_⟩
  · rw [C63_true_weight_gradient_partial _ (fun _ => by fun_prop) _ (fun _ => 0) (by fun_prop) hs]
    simp
  · apply C63_reported_weight_gradient_zero_violated_partial _ _ _ hs _ _ hsolve
    intro v hv
    have := hv 1
    simp only [hd] at this
    have h1 : HasFDerivAt (fun x : ℝ => 2 * x * 1) ((2 : ℝ) • ContinuousLinearMap.id ℝ ℝ) 0 := by
      have := ((hasFDerivAt_id (𝕜 := ℝ) (0 : ℝ)).const_mul 2)
      simpa using this
    rw [h1.fderiv] at this
    simpa using this

/-! ## C35 -/

section
variable {n : ℕ}

/-- **C35.** The vector used has the smaller residual of the two. -/
theorem C35_choice_has_smaller_residual (hess : Matrix (Fin n) (Fin n) ℝ) (b raw pre : Fin n → ℝ) :
    (chooseVihp hess b raw pre = raw ∨ chooseVihp hess b raw pre = pre) ∧
    norm2 (hess.mulVec (chooseVihp hess b raw pre) - b) =
      min (norm2 (hess.mulVec raw - b)) (norm2 (hess.mulVec pre - b)) := by
  unfold chooseVihp
  split
  · rename_i h
    exact ⟨Or.inl rfl, (min_eq_left h.le).symm⟩
  · rename_i h
    exact ⟨Or.inr rfl, (min_eq_right (not_lt.1 h)).symm⟩

theorem norm2_eq_zero (v : Fin n → ℝ) : norm2 v = 0 ↔ v = 0 := by
  unfold norm2
  rw [Real.sqrt_eq_zero (Finset.sum_nonneg fun i _ => sq_nonneg _),
    Finset.sum_eq_zero_iff_of_nonneg fun i _ => sq_nonneg _]
  constructor
  · intro h
    funext i
    simpa using h i (Finset.mem_univ i)
  · rintro rfl
    simp

/-- **C35.** If either of the two solves the original system exactly, so does the chosen vector. -/
theorem C35_exact_if_either_exact (hess : Matrix (Fin n) (Fin n) ℝ) (b raw pre : Fin n → ℝ)
    (h : hess.mulVec raw = b ∨ hess.mulVec pre = b) : hess.mulVec (chooseVihp hess b raw pre) = b := by
  have hnn : ∀ v : Fin n → ℝ, 0 ≤ norm2 v := fun v => Real.sqrt_nonneg _
  have := (C35_choice_has_smaller_residual hess b raw pre).2
  rw [← sub_eq_zero, ← norm2_eq_zero, this]
  rcases h with h | h
  · rw [h, sub_self, (norm2_eq_zero _).2 rfl, min_eq_left (hnn _)]
  · rw [h, sub_self, (norm2_eq_zero _).2 rfl, min_eq_right (hnn _)]

/-- **C35.** If the projectors are exact (`projC` fixes the range of `C`, `annilC` kills it, `annilBC` kills the range of `B`
off `C`), every solution of the original system solves the preconditioned one. -/
theorem C35_preconditioned_keeps_solutions (sAC sBC : ℝ) (projC annilC projBC annilBC A B C : Matrix (Fin n) (Fin n) ℝ)
    (h1 : projC * C = C) (h2 : annilC * C = 0) (h3 : annilBC * annilC * B = 0) (v b : Fin n → ℝ)
    (hv : (A + B + C).mulVec v = b) :
    (precondHess sAC sBC projC annilC projBC annilBC A B C).mulVec v =
      precondVec sAC sBC projC annilC projBC annilBC b := by
  have hO : precondHess sAC sBC projC annilC projBC annilBC A B C =
      (sAC • (annilBC * annilC) + sBC • (projBC * annilC) + projC) * (A + B + C) := by
    simp only [precondHess, mul_add, add_mul, Matrix.smul_mul]
    rw [h1, h3, Matrix.mul_assoc annilBC annilC C, Matrix.mul_assoc projBC annilC C, h2]
    simp only [mul_zero, smul_zero]
    abel
  rw [hO, ← Matrix.mulVec_mulVec, hv]
  simp [precondVec, Matrix.add_mulVec, Matrix.smul_mulVec]

theorem scaled_idempotents_inv {s t : ℝ} (hs : s ≠ 0) (ht : t ≠ 0) (E F G : Matrix (Fin n) (Fin n) ℝ)
    (h11 : E * E = E) (h12 : E * F = 0) (h13 : E * G = 0) (h21 : F * E = 0) (h22 : F * F = F) (h23 : F * G = 0)
    (h31 : G * E = 0) (h32 : G * F = 0) (h33 : G * G = G) (hsum : E + F + G = 1) :
    (s⁻¹ • E + t⁻¹ • F + G) * (s • E + t • F + G) = 1 := by
  simp only [add_mul, mul_add, Matrix.smul_mul, Matrix.mul_smul, h11, h12, h13, h21, h22, h23, h31, h32, h33, smul_smul,
    smul_zero, add_zero, zero_add, mul_inv_cancel₀ hs, mul_inv_cancel₀ ht, inv_mul_cancel₀ hs, inv_mul_cancel₀ ht, one_smul]
  exact hsum

/-- **C35.** If moreover the projectors are complementary and compatible and both scales are non-zero, the two systems have
the same solutions. -/
theorem C35_preconditioned_equivalent (sAC sBC : ℝ) (hAC : sAC ≠ 0) (hBC : sBC ≠ 0)
    (projC annilC projBC annilBC A B C : Matrix (Fin n) (Fin n) ℝ)
    (h1 : projC * C = C) (h2 : annilC * C = 0) (h3 : annilBC * annilC * B = 0)
    (hc1 : projC + annilC = 1) (hc2 : projBC + annilBC = 1) (hi : projC * projC = projC) (hi2 : projBC * projBC = projBC)
    (hsub : projBC * projC = projC) (hsub2 : projC * projBC = projC) (v b : Fin n → ℝ) :
    (A + B + C).mulVec v = b ↔ (precondHess sAC sBC projC annilC projBC annilBC A B C).mulVec v =
      precondVec sAC sBC projC annilC projBC annilBC b := by
  refine ⟨C35_preconditioned_keeps_solutions sAC sBC projC annilC projBC annilBC A B C h1 h2 h3 v b, fun h => ?_⟩
  have ha : annilC = 1 - projC := by rw [← hc1]; abel
  have hb : annilBC = 1 - projBC := by rw [← hc2]; abel
  have hfwd := C35_preconditioned_keeps_solutions sAC sBC projC annilC projBC annilBC A B C h1 h2 h3 v _ rfl
  rw [hfwd] at h
  have hlin : precondVec sAC sBC projC annilC projBC annilBC ((A + B + C).mulVec v - b) = 0 := by
    have := sub_eq_zero.2 h
    rw [← this]
    simp only [precondVec, Matrix.mulVec_sub, smul_sub]
    abel
  have hinv : (sAC⁻¹ • (annilBC * annilC) + sBC⁻¹ • (projBC * annilC) + projC) *
      (sAC • (annilBC * annilC) + sBC • (projBC * annilC) + projC) = 1 := by
    have e1 : annilBC * annilC = 1 - projBC := by
      rw [ha, hb]
      simp only [mul_sub, sub_mul, one_mul, mul_one, hsub]
      abel
    have e2 : projBC * annilC = projBC - projC := by
      rw [ha]
      simp only [mul_sub, mul_one, hsub]
    have f11 : (1 - projBC) * (1 - projBC) = 1 - projBC := by
      simp only [mul_sub, sub_mul, one_mul, mul_one, hi2]
      abel
    have f12 : (1 - projBC) * (projBC - projC) = 0 := by
      simp only [mul_sub, sub_mul, one_mul, hi2, hsub]
      abel
    have f13 : (1 - projBC) * projC = 0 := by
      simp only [sub_mul, one_mul, hsub, sub_self]
    have f21 : (projBC - projC) * (1 - projBC) = 0 := by
      simp only [mul_sub, sub_mul, mul_one, hi2, hsub2]
      abel
    have f22 : (projBC - projC) * (projBC - projC) = projBC - projC := by
      simp only [mul_sub, sub_mul, hi2, hsub, hsub2, hi]
      abel
    have f23 : (projBC - projC) * projC = 0 := by
      simp only [sub_mul, hsub, hi, sub_self]
    have f31 : projC * (1 - projBC) = 0 := by
      simp only [mul_sub, mul_one, hsub2, sub_self]
    have f32 : projC * (projBC - projC) = 0 := by
      simp only [mul_sub, hsub2, hi, sub_self]
    rw [e1, e2]
    have hsum : (1 - projBC) + (projBC - projC) + projC = 1 := by abel
    exact scaled_idempotents_inv hAC hBC _ _ _ f11 f12 f13 f21 f22 f23 f31 f32 hi hsum
  have : ((sAC⁻¹ • (annilBC * annilC) + sBC⁻¹ • (projBC * annilC) + projC) *
      (sAC • (annilBC * annilC) + sBC • (projBC * annilC) + projC)).mulVec ((A + B + C).mulVec v - b) = 0 := by
    rw [← Matrix.mulVec_mulVec]
    have e : (sAC • (annilBC * annilC) + sBC • (projBC * annilC) + projC).mulVec ((A + B + C).mulVec v - b) = 0 := by
      rw [← hlin]
      simp [precondVec, Matrix.add_mulVec, Matrix.smul_mulVec]
    rw [e, Matrix.mulVec_zero]
  rw [hinv, Matrix.one_mulVec] at this
  exact sub_eq_zero.1 this

/-- Diagonal matrices of rank one in three directions meet all the hypotheses. -/
example : ∃ projC annilC projBC annilBC A B C : Matrix (Fin 3) (Fin 3) ℝ,
    projC * C = C ∧ annilC * C = 0 ∧ annilBC * annilC * B = 0 ∧ projC + annilC = 1 ∧ projBC + annilBC = 1 ∧
    projC * projC = projC ∧ projBC * projBC = projBC ∧ projBC * projC = projC ∧ projC * projBC = projC ∧
    A ≠ 0 ∧ B ≠ 0 ∧ C ≠ 0 := by
  refine ⟨Matrix.diagonal ![0, 0, 1], Matrix.diagonal ![1, 1, 0], Matrix.diagonal ![0, 1, 1], Matrix.diagonal ![1, 0, 0],
    Matrix.diagonal ![1, 0, 0], Matrix.diagonal ![0, 10, 0], Matrix.diagonal ![0, 0, 100], ?_⟩
  simp only [Matrix.diagonal_mul_diagonal, Matrix.diagonal_add, ← Matrix.diagonal_one, ← Matrix.diagonal_zero, ne_eq,
    Matrix.diagonal_injective.eq_iff, funext_iff, Fin.forall_fin_succ]
  simp

/-! ## C33 -/

/-- **C33.** Along every curve of invertible systems `A(t) x(t) = b(t)`, the cotangents returned for `A` and `b`, paired with
the perturbations, give the derivative of `<g, x>`. The solve contracts are `A^T v = g` and `A x = b`. -/
theorem C33_bwd_is_adjoint (A : ℝ → Matrix (Fin n) (Fin n) ℝ) (x b : ℝ → Fin n → ℝ) (dA : Matrix (Fin n) (Fin n) ℝ)
    (dx db : Fin n → ℝ) (hA : ∀ i j, HasDerivAt (fun t => A t i j) (dA i j) 0)
    (hx : ∀ i, HasDerivAt (fun t => x t i) (dx i) 0) (hb : ∀ i, HasDerivAt (fun t => b t i) (db i) 0)
    (hsolve : ∀ t, (A t).mulVec (x t) = b t) (g v : Fin n → ℝ) (hv : (A 0).transpose.mulVec v = g) :
    HasDerivAt (fun t => ∑ i, g i * x t i)
      (∑ i, ∑ j, (safeSolveBwd (x 0) v).1 i j * dA i j + ∑ i, (safeSolveBwd (x 0) v).2 i * db i) 0 := by
  have hd : HasDerivAt (fun t => ∑ i, g i * x t i) (∑ i, g i * dx i) 0 :=
    HasDerivAt.fun_sum fun i _ => (hx i).const_mul (g i)
  have hrow : ∀ i, ∑ j, (dA i j * x 0 j + A 0 i j * dx j) = db i := by
    intro i
    have h1 : HasDerivAt (fun t => ∑ j, A t i j * x t j) (∑ j, (dA i j * x 0 j + A 0 i j * dx j)) 0 :=
      HasDerivAt.fun_sum fun j _ => (hA i j).mul (hx j)
    have h2 : (fun t => ∑ j, A t i j * x t j) = fun t => b t i := by
      funext t
      rw [← hsolve t]
      rfl
    rw [h2] at h1
    exact h1.unique (hb i)
  convert hd using 1
  simp only [safeSolveBwd, Matrix.neg_apply, Matrix.of_apply]
  have e1 : ∑ i, v i * db i = ∑ i, ∑ j, v i * (dA i j * x 0 j) + ∑ i, ∑ j, v i * (A 0 i j * dx j) := by
    rw [← Finset.sum_add_distrib]
    apply Finset.sum_congr rfl
    intro i _
    rw [← hrow i, Finset.mul_sum, ← Finset.sum_add_distrib]
    exact Finset.sum_congr rfl fun j _ => by ring
  have e2 : ∑ i, g i * dx i = ∑ i, ∑ j, v i * (A 0 i j * dx j) := by
    rw [Finset.sum_comm]
    apply Finset.sum_congr rfl
    intro j _
    rw [← hv]
    simp only [Matrix.mulVec, dotProduct, Matrix.transpose_apply]
    rw [Finset.sum_mul]
    exact Finset.sum_congr rfl fun i _ => by ring
  have e3 : ∑ i, ∑ j, -(v i * x 0 j) * dA i j = -∑ i, ∑ j, v i * (dA i j * x 0 j) := by
    rw [← Finset.sum_neg_distrib]
    apply Finset.sum_congr rfl
    intro i _
    rw [← Finset.sum_neg_distrib]
    exact Finset.sum_congr rfl fun j _ => by ring
  rw [e1, e2, e3]
  ring

/-- The system `(2 + t) x = 6` with `g = 1`: `x = 6/(2+t)`, `v = 1/2`, derivative `-3/2`. -/
example : ∃ (A : ℝ → Matrix (Fin 1) (Fin 1) ℝ) (dA : Matrix (Fin 1) (Fin 1) ℝ) (v g : Fin 1 → ℝ),
    (∀ i j, HasDerivAt (fun t => A t i j) (dA i j) 0) ∧ (A 0).transpose.mulVec v = g ∧ g = fun _ => 1 := by
  refine ⟨fun t => Matrix.of fun _ _ => 2 + t, Matrix.of fun _ _ => 1, fun _ => 1 / 2, fun _ => 1, ?_, ?_, rfl⟩
  · intro i j
    simpa using (hasDerivAt_id (0 : ℝ)).const_add 2
  · funext i
    simp [Matrix.mulVec, dotProduct]

end

end Verif
