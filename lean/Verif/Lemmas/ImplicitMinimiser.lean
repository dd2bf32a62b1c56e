import Verif.Props.ImplicitDiff
import Mathlib.Analysis.Calculus.ImplicitFunction.ProdDomain
import Mathlib.Analysis.Calculus.ContDiff.RCLike
import Mathlib.LinearAlgebra.Dual.Lemmas
import Mathlib.Topology.Algebra.Module.FiniteDimension
import Mathlib.Analysis.Normed.Module.FiniteDimension

/-!
# Minimisers that depend on parameters

If the Hessian is not degenerate, the minimiser is a differentiable function of the parameters, and the gradients of C34 are the
derivatives along the minimisers.
-/

namespace Verif

open Filter Topology

section
variable {X Y : Type} [NormedAddCommGroup X] [NormedSpace ℝ X] [FiniteDimensional ℝ X] [NormedAddCommGroup Y] [NormedSpace ℝ Y]

/-- The Hessian in the first argument, `hess v w`. -/
noncomputable def hessian (l : X → Y → ℝ) (x : X) (y : Y) (v w : X) : ℝ := fderiv ℝ (fun x1 => fderiv ℝ (fun x2 => l x2 y) x1 w) x v

omit [FiniteDimensional ℝ X] in
theorem hessian_eq {l : X → Y → ℝ} {x : X} {y : Y} (hl : ContDiffAt ℝ 2 (Function.uncurry l) (x, y)) (v w : X) :
    hessian l x y v w = fderiv ℝ (fderiv ℝ (Function.uncurry l)) (x, y) (v, 0) (w, 0) := by
  have hd : ∀ᶠ p in 𝓝 (x, y), DifferentiableAt ℝ (Function.uncurry l) p := by
    filter_upwards [hl.eventually (by simp)] with p hp
    exact hp.differentiableAt (by norm_num)
  have hd2 : DifferentiableAt ℝ (fderiv ℝ (Function.uncurry l)) (x, y) :=
    (hl.fderiv_right (m := 1) (by norm_num)).differentiableAt (by norm_num)
  have hdx : ∀ᶠ x1 in 𝓝 x, DifferentiableAt ℝ (Function.uncurry l) (x1, y) := by
    have hc : ContinuousAt (fun x : X => (x, y)) x := by fun_prop
    exact hc.eventually hd
  have h2 : (fun x1 => fderiv ℝ (fun x2 => l x2 y) x1 w) =ᶠ[𝓝 x] fun x1 => fderiv ℝ (Function.uncurry l) (x1, y) (w, 0) := by
    filter_upwards [hdx] with x1 hx1
    exact fderiv_fst_eq hx1 w
  have key : HasFDerivAt (fun x1 => fderiv ℝ (Function.uncurry l) (x1, y) (w, 0))
      ((ContinuousLinearMap.apply ℝ ℝ ((w, 0) : X × Y)).comp
        ((fderiv ℝ (fderiv ℝ (Function.uncurry l)) (x, y)).comp (ContinuousLinearMap.inl ℝ X Y))) x :=
    (ContinuousLinearMap.apply ℝ ℝ ((w, 0) : X × Y)).hasFDerivAt.comp x
      (HasFDerivAt.comp x (f := fun x1 : X => (x1, y)) hd2.hasFDerivAt (hasFDerivAt_prodMk_left x y))
  rw [hessian, h2.fderiv_eq, key.fderiv]
  simp

omit [FiniteDimensional ℝ X] in
theorem hessian_add_right {l : X → Y → ℝ} {x : X} {y : Y} (hl : ContDiffAt ℝ 2 (Function.uncurry l) (x, y)) (v w w' : X) :
    hessian l x y v (w + w') = hessian l x y v w + hessian l x y v w' := by
  rw [hessian_eq hl, hessian_eq hl, hessian_eq hl, ← map_add]
  simp

omit [FiniteDimensional ℝ X] in
theorem hessian_smul_right {l : X → Y → ℝ} {x : X} {y : Y} (hl : ContDiffAt ℝ 2 (Function.uncurry l) (x, y)) (v w : X) (t : ℝ) :
    hessian l x y v (t • w) = t * hessian l x y v w := by
  rw [hessian_eq hl, hessian_eq hl, ← smul_eq_mul, ← map_smul]
  simp

/-- The second derivative in the unknowns, as a map into the dual. -/
noncomputable def hessianMap (l : X → Y → ℝ) (x : X) (y : Y) : X →L[ℝ] (X →L[ℝ] ℝ) :=
  ((ContinuousLinearMap.compL ℝ X (X × Y) ℝ).flip (ContinuousLinearMap.inl ℝ X Y)).comp
    ((fderiv ℝ (fderiv ℝ (Function.uncurry l)) (x, y)).comp (ContinuousLinearMap.inl ℝ X Y))

omit [FiniteDimensional ℝ X] in
theorem hessianMap_apply {l : X → Y → ℝ} {x : X} {y : Y} (hl : ContDiffAt ℝ 2 (Function.uncurry l) (x, y)) (v w : X) :
    hessianMap l x y v w = hessian l x y v w := by
  rw [hessian_eq hl]
  simp [hessianMap]

/-- A Hessian without null vector is invertible. -/
theorem hessianMap_bijective {l : X → Y → ℝ} {x : X} {y : Y} (hl : ContDiffAt ℝ 2 (Function.uncurry l) (x, y))
    (hnd : ∀ v, (∀ w, hessian l x y v w = 0) → v = 0) : Function.Bijective (hessianMap l x y) := by
  have hinj : Function.Injective (hessianMap l x y) := by
    rw [injective_iff_map_eq_zero]
    intro v hv
    refine hnd v fun w => ?_
    rw [← hessianMap_apply hl, hv]
    rfl
  refine ⟨hinj, ?_⟩
  have hfin : Module.finrank ℝ X = Module.finrank ℝ (X →L[ℝ] ℝ) := by
    rw [← LinearEquiv.finrank_eq (LinearMap.toContinuousLinearMap (𝕜 := ℝ) (E := X) (F' := ℝ))]
    exact (Subspace.dual_finrank_eq (K := ℝ) (V := X)).symm
  exact (LinearMap.injective_iff_surjective_of_finrank_eq_finrank (f := (hessianMap l x y : X →ₗ[ℝ] (X →L[ℝ] ℝ))) hfin).1 hinj

theorem hessianMap_invertible {l : X → Y → ℝ} {x : X} {y : Y} (hl : ContDiffAt ℝ 2 (Function.uncurry l) (x, y))
    (hnd : ∀ v, (∀ w, hessian l x y v w = 0) → v = 0) : (hessianMap l x y).IsInvertible := by
  have hb := hessianMap_bijective hl hnd
  refine ⟨(LinearEquiv.ofBijective (hessianMap l x y : X →ₗ[ℝ] (X →L[ℝ] ℝ)) hb).toContinuousLinearEquiv, ?_⟩
  ext v w
  rfl

/-- The linear system of the gradients has exactly one solution. -/
theorem solvesHessian_unique {l F : X → Y → ℝ} {x : X} {y : Y} (hl : ContDiffAt ℝ 2 (Function.uncurry l) (x, y))
    (hnd : ∀ v, (∀ w, hessian l x y v w = 0) → v = 0) : ∃! v, SolvesHessian l F x y v := by
  have hb := hessianMap_bijective hl hnd
  have hiff : ∀ v, SolvesHessian l F x y v ↔ hessianMap l x y v = fderiv ℝ (fun x1 => F x1 y) x := by
    intro v
    rw [ContinuousLinearMap.ext_iff]
    exact forall_congr' fun w => by rw [hessianMap_apply hl]; rfl
  obtain ⟨v, hv⟩ := hb.2 (fderiv ℝ (fun x1 => F x1 y) x)
  exact ⟨v, (hiff v).2 hv, fun u hu => hb.1 (((hiff u).1 hu).trans hv.symm)⟩

/-- Near a stationary point with a Hessian that is not degenerate there is a differentiable family of stationary points. -/
theorem stationary_family [CompleteSpace Y] {l : X → Y → ℝ} {x0 : X} {y0 : Y} (hl : ContDiffAt ℝ 2 (Function.uncurry l) (x0, y0))
    (hnd : ∀ v, (∀ w, hessian l x0 y0 v w = 0) → v = 0) (hstat : ∀ w, fderiv ℝ (fun x => l x y0) x0 w = 0) :
    ∃ xs : Y → X, xs y0 = x0 ∧ DifferentiableAt ℝ xs y0 ∧ ∀ᶠ y in 𝓝 y0, ∀ w, fderiv ℝ (fun x => l x y) (xs y) w = 0 := by
  haveI : CompleteSpace X := FiniteDimensional.complete ℝ X
  set L := Function.uncurry l with hL
  have hd : ∀ᶠ p in 𝓝 (x0, y0), DifferentiableAt ℝ L p := by
    filter_upwards [hl.eventually (by simp)] with p hp
    exact hp.differentiableAt (by norm_num)
  have h1 : ContDiffAt ℝ 1 (fderiv ℝ L) (x0, y0) := hl.fderiv_right (m := 1) (by norm_num)
  have hs : HasStrictFDerivAt (fderiv ℝ L) (fderiv ℝ (fderiv ℝ L) (x0, y0)) (x0, y0) := h1.hasStrictFDerivAt (by norm_num)
  have hswap : HasStrictFDerivAt (fun p : Y × X => (p.2, p.1)) ((ContinuousLinearMap.snd ℝ Y X).prod (ContinuousLinearMap.fst ℝ Y X)) (y0, x0) :=
    hasStrictFDerivAt_snd.prodMk hasStrictFDerivAt_fst
  set C := (ContinuousLinearMap.compL ℝ X (X × Y) ℝ).flip (ContinuousLinearMap.inl ℝ X Y) with hC
  have hf : HasStrictFDerivAt (fun p : Y × X => C (fderiv ℝ L (p.2, p.1)))
      (C.comp ((fderiv ℝ (fderiv ℝ L) (x0, y0)).comp ((ContinuousLinearMap.snd ℝ Y X).prod (ContinuousLinearMap.fst ℝ Y X)))) (y0, x0) :=
    C.hasStrictFDerivAt.comp (y0, x0) (HasStrictFDerivAt.comp (y0, x0) (f := fun p : Y × X => (p.2, p.1)) hs hswap)
  have hinv : ((C.comp ((fderiv ℝ (fderiv ℝ L) (x0, y0)).comp ((ContinuousLinearMap.snd ℝ Y X).prod (ContinuousLinearMap.fst ℝ Y X)))) ∘L
      .inr ℝ Y X).IsInvertible := by
    have : (C.comp ((fderiv ℝ (fderiv ℝ L) (x0, y0)).comp ((ContinuousLinearMap.snd ℝ Y X).prod (ContinuousLinearMap.fst ℝ Y X)))) ∘L
        .inr ℝ Y X = hessianMap l x0 y0 := by
      ext v w
      simp [hessianMap, hC, hL]
    rw [this]
    exact hessianMap_invertible hl hnd
  have hzero : ∀ p : Y × X, DifferentiableAt ℝ L (p.2, p.1) → (C (fderiv ℝ L (p.2, p.1)) = 0 ↔
      ∀ w, fderiv ℝ (fun x => l x p.1) p.2 w = 0) := by
    intro p hp
    rw [ContinuousLinearMap.ext_iff]
    refine forall_congr' fun w => ?_
    have := fderiv_fst_eq hp w
    change fderiv ℝ (fun x => l x p.1) p.2 w = _ at this
    rw [this]
    simp [hC]
  have h0 : C (fderiv ℝ L (x0, y0)) = 0 := (hzero (y0, x0) hd.self_of_nhds).2 hstat
  refine ⟨hf.implicitFunctionOfProdDomain hinv, ?_, (hf.hasStrictFDerivAt_implicitFunctionOfProdDomain hinv).differentiableAt, ?_⟩
  · exact (hf.eventually_apply_eq_iff_implicitFunctionOfProdDomain hinv).self_of_nhds.1 rfl
  · have ht := hf.tendsto_implicitFunctionOfProdDomain hinv
    have hcurve : Tendsto (fun y => (hf.implicitFunctionOfProdDomain hinv y, y)) (𝓝 y0) (𝓝 (x0, y0)) :=
      ht.prodMk_nhds tendsto_id
    filter_upwards [hf.eventually_apply_implicitFunctionOfProdDomain hinv, hcurve.eventually hd] with y hy hdy
    exact (hzero (y, _) hdy).1 (hy.trans h0)

/-- A function with a monotone gradient has a Hessian that is not degenerate. -/
theorem hessian_of_monotone {l : X → Y → ℝ} {x0 : X} {y0 : Y} (hl : ContDiffAt ℝ 2 (Function.uncurry l) (x0, y0))
    {q : X → ℝ} (hq : ∀ v, v ≠ 0 → 0 < q v)
    (hm : ∀ v, ∀ᶠ t : ℝ in 𝓝 0, t * q v * t ≤ fderiv ℝ (fun x => l x y0) (x0 + t • v) (t • v) - fderiv ℝ (fun x => l x y0) x0 (t • v)) :
    ∀ v, (∀ w, hessian l x0 y0 v w = 0) → v = 0 := by
  intro v hv
  by_contra hne
  have hqv := hq v hne
  -- the derivative in direction v along the line has derivative `hessian v v = 0`
  have hd2 : DifferentiableAt ℝ (fun x1 => fderiv ℝ (fun x2 => l x2 y0) x1 v) x0 := by
    have hd : ∀ᶠ p in 𝓝 (x0, y0), DifferentiableAt ℝ (Function.uncurry l) p := by
      filter_upwards [hl.eventually (by simp)] with p hp
      exact hp.differentiableAt (by norm_num)
    have hdx : ∀ᶠ x1 in 𝓝 x0, DifferentiableAt ℝ (Function.uncurry l) (x1, y0) := by
      have hc : ContinuousAt (fun x : X => (x, y0)) x0 := by fun_prop
      exact hc.eventually hd
    have h2 : (fun x1 => fderiv ℝ (fun x2 => l x2 y0) x1 v) =ᶠ[𝓝 x0] fun x1 => fderiv ℝ (Function.uncurry l) (x1, y0) (v, 0) := by
      filter_upwards [hdx] with x1 hx1
      exact fderiv_fst_eq hx1 v
    refine DifferentiableAt.congr_of_eventuallyEq ?_ h2
    have hdd : DifferentiableAt ℝ (fderiv ℝ (Function.uncurry l)) (x0, y0) :=
      (hl.fderiv_right (m := 1) (by norm_num)).differentiableAt (by norm_num)
    have hpair : DifferentiableAt ℝ (fun x1 : X => (x1, y0)) x0 := by fun_prop
    exact (DifferentiableAt.comp x0 (f := fun x1 : X => (x1, y0)) hdd hpair).clm_apply (differentiableAt_const _)
  have hline : HasDerivAt (fun t : ℝ => x0 + t • v) v 0 := by
    simpa using ((hasDerivAt_id (0 : ℝ)).smul_const v).const_add x0
  have hder : HasDerivAt (fun t : ℝ => fderiv ℝ (fun x2 => l x2 y0) (x0 + t • v) v) 0 0 := by
    have h0 := hd2.hasFDerivAt
    rw [← (by simp : x0 + (0 : ℝ) • v = x0)] at h0
    have := HasFDerivAt.comp_hasDerivAt (0 : ℝ) h0 hline
    refine this.congr_deriv ?_
    rw [zero_smul, add_zero]
    exact hv v
  have hslope := hasDerivAt_iff_tendsto_slope.1 hder
  have hle : ∀ᶠ t : ℝ in 𝓝[≠] 0, q v ≤ slope (fun t : ℝ => fderiv ℝ (fun x2 => l x2 y0) (x0 + t • v) v) 0 t := by
    filter_upwards [(hm v).filter_mono nhdsWithin_le_nhds, self_mem_nhdsWithin] with t ht htne
    have htne : t ≠ 0 := htne
    rw [slope_def_field, zero_smul, add_zero, sub_zero, map_smul, map_smul, smul_eq_mul, smul_eq_mul] at *
    have h2 : 0 < t * t := mul_self_pos.2 htne
    rw [← mul_sub] at ht
    have h3 : q v * (t * t) ≤ t * (fderiv ℝ (fun x2 => l x2 y0) (x0 + t • v) v - fderiv ℝ (fun x2 => l x2 y0) x0 v) := by
      calc q v * (t * t) = t * q v * t := by ring
        _ ≤ _ := ht
    have h4 : t * (fderiv ℝ (fun x2 => l x2 y0) (x0 + t • v) v - fderiv ℝ (fun x2 => l x2 y0) x0 v) =
        ((fderiv ℝ (fun x2 => l x2 y0) (x0 + t • v) v - fderiv ℝ (fun x2 => l x2 y0) x0 v) / t) * (t * t) := by
      field_simp
    rw [h4] at h3
    exact le_of_mul_le_mul_right h3 h2
  have := ge_of_tendsto hslope hle
  linarith

/-- **The gradient along the minimisers.** For parameters near `y0`, let every stationary point be `best y`. Then `best` is differentiable,
the linear system has one solution, and the reported gradient is the derivative of the metric along `best`. -/
theorem gradient_along_best [CompleteSpace Y] {l : X → Y → ℝ} {y0 : Y} {best : Y → X}
    (hl : ContDiffAt ℝ 2 (Function.uncurry l) (best y0, y0))
    (hnd : ∀ v, (∀ w, hessian l (best y0) y0 v w = 0) → v = 0) (hstat : ∀ w, fderiv ℝ (fun x => l x y0) (best y0) w = 0)
    (huniq : ∀ᶠ y in 𝓝 y0, ∀ x, (∀ w, fderiv ℝ (fun x => l x y) x w = 0) → x = best y) :
    DifferentiableAt ℝ best y0 ∧ ∀ F : X → Y → ℝ, DifferentiableAt ℝ (Function.uncurry F) (best y0, y0) →
      (∃! v, SolvesHessian l F (best y0) y0 v) ∧ ∀ v, SolvesHessian l F (best y0) y0 v →
        ∀ dy, reportedGrad l F (best y0) y0 v dy = fderiv ℝ (fun y => F (best y) y) y0 dy := by
  obtain ⟨xs, hx0, hxd, hxs⟩ := stationary_family hl hnd hstat
  have heq : best =ᶠ[𝓝 y0] xs := by
    filter_upwards [huniq, hxs] with y hu hs
    exact (hu _ hs).symm
  have hb : DifferentiableAt ℝ best y0 := hxd.congr_of_eventuallyEq heq
  refine ⟨hb, fun F hF => ?_⟩
  refine ⟨solvesHessian_unique hl hnd, fun v hv dy => ?_⟩
  refine (C34_reported_is_total_derivative l F y0 best hl hF hb ?_ v hv dy).symm
  filter_upwards [heq, hxs] with y hy hs
  rw [hy]
  exact hs

omit [FiniteDimensional ℝ X] in
/-- The reported gradient through the joint derivatives. -/
theorem reportedGrad_eq {l F : X → Y → ℝ} {x : X} {y : Y} (hl : ContDiffAt ℝ 2 (Function.uncurry l) (x, y))
    (hF : DifferentiableAt ℝ (Function.uncurry F) (x, y)) (v : X) (dy : Y) :
    reportedGrad l F x y v dy = -(fderiv ℝ (fderiv ℝ (Function.uncurry l)) (x, y) (v, 0) (0, dy)) + fderiv ℝ (Function.uncurry F) (x, y) (0, dy) := by
  have hd : ∀ᶠ p in 𝓝 (x, y), DifferentiableAt ℝ (Function.uncurry l) p := by
    filter_upwards [hl.eventually (by simp)] with p hp
    exact hp.differentiableAt (by norm_num)
  have hd2 : DifferentiableAt ℝ (fderiv ℝ (Function.uncurry l)) (x, y) :=
    (hl.fderiv_right (m := 1) (by norm_num)).differentiableAt (by norm_num)
  have hdx : ∀ᶠ x1 in 𝓝 x, DifferentiableAt ℝ (Function.uncurry l) (x1, y) := by
    have hc : ContinuousAt (fun x : X => (x, y)) x := by fun_prop
    exact hc.eventually hd
  have h2 : (fun x1 => fderiv ℝ (fun y1 => l x1 y1) y dy) =ᶠ[𝓝 x] fun x1 => fderiv ℝ (Function.uncurry l) (x1, y) (0, dy) := by
    filter_upwards [hdx] with x1 hx1
    exact fderiv_snd_eq hx1 dy
  have key : HasFDerivAt (fun x1 => fderiv ℝ (Function.uncurry l) (x1, y) (0, dy))
      ((ContinuousLinearMap.apply ℝ ℝ ((0, dy) : X × Y)).comp
        ((fderiv ℝ (fderiv ℝ (Function.uncurry l)) (x, y)).comp (ContinuousLinearMap.inl ℝ X Y))) x :=
    (ContinuousLinearMap.apply ℝ ℝ ((0, dy) : X × Y)).hasFDerivAt.comp x
      (HasFDerivAt.comp x (f := fun x1 : X => (x1, y)) hd2.hasFDerivAt (hasFDerivAt_prodMk_left x y))
  have h3 : fderiv ℝ (fun y1 => F x y1) y dy = fderiv ℝ (Function.uncurry F) (x, y) (0, dy) := fderiv_snd_eq hF dy
  rw [reportedGrad, h2.fderiv_eq, key.fderiv, h3]
  simp

omit [FiniteDimensional ℝ X] in
theorem solvesHessian_iff {l F : X → Y → ℝ} {x : X} {y : Y} (hl : ContDiffAt ℝ 2 (Function.uncurry l) (x, y)) (v : X) :
    SolvesHessian l F x y v ↔ hessianMap l x y v = fderiv ℝ (fun x1 => F x1 y) x := by
  rw [ContinuousLinearMap.ext_iff]
  exact forall_congr' fun w => by rw [hessianMap_apply hl]; rfl

/-- Near a point at which the Hessian is not degenerate the linear system has one solution, and the reported gradients are continuous. -/
theorem reportedGrad_continuous {l F : X → Y → ℝ} {x0 : X} {y0 : Y} (hl : ContDiffAt ℝ 2 (Function.uncurry l) (x0, y0))
    (hF : ContDiffAt ℝ 1 (Function.uncurry F) (x0, y0)) (hnd : ∀ v, (∀ w, hessian l x0 y0 v w = 0) → v = 0) :
    (∀ᶠ x in 𝓝 x0, ∃! v, SolvesHessian l F x y0 v) ∧
      ∀ v0, SolvesHessian l F x0 y0 v0 → ∀ dy, ∀ ε > 0, ∀ᶠ x in 𝓝 x0, ∀ v, SolvesHessian l F x y0 v →
        |reportedGrad l F x y0 v dy - reportedGrad l F x0 y0 v0 dy| < ε := by
  haveI : CompleteSpace X := FiniteDimensional.complete ℝ X
  have hc : ContinuousAt (fun x : X => (x, y0)) x0 := by fun_prop
  have hl2 : ∀ᶠ x in 𝓝 x0, ContDiffAt ℝ 2 (Function.uncurry l) (x, y0) := hc.eventually (hl.eventually (by simp))
  have hF1 : ∀ᶠ x in 𝓝 x0, DifferentiableAt ℝ (Function.uncurry F) (x, y0) := by
    filter_upwards [hc.eventually (hF.eventually (by simp))] with x hx
    exact hx.differentiableAt (by norm_num)
  have hD2 : ContinuousAt (fun x => fderiv ℝ (fderiv ℝ (Function.uncurry l)) (x, y0)) x0 := by
    have h1 : ContDiffAt ℝ 1 (fderiv ℝ (Function.uncurry l)) (x0, y0) := hl.fderiv_right (m := 1) (by norm_num)
    have h0 : ContDiffAt ℝ 0 (fderiv ℝ (fderiv ℝ (Function.uncurry l))) (x0, y0) := h1.fderiv_right (m := 0) (by norm_num)
    exact ContinuousAt.comp (f := fun x : X => (x, y0)) h0.continuousAt hc
  have hDF : ContinuousAt (fun x => fderiv ℝ (Function.uncurry F) (x, y0)) x0 := by
    have h0 : ContDiffAt ℝ 0 (fderiv ℝ (Function.uncurry F)) (x0, y0) := hF.fderiv_right (m := 0) (by norm_num)
    exact ContinuousAt.comp (f := fun x : X => (x, y0)) h0.continuousAt hc
  have hH : ContinuousAt (fun x => hessianMap l x y0) x0 := by
    unfold hessianMap
    exact continuousAt_const.clm_comp (hD2.clm_comp continuousAt_const)
  have hinv := hessianMap_invertible hl hnd
  have hHinv : ContinuousAt (fun x => (hessianMap l x y0).inverse) x0 := by
    have h0 : ContDiffAt ℝ 0 (ContinuousLinearMap.inverse (R := ℝ) (M := X) (M₂ := X →L[ℝ] ℝ)) (hessianMap l x0 y0) := by
      obtain ⟨e, he⟩ := hinv
      rw [← he]
      exact contDiffAt_map_inverse e
    exact ContinuousAt.comp (f := fun x => hessianMap l x y0) h0.continuousAt hH
  have hnear : ∀ᶠ x in 𝓝 x0, (hessianMap l x y0).IsInvertible := by
    obtain ⟨e, he⟩ := hinv
    have := e.nhds
    rw [he] at this
    exact hH.eventually this
  have hsol : ∀ᶠ x in 𝓝 x0, ∀ v, SolvesHessian l F x y0 v ↔
      v = (hessianMap l x y0).inverse ((fderiv ℝ (Function.uncurry F) (x, y0)).comp (ContinuousLinearMap.inl ℝ X Y)) := by
    filter_upwards [hl2, hF1, hnear] with x h1 h2 ⟨e, he⟩ v
    have h3 : fderiv ℝ (fun x1 => F x1 y0) x = (fderiv ℝ (Function.uncurry F) (x, y0)).comp (ContinuousLinearMap.inl ℝ X Y) := by
      ext w
      simpa using fderiv_fst_eq h2 w
    rw [solvesHessian_iff h1, h3, ← he, ContinuousLinearMap.inverse_equiv]
    constructor
    · intro h
      rw [← h]
      simp
    · rintro rfl
      simp
  refine ⟨?_, fun v0 hv0 dy ε hε => ?_⟩
  · filter_upwards [hsol] with x hx
    exact ⟨_, (hx _).2 rfl, fun v hv => (hx v).1 hv⟩
  · set V : X → X := fun x => (hessianMap l x y0).inverse ((fderiv ℝ (Function.uncurry F) (x, y0)).comp (ContinuousLinearMap.inl ℝ X Y)) with hV
    have hVc : ContinuousAt V x0 := hHinv.clm_apply (hDF.clm_comp continuousAt_const)
    have hR : (fun x => reportedGrad l F x y0 (V x) dy) =ᶠ[𝓝 x0] fun x =>
        -(fderiv ℝ (fderiv ℝ (Function.uncurry l)) (x, y0) (V x, 0) (0, dy)) + fderiv ℝ (Function.uncurry F) (x, y0) (0, dy) := by
      filter_upwards [hl2, hF1] with x h1 h2
      exact reportedGrad_eq h1 h2 _ _
    have hpair : ContinuousAt (fun x => ((V x, 0) : X × Y)) x0 := hVc.prodMk continuousAt_const
    have hconst : ContinuousAt (fun _ : X => ((0, dy) : X × Y)) x0 := continuousAt_const
    have h1 := (((hD2.clm_apply hpair).clm_apply hconst).neg.add (hDF.clm_apply hconst)).congr hR.symm
    obtain rfl : v0 = V x0 := (hsol.self_of_nhds _).1 hv0
    filter_upwards [hsol, (Metric.continuousAt_iff'.1 h1) ε hε] with x hx hd v hv
    obtain rfl := (hx v).1 hv
    rwa [Real.dist_eq] at hd

end

end Verif
