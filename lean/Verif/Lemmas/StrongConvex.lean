import Verif.Lemmas.SmoothConvex
import Verif.Props.GapBound
import Mathlib.Analysis.Calculus.LocalExtr.Basic

/-!
# Differentiable functions that stay convex after subtracting a multiple of the squared norm
-/

namespace Verif

variable {N : ℕ}

structure StrongConvex (ν : ℝ) (F : (Fin N → ℝ) → ℝ) : Prop where
  convex : ConvexFn fun x => F x - ν * ∑ i, x i ^ 2
  diff : Differentiable ℝ F

/-- The squared norm and its tangent. -/
theorem sq_hasFDerivAt (ν : ℝ) (x : Fin N → ℝ) :
    HasFDerivAt (fun y : Fin N → ℝ => ν * ∑ i, y i ^ 2) (ν • ∑ i, (2 * x i) • ContinuousLinearMap.proj (R := ℝ) (φ := fun _ : Fin N => ℝ) i) x := by
  refine HasFDerivAt.const_mul ?_ ν
  refine HasFDerivAt.fun_sum fun i _ => ?_
  have h1 : HasFDerivAt (fun y : Fin N → ℝ => y i) (ContinuousLinearMap.proj (R := ℝ) (φ := fun _ : Fin N => ℝ) i) x :=
    hasFDerivAt_apply i x
  have h2 := h1.pow 2
  refine h2.congr_fderiv ?_
  ext v
  simp

/-- The function lies above a parabola that touches it. -/
theorem StrongConvex.tangent {ν : ℝ} {F : (Fin N → ℝ) → ℝ} (h : StrongConvex ν F) {x : Fin N → ℝ} {D : (Fin N → ℝ) →L[ℝ] ℝ}
    (hD : HasFDerivAt F D x) (y : Fin N → ℝ) : F x + D (y - x) + ν * ∑ i, (y i - x i) ^ 2 ≤ F y := by
  have h1 := convex_tangent h.convex.on (hD.sub (sq_hasFDerivAt ν x)) y
  simp only [sub_apply, ContinuousLinearMap.coe_sub', Pi.sub_apply, ContinuousLinearMap.coe_smul', Pi.smul_apply, ContinuousLinearMap.coe_sum',
    Finset.sum_apply, ContinuousLinearMap.proj_apply, smul_eq_mul] at h1
  have h2 : ν * ∑ i, (y i - x i) ^ 2 = ν * ∑ i, y i ^ 2 - ν * ∑ i, x i ^ 2 - ν * ∑ i, 2 * x i * (y i - x i) := by
    rw [← mul_sub, ← mul_sub, ← Finset.sum_sub_distrib, ← Finset.sum_sub_distrib]
    congr 1
    exact Finset.sum_congr rfl fun i _ => by ring
  rw [h2]
  linarith

/-- Where it is minimal, it grows. -/
theorem StrongConvex.growth {ν : ℝ} {F : (Fin N → ℝ) → ℝ} (h : StrongConvex ν F) {x : Fin N → ℝ} (hmin : ∀ y, F x ≤ F y) (y : Fin N → ℝ) :
    F x + ν * ∑ i, (y i - x i) ^ 2 ≤ F y := by
  have h0 : HasFDerivAt F (0 : (Fin N → ℝ) →L[ℝ] ℝ) x := by
    have := (h.diff x).hasFDerivAt
    rwa [IsLocalMin.fderiv_eq_zero (Filter.Eventually.of_forall hmin)] at this
  simpa using h.tangent h0 y

/-- It has exactly one minimiser. -/
theorem StrongConvex.exists_min {ν : ℝ} (hν : 0 < ν) {F : (Fin N → ℝ) → ℝ} (h : StrongConvex ν F) : ∃! x, ∀ y, F x ≤ F y := by
  have hex : ∃ x, ∀ y, F x ≤ F y := by
    have hcont : Continuous F := h.diff.continuous
    obtain ⟨r, hr⟩ : ∃ r, r = (1 + ∑ i, |fderiv ℝ F 0 (Pi.single i 1)|) / ν := ⟨_, rfl⟩
    have hS : 0 ≤ ∑ i, |fderiv ℝ F 0 (Pi.single i 1)| := Finset.sum_nonneg fun i _ => abs_nonneg _
    have hr0 : 0 ≤ r := by
      rw [hr]
      positivity
    obtain ⟨x, hx, hxm⟩ := (isCompact_closedBall (0 : Fin N → ℝ) r).exists_isMinOn ⟨0, by simp [hr0]⟩ hcont.continuousOn
    refine ⟨x, fun y => ?_⟩
    by_cases hy : y ∈ Metric.closedBall (0 : Fin N → ℝ) r
    · exact hxm hy
    · have h0 : F x ≤ F 0 := hxm (by simp [hr0])
      have hn : r < ‖y‖ := by simpa using hy
      have ht := h.tangent (h.diff 0).hasFDerivAt y
      simp only [sub_zero, Pi.zero_apply] at ht
      have h1 : -((∑ i, |fderiv ℝ F 0 (Pi.single i 1)|) * ‖y‖) ≤ fderiv ℝ F 0 y := by
        rw [clm_eq_sum, Finset.sum_mul, ← Finset.sum_neg_distrib]
        refine Finset.sum_le_sum fun i _ => ?_
        have h2 : |fderiv ℝ F 0 (Pi.single i 1) * y i| ≤ |fderiv ℝ F 0 (Pi.single i 1)| * ‖y‖ := by
          rw [abs_mul]
          exact mul_le_mul_of_nonneg_left (norm_le_pi_norm y i) (abs_nonneg _)
        exact (abs_le.1 h2).1
      have h2 : ‖y‖ ^ 2 ≤ ∑ i, y i ^ 2 := by
        have hsq : 0 ≤ ∑ i, y i ^ 2 := Finset.sum_nonneg fun i _ => sq_nonneg _
        have h3 : ‖y‖ ≤ Real.sqrt (∑ i, y i ^ 2) := by
          refine (pi_norm_le_iff_of_nonneg (Real.sqrt_nonneg _)).2 fun i => ?_
          rw [Real.norm_eq_abs]
          refine Real.abs_le_sqrt ?_
          exact Finset.single_le_sum (f := fun i => y i ^ 2) (fun i _ => sq_nonneg _) (Finset.mem_univ i)
        calc ‖y‖ ^ 2 ≤ Real.sqrt (∑ i, y i ^ 2) ^ 2 := pow_le_pow_left₀ (norm_nonneg _) h3 2
          _ = _ := Real.sq_sqrt hsq
      have h4 : ν * ‖y‖ ^ 2 ≤ ν * ∑ i, y i ^ 2 := mul_le_mul_of_nonneg_left h2 hν.le
      have h5 : 1 + ∑ i, |fderiv ℝ F 0 (Pi.single i 1)| < ν * ‖y‖ := by
        rw [hr, div_lt_iff₀ hν] at hn
        linarith
      nlinarith [norm_nonneg y]
  obtain ⟨x, hx⟩ := hex
  refine ⟨x, hx, fun y hy => ?_⟩
  have h1 := h.growth hx y
  have h2 := hy x
  have h3 : ∑ i, (y i - x i) ^ 2 ≤ 0 := by
    by_contra hlt
    push Not at hlt
    nlinarith [mul_pos hν hlt]
  funext i
  have h4 := (Finset.sum_eq_zero_iff_of_nonneg (fun i _ => sq_nonneg (y i - x i))).1
    (le_antisymm h3 (Finset.sum_nonneg fun i _ => sq_nonneg _)) i (Finset.mem_univ i)
  have := pow_eq_zero_iff (n := 2) (by norm_num) |>.1 h4
  linarith

/-- The distance to the minimiser is at most the norm of the gradient over `2 * ν`. -/
theorem StrongConvex.gradient {ν : ℝ} {F : (Fin N → ℝ) → ℝ} (h : StrongConvex ν F) {x : Fin N → ℝ} (hmin : ∀ y, F x ≤ F y)
    {y : Fin N → ℝ} {D : (Fin N → ℝ) →L[ℝ] ℝ} (hD : HasFDerivAt F D y) :
    2 * ν * Real.sqrt (∑ i, (y i - x i) ^ 2) ≤ Real.sqrt (∑ i, D (Pi.single i 1) ^ 2) := by
  have h1 := h.growth hmin y
  have h2 := h.tangent hD x
  have h3 : -D (x - y) ≤ Real.sqrt (∑ i, D (Pi.single i 1) ^ 2) * Real.sqrt (∑ i, (y i - x i) ^ 2) := by
    have := Real.sum_mul_le_sqrt_mul_sqrt Finset.univ (fun i => D (Pi.single i 1)) fun i => y i - x i
    refine le_trans (le_of_eq ?_) this
    rw [clm_eq_sum, ← Finset.sum_neg_distrib]
    exact Finset.sum_congr rfl fun i _ => by simp only [Pi.sub_apply]; ring
  have h4 : ∑ i, (x i - y i) ^ 2 = ∑ i, (y i - x i) ^ 2 := Finset.sum_congr rfl fun i _ => by ring
  rw [h4] at h2
  have hnn : 0 ≤ ∑ i, (y i - x i) ^ 2 := Finset.sum_nonneg fun i _ => sq_nonneg _
  have h5 := Real.mul_self_sqrt hnn
  rcases (Real.sqrt_nonneg (∑ i, (y i - x i) ^ 2)).eq_or_lt with h6 | h6
  · rw [← h6, mul_zero]
    exact Real.sqrt_nonneg _
  · refine le_of_mul_le_mul_right ?_ h6
    rw [mul_assoc, h5]
    linarith

theorem StrongConvex.add {ν : ℝ} {F H : (Fin N → ℝ) → ℝ} (h : StrongConvex ν F) (hH : SmoothConvex H) : StrongConvex ν fun x => F x + H x := by
  refine ⟨?_, h.diff.add hH.diff⟩
  intro x y a h0 h1
  have h2 := h.convex x y a h0 h1
  have h3 := hH.convex x y a h0 h1
  simp only at h2 ⊢
  linarith

theorem StrongConvex.scale {ν : ℝ} {F : (Fin N → ℝ) → ℝ} (h : StrongConvex ν F) (u : ℝ) :
    StrongConvex (ν * u ^ 2) fun x => F fun i => x i * u := by
  constructor
  · intro x y a h0 h1
    have h2 := h.convex (fun i => x i * u) (fun i => y i * u) a h0 h1
    have e : (fun i => a * (x i * u) + (1 - a) * (y i * u)) = fun i => (a * x i + (1 - a) * y i) * u := by
      funext i
      ring
    have e1 : ∀ z : Fin N → ℝ, ∑ i, (z i * u) ^ 2 = u ^ 2 * ∑ i, z i ^ 2 := by
      intro z
      rw [Finset.mul_sum]
      exact Finset.sum_congr rfl fun i _ => by ring
    rw [e] at h2
    simp only [e1] at h2
    simp only [mul_assoc]
    exact h2
  · have : Differentiable ℝ fun x : Fin N → ℝ => fun i => x i * u := by fun_prop
    exact h.diff.comp this

/-- A sum of squares of affine functions that separates points. -/
theorem StrongConvex.terms {T : List (ℝ × ((Fin N → ℝ) → ℝ))} (hf : ∀ t ∈ T, IsAffineFn t.2) {μ : ℝ}
    (hco : ∀ x y, μ * ∑ i, (x i - y i) ^ 2 ≤ diffSq T x y) : StrongConvex μ (termsSq T) := by
  constructor
  · intro x y a h0 h1
    have h2 : termsSq T (fun i => a * x i + (1 - a) * y i) = a * termsSq T x + (1 - a) * termsSq T y - a * (1 - a) * diffSq T x y := by
      clear hco
      induction T with
      | nil => simp [termsSq, diffSq]
      | cons t T ih =>
        have ih := ih fun t ht => hf t (by simp [ht])
        simp only [termsSq, diffSq, List.map_cons, List.sum_cons] at ih ⊢
        rw [ih, hf t (by simp) x y a]
        ring
    have h3 : ∑ i, (a * x i + (1 - a) * y i) ^ 2 =
        a * ∑ i, x i ^ 2 + (1 - a) * ∑ i, y i ^ 2 - a * (1 - a) * ∑ i, (x i - y i) ^ 2 := by
      rw [Finset.mul_sum, Finset.mul_sum, Finset.mul_sum, ← Finset.sum_add_distrib, ← Finset.sum_sub_distrib]
      exact Finset.sum_congr rfl fun i _ => by ring
    have h4 := mul_le_mul_of_nonneg_left (hco x y) (mul_nonneg h0 (by linarith : 0 ≤ 1 - a))
    simp only [h2, h3]
    linarith
  · clear hco
    induction T with
    | nil =>
      have : termsSq ([] : List (ℝ × ((Fin N → ℝ) → ℝ))) = fun _ => 0 := by
        funext x
        simp [termsSq]
      rw [this]
      exact differentiable_const 0
    | cons t T ih =>
      have : termsSq (t :: T) = fun x => t.1 * t.2 x ^ 2 + termsSq T x := by
        funext x
        simp [termsSq]
      rw [this]
      exact (((hf t (by simp)).smoothConvex.diff.pow 2).const_mul t.1).add (ih fun t ht => hf t (by simp [ht]))

end Verif
