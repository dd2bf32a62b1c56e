import Mathlib.Analysis.Normed.Module.FiniteDimension
import Mathlib.Analysis.Real.Sqrt
import Mathlib.Topology.Order.Compact
import Mathlib.Algebra.BigOperators.Fin
import Mathlib.Data.List.OfFn

/-! Sums of squares of affine functions have a minimiser, and minimisers agree in all terms of positive weight. -/

namespace Verif

/-- `f` maps affine combinations to affine combinations. -/
def IsAffineFn {L : ℕ} (f : (Fin L → ℝ) → ℝ) : Prop :=
  ∀ (x y : Fin L → ℝ) (a : ℝ), f (fun i => a * x i + (1 - a) * y i) = a * f x + (1 - a) * f y

theorem IsAffineFn.linear {L : ℕ} {f : (Fin L → ℝ) → ℝ} (h : IsAffineFn f) :
    ∃ T : (Fin L → ℝ) →ₗ[ℝ] ℝ, ∀ x, f x = T x + f 0 := by
  have hs : ∀ (a : ℝ) (x : Fin L → ℝ), f (a • x) = a * f x + (1 - a) * f 0 := by
    intro a x
    rw [← h x 0 a]
    congr 1
    funext i
    simp
  have ha : ∀ x y : Fin L → ℝ, f (x + y) = f x + f y - f 0 := by
    intro x y
    have h1 := h x y (1 / 2)
    have h2 := hs 2 (fun i => 1 / 2 * x i + (1 - 1 / 2) * y i)
    have e : (2 : ℝ) • (fun i => 1 / 2 * x i + (1 - 1 / 2) * y i) = x + y := by
      funext i
      simp only [Pi.smul_apply, smul_eq_mul, Pi.add_apply]
      ring
    rw [e, h1] at h2
    rw [h2]
    ring
  refine ⟨{ toFun := fun x => f x - f 0, map_add' := fun x y => ?_, map_smul' := fun a x => ?_ }, fun x => ?_⟩
  · rw [ha]
    ring
  · rw [hs]
    simp only [RingHom.id_apply, smul_eq_mul]
    ring
  · simp

/-- A weighted sum of squares of affine functions has a minimiser. -/
theorem sum_sq_exists {L n : ℕ} (f : Fin n → (Fin L → ℝ) → ℝ) (hf : ∀ i, IsAffineFn (f i)) (w : Fin n → ℝ) (hw : ∀ i, 0 ≤ w i) :
    ∃ x, ∀ y, ∑ i, w i * f i x ^ 2 ≤ ∑ i, w i * f i y ^ 2 := by
  choose T hT using fun i => (hf i).linear
  let S : (Fin L → ℝ) →ₗ[ℝ] (Fin n → ℝ) := LinearMap.pi fun i => Real.sqrt (w i) • T i
  have hS : ∀ x i, S x i = Real.sqrt (w i) * T i x := fun x i => rfl
  let t : Fin n → ℝ := fun i => Real.sqrt (w i) * f i 0
  let G : (Fin n → ℝ) → ℝ := fun v => ∑ i, (v i + t i) ^ 2
  have hterm : ∀ x, ∑ i, w i * f i x ^ 2 = G (S x) := by
    intro x
    refine Finset.sum_congr rfl fun i _ => ?_
    show _ = (S x i + Real.sqrt (w i) * f i 0) ^ 2
    rw [hS, hT i x]
    have := Real.sq_sqrt (hw i)
    nlinarith
  have hcont : Continuous G := continuous_finsetSum _ fun i _ => ((continuous_apply i).add continuous_const).pow 2
  have hGnn : ∀ v, 0 ≤ G v := fun v => Finset.sum_nonneg fun i _ => sq_nonneg _
  have hnorm : ∀ v, ‖v‖ ≤ Real.sqrt (G v) + ‖t‖ := by
    intro v
    have h1 : ‖v + t‖ ≤ Real.sqrt (G v) := by
      rw [pi_norm_le_iff_of_nonneg (Real.sqrt_nonneg _)]
      intro i
      rw [Real.norm_eq_abs]
      exact Real.abs_le_sqrt (Finset.single_le_sum (f := fun i => (v i + t i) ^ 2) (fun i _ => sq_nonneg _) (Finset.mem_univ i))
    calc ‖v‖ = ‖(v + t) - t‖ := by rw [add_sub_cancel_right]
      _ ≤ ‖v + t‖ + ‖t‖ := norm_sub_le _ _
      _ ≤ _ := by linarith
  have hclosed : IsClosed (LinearMap.range S : Set (Fin n → ℝ)) := Submodule.closed_of_finiteDimensional _
  obtain ⟨v, ⟨x, rfl⟩, hx⟩ := hcont.continuousOn.exists_isMinOn' hclosed (x₀ := 0) (Submodule.zero_mem _) (by
    refine Filter.Eventually.filter_mono inf_le_left ?_
    have h1 : ∀ᶠ v in Filter.cocompact (Fin n → ℝ), Real.sqrt (G 0) + ‖t‖ < ‖v‖ :=
      (tendsto_norm_cocompact_atTop (E := Fin n → ℝ)).eventually_gt_atTop _
    filter_upwards [h1] with v hv
    by_contra h
    push Not at h
    have h3 : Real.sqrt (G v) ≤ Real.sqrt (G 0) := Real.sqrt_le_sqrt h.le
    linarith [hnorm v])
  refine ⟨x, fun y => ?_⟩
  rw [hterm, hterm]
  exact hx ⟨y, rfl⟩

/-- Two minimisers agree in every term of positive weight. -/
theorem sum_sq_agree {L n : ℕ} (f : Fin n → (Fin L → ℝ) → ℝ) (hf : ∀ i, IsAffineFn (f i)) (w : Fin n → ℝ) (hw : ∀ i, 0 ≤ w i)
    {x y : Fin L → ℝ} (hx : ∀ z, ∑ i, w i * f i x ^ 2 ≤ ∑ i, w i * f i z ^ 2)
    (hy : ∀ z, ∑ i, w i * f i y ^ 2 ≤ ∑ i, w i * f i z ^ 2) (i : Fin n) (hi : 0 < w i) : f i x = f i y := by
  by_contra hne
  have hmid := hx fun j => 1 / 2 * x j + (1 - 1 / 2) * y j
  have hlt : ∑ i, w i * f i (fun j => 1 / 2 * x j + (1 - 1 / 2) * y j) ^ 2 <
      1 / 2 * ∑ i, w i * f i x ^ 2 + 1 / 2 * ∑ i, w i * f i y ^ 2 := by
    rw [Finset.mul_sum, Finset.mul_sum, ← Finset.sum_add_distrib]
    refine Finset.sum_lt_sum (fun j _ => ?_) ⟨i, Finset.mem_univ i, ?_⟩
    · rw [hf j]
      nlinarith [mul_nonneg (hw j) (sq_nonneg (f j x - f j y))]
    · rw [hf i]
      have : 0 < (f i x - f i y) ^ 2 := by
        have := sub_ne_zero.2 hne
        positivity
      nlinarith [mul_pos hi this]
  linarith [hy x]

/-- The two facts for a list of weighted terms. -/
theorem list_sum_sq {L : ℕ} (T : List (ℝ × ((Fin L → ℝ) → ℝ))) (hf : ∀ t ∈ T, IsAffineFn t.2) (hw : ∀ t ∈ T, 0 ≤ t.1) :
    (∃ x, ∀ y, (T.map fun t => t.1 * t.2 x ^ 2).sum ≤ (T.map fun t => t.1 * t.2 y ^ 2).sum) ∧
      ∀ x y, (∀ z, (T.map fun t => t.1 * t.2 x ^ 2).sum ≤ (T.map fun t => t.1 * t.2 z ^ 2).sum) →
        (∀ z, (T.map fun t => t.1 * t.2 y ^ 2).sum ≤ (T.map fun t => t.1 * t.2 z ^ 2).sum) →
        ∀ t ∈ T, 0 < t.1 → t.2 x = t.2 y := by
  have e : ∀ x, (T.map fun t => t.1 * t.2 x ^ 2).sum = ∑ i : Fin T.length, T[i].1 * T[i].2 x ^ 2 := by
    intro x
    rw [← List.ofFn_getElem_eq_map, List.sum_ofFn]
    rfl
  simp only [e]
  have hf' : ∀ i : Fin T.length, IsAffineFn T[i].2 := fun i => hf _ (List.getElem_mem _)
  have hw' : ∀ i : Fin T.length, 0 ≤ T[i].1 := fun i => hw _ (List.getElem_mem _)
  refine ⟨sum_sq_exists (fun i => T[i].2) hf' _ hw', fun x y hx hy t ht h0 => ?_⟩
  obtain ⟨i, hi, rfl⟩ := List.mem_iff_getElem.1 ht
  exact sum_sq_agree (fun i : Fin T.length => T[i].2) hf' _ hw' hx hy ⟨i, hi⟩ h0

end Verif
