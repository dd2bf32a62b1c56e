import Mathlib.MeasureTheory.Integral.IntervalIntegral.Basic
import Mathlib.MeasureTheory.Integral.DominatedConvergence
import Mathlib.Topology.UniformSpace.HeineCantor
import Mathlib.Topology.MetricSpace.ProperSpace.Real
import Mathlib.Algebra.Order.Floor.Ring

/-!
# Sums over a uniform grid converge to the integral
-/

open MeasureTheory Filter Topology

namespace Verif

/-- The error of the left sum of a function that varies by at most `ε` over the grid step. -/
theorem left_sum_error {f : ℝ → ℝ} (hf : Continuous f) {n : ℕ} (hn : 0 < n) {ε : ℝ}
    (h : ∀ s t, s ∈ Set.Icc (0 : ℝ) 1 → t ∈ Set.Icc (0 : ℝ) 1 → |s - t| ≤ 1 / n → |f s - f t| ≤ ε) :
    |(∑ k ∈ Finset.range n, f (k * (1 / n)) * (1 / n)) - ∫ t in (0 : ℝ)..1, f t| ≤ ε := by
  have hn' : (0 : ℝ) < n := by exact_mod_cast hn
  have hint : ∀ a b, IntervalIntegrable f volume a b := fun a b => hf.intervalIntegrable a b
  have hsplit := intervalIntegral.sum_integral_adjacent_intervals (f := f) (μ := volume) (a := fun k : ℕ => (k : ℝ) * (1 / n))
    (n := n) fun k _ => hint _ _
  have h0 : ((0 : ℕ) : ℝ) * (1 / n) = 0 := by simp
  have h1 : (n : ℝ) * (1 / n) = 1 := by field_simp
  simp only [h0, h1] at hsplit
  rw [← hsplit, ← Finset.sum_sub_distrib]
  have hterm : ∀ k ∈ Finset.range n,
      |f (k * (1 / n)) * (1 / n) - ∫ t in ((k : ℝ) * (1 / n))..(((k + 1 : ℕ) : ℝ) * (1 / n)), f t| ≤ ε * (1 / n) := by
    intro k hk
    have hk' : k + 1 ≤ n := Finset.mem_range.1 hk
    have hk'' : ((k + 1 : ℕ) : ℝ) ≤ n := by exact_mod_cast hk'
    have hstep : ((k + 1 : ℕ) : ℝ) * (1 / n) - (k : ℝ) * (1 / n) = 1 / n := by push_cast; ring
    have hc : f (k * (1 / n)) * (1 / n) = ∫ _ in ((k : ℝ) * (1 / n))..(((k + 1 : ℕ) : ℝ) * (1 / n)), f (k * (1 / n)) := by
      rw [intervalIntegral.integral_const, hstep, smul_eq_mul, mul_comm]
    rw [hc, ← intervalIntegral.integral_sub (by simp) (hint _ _)]
    have := intervalIntegral.norm_integral_le_of_norm_le_const (a := (k : ℝ) * (1 / n)) (b := ((k + 1 : ℕ) : ℝ) * (1 / n))
      (f := fun t => f (k * (1 / n)) - f t) (C := ε) ?_
    · rwa [hstep, Real.norm_eq_abs, abs_of_pos (by positivity : (0 : ℝ) < 1 / n)] at this
    · intro t ht
      rw [Set.uIoc_of_le (by linarith [hstep, (by positivity : (0 : ℝ) < 1 / n)])] at ht
      have hk0 : (0 : ℝ) ≤ (k : ℝ) * (1 / n) := by positivity
      have hk1 : ((k + 1 : ℕ) : ℝ) * (1 / n) ≤ 1 := by
        rw [mul_one_div, div_le_one hn']
        exact hk''
      refine h _ _ ⟨hk0, by linarith [ht.1, ht.2]⟩ ⟨by linarith [ht.1], by linarith [ht.2]⟩ ?_
      rw [abs_le]
      constructor <;> linarith [ht.1, ht.2]
  refine (Finset.abs_sum_le_sum_abs _ _).trans ((Finset.sum_le_sum hterm).trans (le_of_eq ?_))
  rw [Finset.sum_const, Finset.card_range, nsmul_eq_mul]
  field_simp

/-- The error of a sum over a uniform grid of the unit square, with the lower left corners of the cells as grid points, for a
function with a given modulus of continuity. -/
theorem square_sum_error_mod {f : ℝ → ℝ → ℝ} (hf : Continuous fun q : ℝ × ℝ => f q.1 q.2) {ε δ : ℝ} (hδ : 0 < δ)
    (mod : ∀ p q s t, p ∈ Set.Icc (0 : ℝ) 1 → q ∈ Set.Icc (0 : ℝ) 1 → s ∈ Set.Icc (0 : ℝ) 1 → t ∈ Set.Icc (0 : ℝ) 1 →
      |p - q| < δ → |s - t| < δ → |f p s - f q t| ≤ ε / 2) {m n : ℕ} (hm0 : 0 < m) (hmδ : (1 : ℝ) / m < δ) (hn0 : 0 < n)
    (hnδ : (1 : ℝ) / n < δ) :
    |(∑ i ∈ Finset.range m, ∑ j ∈ Finset.range n, f (i * (1 / m)) (j * (1 / n)) * (1 / n) * (1 / m))
        - ∫ p in (0 : ℝ)..1, ∫ t in (0 : ℝ)..1, f p t| ≤ ε := by
  have hFc : Continuous fun p => ∫ t in (0 : ℝ)..1, f p t :=
    intervalIntegral.continuous_parametric_intervalIntegral_of_continuous' (f := f) hf 0 1
  have hs : ∀ p, Continuous fun t => f p t := fun p => hf.comp (Continuous.prodMk continuous_const continuous_id)
  -- outer sum
  have h1 := left_sum_error hFc hm0 (ε := ε / 2) (by
    intro s t hs' ht' hst
    rw [← intervalIntegral.integral_sub ((hs s).intervalIntegrable _ _) ((hs t).intervalIntegrable _ _)]
    have := intervalIntegral.norm_integral_le_of_norm_le_const (a := (0 : ℝ)) (b := 1) (f := fun u => f s u - f t u) (C := ε / 2)
      (by
        intro u hu
        rw [Set.uIoc_of_le zero_le_one] at hu
        exact mod _ _ _ _ hs' ht' ⟨hu.1.le, hu.2⟩ ⟨hu.1.le, hu.2⟩ (lt_of_le_of_lt hst hmδ) (by simpa using hδ))
    simpa using this)
  -- inner sums
  have h2 : ∀ i ∈ Finset.range m, |(∑ j ∈ Finset.range n, f (i * (1 / m)) (j * (1 / n)) * (1 / n))
      - ∫ t in (0 : ℝ)..1, f (i * (1 / m)) t| ≤ ε / 2 := by
    intro i hi
    have hi' : (i : ℝ) ≤ m := by exact_mod_cast (Finset.mem_range.1 hi).le
    have hm' : (0 : ℝ) < m := by exact_mod_cast hm0
    have hmem : (i : ℝ) * (1 / m) ∈ Set.Icc (0 : ℝ) 1 := ⟨by positivity, by rw [mul_one_div, div_le_one hm']; exact hi'⟩
    refine left_sum_error (hs _) hn0 fun s t hs' ht' hst => ?_
    exact mod _ _ _ _ hmem hmem hs' ht' (by simpa using hδ) (lt_of_le_of_lt hst hnδ)
  have h3 : |(∑ i ∈ Finset.range m, ∑ j ∈ Finset.range n, f (i * (1 / m)) (j * (1 / n)) * (1 / n) * (1 / m))
      - ∑ i ∈ Finset.range m, (∫ t in (0 : ℝ)..1, f (i * (1 / m)) t) * (1 / m)| ≤ ε / 2 := by
    rw [← Finset.sum_sub_distrib]
    have hm' : (0 : ℝ) < m := by exact_mod_cast hm0
    have hterm : ∀ i ∈ Finset.range m, |(∑ j ∈ Finset.range n, f (i * (1 / m)) (j * (1 / n)) * (1 / n) * (1 / m))
        - (∫ t in (0 : ℝ)..1, f (i * (1 / m)) t) * (1 / m)| ≤ ε / 2 * (1 / m) := by
      intro i hi
      rw [← Finset.sum_mul, ← sub_mul, abs_mul, abs_of_pos (by positivity : (0 : ℝ) < 1 / m)]
      exact mul_le_mul_of_nonneg_right (h2 i hi) (by positivity)
    refine (Finset.abs_sum_le_sum_abs _ _).trans ((Finset.sum_le_sum hterm).trans (le_of_eq ?_))
    rw [Finset.sum_const, Finset.card_range, nsmul_eq_mul]
    field_simp
  calc _ ≤ _ := abs_sub_le _ (∑ i ∈ Finset.range m, (∫ t in (0 : ℝ)..1, f (i * (1 / m)) t) * (1 / m)) _
    _ ≤ ε / 2 + ε / 2 := add_le_add h3 h1
    _ = ε := by ring

/-- The sums converge uniformly for a family of functions that depends continuously on a parameter in a compact set. -/
theorem square_sum_error_uniform {X : Type*} [PseudoMetricSpace X] {F : X → ℝ → ℝ → ℝ} {K : Set X} (hK : IsCompact K)
    (hF : ContinuousOn (fun q : X × ℝ × ℝ => F q.1 q.2.1 q.2.2) (K ×ˢ Set.univ)) {ε : ℝ} (hε : 0 < ε) :
    ∃ M : ℕ, ∀ m n : ℕ, M ≤ m → M ≤ n → ∀ x ∈ K,
      |(∑ i ∈ Finset.range m, ∑ j ∈ Finset.range n, F x (i * (1 / m)) (j * (1 / n)) * (1 / n) * (1 / m))
        - ∫ p in (0 : ℝ)..1, ∫ t in (0 : ℝ)..1, F x p t| ≤ ε := by
  have hcomp : IsCompact (K ×ˢ Set.Icc (0 : ℝ) 1 ×ˢ Set.Icc (0 : ℝ) 1) := hK.prod (isCompact_Icc.prod isCompact_Icc)
  have huc := hcomp.uniformContinuousOn_of_continuous
    (hF.mono (Set.prod_mono (subset_refl K) (Set.subset_univ (Set.Icc (0 : ℝ) 1 ×ˢ Set.Icc (0 : ℝ) 1))))
  rw [Metric.uniformContinuousOn_iff] at huc
  obtain ⟨δ, hδ, hd⟩ := huc (ε / 2) (by linarith)
  obtain ⟨M, hM⟩ := exists_nat_gt (1 / δ)
  refine ⟨M, fun m n hm hn x hx => ?_⟩
  have hM0 : (0 : ℝ) < M := lt_trans (by positivity) hM
  have small : ∀ k : ℕ, M ≤ k → 0 < k ∧ (1 : ℝ) / k < δ := by
    intro k hk
    have hk' : (M : ℝ) ≤ k := by exact_mod_cast hk
    have hk0 : (0 : ℝ) < k := lt_of_lt_of_le hM0 hk'
    refine ⟨by exact_mod_cast hk0, ?_⟩
    rw [div_lt_iff₀ hk0]
    rw [div_lt_iff₀ hδ] at hM
    nlinarith
  obtain ⟨hm0, hmδ⟩ := small m hm
  obtain ⟨hn0, hnδ⟩ := small n hn
  refine square_sum_error_mod (f := F x) ?_ hδ ?_ hm0 hmδ hn0 hnδ
  · rw [← continuousOn_univ]
    exact hF.comp (f := fun q : ℝ × ℝ => ((x, q) : X × ℝ × ℝ)) (by fun_prop) fun q _ => ⟨hx, trivial⟩
  · intro p q s t hp hq hs ht h1 h2
    have := hd (x, p, s) ⟨hx, hp, hs⟩ (x, q, t) ⟨hx, hq, ht⟩ (by
      rw [Prod.dist_eq, Prod.dist_eq, Real.dist_eq, Real.dist_eq, dist_self]
      exact max_lt hδ (max_lt h1 h2))
    rw [Real.dist_eq] at this
    exact this.le

/-- Sums over a uniform grid of the unit square. -/
theorem square_sum_error {f : ℝ → ℝ → ℝ} (hf : Continuous fun q : ℝ × ℝ => f q.1 q.2) {ε : ℝ} (hε : 0 < ε) :
    ∃ M : ℕ, ∀ m n : ℕ, M ≤ m → M ≤ n →
      |(∑ i ∈ Finset.range m, ∑ j ∈ Finset.range n, f (i * (1 / m)) (j * (1 / n)) * (1 / n) * (1 / m))
        - ∫ p in (0 : ℝ)..1, ∫ t in (0 : ℝ)..1, f p t| ≤ ε := by
  obtain ⟨M, hM⟩ := square_sum_error_uniform (X := ℝ) (F := fun _ => f) (isCompact_singleton (x := (0 : ℝ)))
    (hf.comp continuous_snd).continuousOn hε
  exact ⟨M, fun m n hm hn => hM m n hm hn 0 rfl⟩

/-- The sums converge as both numbers of grid points grow. -/
theorem square_sum_tendsto {f : ℝ → ℝ → ℝ} (hf : Continuous fun q : ℝ × ℝ => f q.1 q.2) {m n : ℕ → ℕ} (hm : Tendsto m atTop atTop)
    (hn : Tendsto n atTop atTop) :
    Tendsto (fun k => ∑ i ∈ Finset.range (m k), ∑ j ∈ Finset.range (n k),
      f (i * (1 / m k)) (j * (1 / n k)) * (1 / n k) * (1 / m k)) atTop (𝓝 (∫ p in (0 : ℝ)..1, ∫ t in (0 : ℝ)..1, f p t)) := by
  rw [Metric.tendsto_nhds]
  intro ε hε
  obtain ⟨M, hM⟩ := square_sum_error hf (half_pos hε)
  filter_upwards [hm.eventually_ge_atTop M, hn.eventually_ge_atTop M] with k h1 h2
  rw [Real.dist_eq]
  exact lt_of_le_of_lt (hM _ _ h1 h2) (by linarith)

end Verif
