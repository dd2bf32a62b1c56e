import Mathlib.Analysis.LocallyConvex.Separation
import Mathlib.Algebra.BigOperators.Field
import Mathlib.Analysis.Convex.Function
import Mathlib.Analysis.Normed.Module.FiniteDimension
import Mathlib.Analysis.Normed.Module.Convex
import Mathlib.Topology.Order.OrderClosed

/-!
# Multipliers of convex problems with a strictly feasible point
-/

namespace Verif

open Topology

variable {N n : ℕ}

/-- **Slater.** A convex problem with a strictly feasible point has multipliers. -/
theorem exists_multipliers {f : (Fin N → ℝ) → ℝ} {G : (Fin N → ℝ) → Fin n → ℝ} (hf : ConvexOn ℝ Set.univ f)
    (hG : ∀ j, ConvexOn ℝ Set.univ fun y => G y j) {z : Fin N → ℝ} (hz : ∀ j, G z j < 0) {v : ℝ}
    (hv : ∀ y, (∀ j, G y j ≤ 0) → v ≤ f y) : ∃ mu : Fin n → ℝ, (∀ j, 0 ≤ mu j) ∧ ∀ y, v ≤ f y + ∑ j, mu j * G y j := by
  classical
  let A : Set ((Fin n → ℝ) × ℝ) := {p | ∃ y, (∀ j, G y j < p.1 j) ∧ f y < p.2}
  have hconv : Convex ℝ A := by
    rintro ⟨u, s⟩ ⟨x, hx, hxf⟩ ⟨w, t⟩ ⟨y, hy, hyf⟩ a b ha hb hab
    refine ⟨a • x + b • y, fun j => ?_, ?_⟩
    · have h := (hG j).right (Set.mem_univ x) (Set.mem_univ y) ha hb hab
      simp only [smul_eq_mul] at h
      refine h.trans_lt ?_
      show a * G x j + b * G y j < a * u j + b * w j
      rcases ha.eq_or_lt with rfl | ha'
      · obtain rfl : b = 1 := by linarith
        simpa using hy j
      · have h1 := mul_lt_mul_of_pos_left (hx j) ha'
        have h2 := mul_le_mul_of_nonneg_left (hy j).le hb
        simp only at h1 h2
        linarith
    · have h := hf.right (Set.mem_univ x) (Set.mem_univ y) ha hb hab
      simp only [smul_eq_mul] at h
      refine h.trans_lt ?_
      show a * f x + b * f y < a * s + b * t
      rcases ha.eq_or_lt with rfl | ha'
      · obtain rfl : b = 1 := by linarith
        simpa using hyf
      · have h1 := mul_lt_mul_of_pos_left hxf ha'
        have h2 := mul_le_mul_of_nonneg_left hyf.le hb
        simp only at h1 h2
        linarith
  have hopen : IsOpen A := by
    have : A = ⋃ y, {p : (Fin n → ℝ) × ℝ | (∀ j, G y j < p.1 j) ∧ f y < p.2} := by
      ext p
      simp [A]
    rw [this]
    refine isOpen_iUnion fun y => ?_
    have h1 : IsOpen {p : (Fin n → ℝ) × ℝ | ∀ j, G y j < p.1 j} := by
      rw [Set.setOf_forall]
      exact isOpen_iInter_of_finite fun j => isOpen_lt continuous_const ((continuous_apply j).comp continuous_fst)
    exact h1.inter (isOpen_lt continuous_const continuous_snd)
  have hnot : ((0 : Fin n → ℝ), v) ∉ A := by
    rintro ⟨y, hy, hyf⟩
    exact absurd (hv y fun j => (hy j).le) (not_le.2 hyf)
  obtain ⟨φ, hφ⟩ := geometric_hahn_banach_open_point hconv hopen hnot
  let a : Fin n → ℝ := fun j => φ (Pi.single j 1, 0)
  let b : ℝ := φ (0, 1)
  have hval : ∀ u t, φ (u, t) = ∑ j, a j * u j + b * t := by
    intro u t
    have hu : (u, t) = ∑ j, u j • ((Pi.single j 1, 0) : (Fin n → ℝ) × ℝ) + t • ((0, 1) : (Fin n → ℝ) × ℝ) := by
      ext j
      · simp [Finset.sum_apply, Prod.fst_sum, Pi.single_apply]
      · simp [Prod.snd_sum]
    rw [hu, map_add, map_sum, map_smul]
    simp only [map_smul, smul_eq_mul, a, b]
    congr 1
    · exact Finset.sum_congr rfl fun j _ => mul_comm _ _
    · ring
  have hsep : ∀ u t, (u, t) ∈ A → ∑ j, a j * u j + b * t < b * v := by
    intro u t h
    have := hφ _ h
    rw [hval, hval] at this
    simpa using this
  -- upward directions
  have ha : ∀ j, a j ≤ 0 := by
    intro j
    by_contra hj
    push Not at hj
    have hmem : ∀ s, 0 ≤ s → (Pi.single j s, f z + 1) ∈ A := fun s hs => ⟨z, fun i => by
      refine (hz i).trans_le ?_
      by_cases hij : i = j
      · subst hij
        simpa using hs
      · simp [hij], by simp⟩
    have h0 := hsep _ _ (hmem 0 le_rfl)
    have h1 := hsep _ _ (hmem ((b * v - b * (f z + 1)) / a j) (div_nonneg (by simp at h0; linarith) hj.le))
    simp only [Pi.single_apply, mul_ite, mul_zero, Finset.sum_ite_eq', Finset.mem_univ, if_true] at h1
    rw [mul_div_cancel₀ _ hj.ne'] at h1
    linarith
  have hz1 : ((0 : Fin n → ℝ), f z + 1) ∈ A := ⟨z, hz, by simp⟩
  have hb : b < 0 := by
    by_contra hb
    push Not at hb
    have h0 := hsep _ _ hz1
    simp only [Pi.zero_apply, mul_zero, Finset.sum_const_zero, zero_add] at h0
    have h1 : v ≤ f z := hv z fun j => (hz j).le
    have h2 : b * v ≤ b * (f z + 1) := mul_le_mul_of_nonneg_left (by linarith) hb
    linarith
  refine ⟨fun j => a j / b, fun j => div_nonneg_of_nonpos (ha j) hb.le, fun y => ?_⟩
  -- the limit of points of the set
  have hlim : ∑ j, a j * G y j + b * f y ≤ b * v := by
    refine le_of_forall_pos_lt_add fun ε hε => ?_
    obtain ⟨δ, hδ, hδε⟩ : ∃ δ > 0, -(∑ j, a j + b) * δ < ε := by
      have hs : 0 < -(∑ j, a j + b) + 1 := by
        have := Finset.sum_nonpos fun j (_ : j ∈ Finset.univ) => ha j
        linarith
      refine ⟨ε / (-(∑ j, a j + b) + 1), div_pos hε hs, ?_⟩
      rw [mul_div_assoc', div_lt_iff₀ hs]
      nlinarith
    have h1 := hsep (fun j => G y j + δ) (f y + δ) ⟨y, fun j => by simpa using hδ, by simpa using hδ⟩
    have h2 : ∑ j, a j * (G y j + δ) + b * (f y + δ) = ∑ j, a j * G y j + b * f y + (∑ j, a j + b) * δ := by
      simp only [mul_add, Finset.sum_add_distrib, Finset.sum_mul, add_mul]
      ring
    rw [h2] at h1
    linarith
  have h3 : ∑ j, a j / b * G y j = (∑ j, a j * G y j) / b := by
    rw [Finset.sum_div]
    exact Finset.sum_congr rfl fun j _ => by ring
  rw [h3]
  have h4 : (∑ j, a j * G y j + b * f y) / b = f y + (∑ j, a j * G y j) / b := by
    rw [add_div, mul_div_cancel_left₀ _ hb.ne, add_comm]
  rw [← h4, le_div_iff_of_neg hb]
  linarith

/-- Two points: one is feasible, the other one strictly feasible where the first one is not. -/
theorem exists_strict {G : (Fin N → ℝ) → Fin n → ℝ} (hG : ∀ j, ConvexOn ℝ Set.univ fun y => G y j) {x y : Fin N → ℝ}
    (h : ∀ j, G x j ≤ 0 ∧ (G x j < 0 ∨ G y j < 0)) : ∃ z, ∀ j, G z j < 0 := by
  have key : ∀ j, ∀ᶠ t in 𝓝[>] (0 : ℝ), (1 - t) * G x j + t * G y j < 0 := by
    intro j
    rcases (h j).1.eq_or_lt with h0 | h0
    · have h1 : G y j < 0 := by
        rcases (h j).2 with h2 | h2
        · rw [h0] at h2
          exact absurd h2 (lt_irrefl _)
        · exact h2
      filter_upwards [self_mem_nhdsWithin] with t ht
      rw [h0, mul_zero, zero_add]
      exact mul_neg_of_pos_of_neg ht h1
    · have hc : Filter.Tendsto (fun t : ℝ => (1 - t) * G x j + t * G y j) (𝓝 0) (𝓝 ((1 - 0) * G x j + 0 * G y j)) :=
        (((continuous_const.sub continuous_id).mul continuous_const).add (continuous_id.mul continuous_const)).tendsto 0
      rw [sub_zero, one_mul, zero_mul, add_zero] at hc
      exact (hc.eventually (gt_mem_nhds h0)).filter_mono nhdsWithin_le_nhds
  have h1 : ∀ᶠ t in 𝓝[>] (0 : ℝ), t < 1 := (gt_mem_nhds (by norm_num : (0 : ℝ) < 1)).filter_mono nhdsWithin_le_nhds
  obtain ⟨t, ht, ht1, ht0⟩ := ((Filter.eventually_all.2 key).and (h1.and self_mem_nhdsWithin)).exists
  refine ⟨(1 - t) • x + t • y, fun j => ?_⟩
  have ht0 : 0 < t := ht0
  have := (hG j).right (Set.mem_univ x) (Set.mem_univ y) (by linarith : 0 ≤ 1 - t) ht0.le (by ring)
  simp only [smul_eq_mul] at this
  exact this.trans_lt (ht j)

end Verif
