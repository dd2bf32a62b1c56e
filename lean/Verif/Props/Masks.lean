import Verif.Model.Solver
import Verif.Lemmas.NumReal
import Mathlib.Tactic.NormNum

/-!
# Property C14: the smooth masks, and `delta_normalized`
-/

namespace Verif

/-- **C14.** For `c > 0` and `scale > 0`: constraint value ≤ elu mask ≤ hard mask ≤ softplus mask ≤ hard mask + log 2 / scale. -/
theorem C14_masks_bracket (g mu c scale : ℝ) (hs : 0 < scale) :
    g ≤ gplusElu g mu c scale ∧ gplusElu g mu c scale ≤ gplusHard1 g mu c ∧
      gplusHard1 g mu c ≤ gplusSoftplus g mu c scale ∧
      gplusSoftplus g mu c scale ≤ gplusHard1 g mu c + Real.log 2 / scale := by
  have hhard : gplusHard1 g mu c = max (g + mu / c) 0 - mu / c := by
    unfold gplusHard1
    rw [← max_sub_sub_right, neg_div]
    congr 1 <;> ring
  generalize hv : g + mu / c = v at hhard
  have hg : g = v - mu / c := by rw [← hv]; ring
  refine ⟨?_, ?_, ?_, ?_⟩
  · unfold gplusElu
    rw [hv]
    split
    · rw [hg]
      have := Real.add_one_le_exp (scale * v)
      have h2 : v ≤ (Real.exp (scale * v) - 1) / scale := by
        rw [le_div_iff₀ hs]; linarith
      linarith
    · rw [hg]
  · unfold gplusElu
    rw [hv, hhard]
    split
    · rename_i hneg
      rw [max_eq_right hneg.le]
      have : Real.exp (scale * v) ≤ 1 := Real.exp_le_one_iff.2 (by nlinarith)
      have h2 : (Real.exp (scale * v) - 1) / scale ≤ 0 := div_nonpos_of_nonpos_of_nonneg (by linarith) hs.le
      linarith
    · rename_i hneg
      rw [max_eq_left (not_lt.1 hneg)]
  · rw [hhard]
    unfold gplusSoftplus
    rw [hv]
    have hpos : (0 : ℝ) < 1 + Real.exp (scale * v) := by positivity
    have h1 : max v 0 * scale ≤ Real.log (1 + Real.exp (scale * v)) := by
      rw [Real.le_log_iff_exp_le hpos]
      rcases le_total v 0 with h | h
      · rw [max_eq_right h]; simp [(Real.exp_pos _).le]
      · rw [max_eq_left h, mul_comm]; linarith
    have := (le_div_iff₀ hs).2 h1
    linarith
  · rw [hhard]
    unfold gplusSoftplus
    rw [hv]
    have hpos : (0 : ℝ) < 1 + Real.exp (scale * v) := by positivity
    have h1 : Real.log (1 + Real.exp (scale * v)) ≤ max v 0 * scale + Real.log 2 := by
      rw [Real.log_le_iff_le_exp hpos, Real.exp_add, Real.exp_log (by norm_num)]
      rcases le_total v 0 with h | h
      · rw [max_eq_right h]
        have : Real.exp (scale * v) ≤ 1 := Real.exp_le_one_iff.2 (by nlinarith)
        simp; linarith
      · rw [max_eq_left h, mul_comm v]
        have : 1 ≤ Real.exp (scale * v) := Real.one_le_exp (by positivity)
        linarith
    have h2 : Real.log (1 + Real.exp (scale * v)) / scale ≤ max v 0 + Real.log 2 / scale := by
      rw [div_le_iff₀ hs, add_mul, div_mul_cancel₀ _ hs.ne']; exact h1
    linarith

/-- **C14** (multipliers): with the softplus mask the updated multiplier is positive; with the elu mask it is above `-c/scale`;
and the elu mask can make it negative. -/
theorem C14_multiplier_signs (g mu c scale : ℝ) (hc : 0 < c) (hs : 0 < scale) :
    0 < mu + c * gplusSoftplus g mu c scale ∧ -(c / scale) < mu + c * gplusElu g mu c scale ∧
      (g < -mu / c → mu + c * gplusElu g mu c scale < 0) := by
  have hcm : c * (mu / c) = mu := by field_simp
  refine ⟨?_, ?_, ?_⟩
  · unfold gplusSoftplus
    have h1 : 0 < Real.log (1 + Real.exp (scale * (g + mu / c))) :=
      Real.log_pos (by have := Real.exp_pos (scale * (g + mu / c)); linarith)
    have h2 : 0 < c * (Real.log (1 + Real.exp (scale * (g + mu / c))) / scale) := by positivity
    rw [mul_sub, hcm]; linarith
  · unfold gplusElu
    split
    · rw [mul_sub, hcm]
      have h1 := Real.exp_pos (scale * (g + mu / c))
      have h2 : 0 < c * (Real.exp (scale * (g + mu / c)) / scale) := by positivity
      have h3 : c * ((Real.exp (scale * (g + mu / c)) - 1) / scale) =
          c * (Real.exp (scale * (g + mu / c)) / scale) - c / scale := by ring
      linarith
    · rename_i h
      have h0 := not_lt.1 h
      rw [mul_sub, hcm]
      have h2 : 0 ≤ c * (g + mu / c) := by positivity
      have h3 : 0 < c / scale := by positivity
      linarith
  · intro hlt
    have hneg : g + mu / c < 0 := by rw [neg_div] at hlt; linarith
    unfold gplusElu
    rw [if_pos hneg, mul_sub, hcm]
    have : Real.exp (scale * (g + mu / c)) < 1 := Real.exp_lt_one_iff.2 (by nlinarith)
    have h2 : c * ((Real.exp (scale * (g + mu / c)) - 1) / scale) < 0 := by
      apply mul_neg_of_pos_of_neg hc
      exact div_neg_of_neg_of_pos (by linarith) hs
    linarith

example : (0 : ℝ) < 2 ∧ (0 : ℝ) < 3 ∧ (-5 : ℝ) < -1 / 2 := by norm_num

/-- `delta_normalized` is symmetric, between 0 and 2, zero exactly for equal arguments, and scale invariant. -/
theorem C14_delta_normalized (x y s : ℝ) (hs : s ≠ 0) :
    deltaNormalized x y = deltaNormalized y x ∧ 0 ≤ deltaNormalized x y ∧ deltaNormalized x y ≤ 2 ∧
      (deltaNormalized x y = 0 ↔ x = y) ∧ deltaNormalized (s * x) (s * y) = deltaNormalized x y := by
  have hmax : 0 ≤ max |x| |y| := le_trans (abs_nonneg x) (le_max_left _ _)
  have hz : ¬ 0 < max |x| |y| → x = 0 ∧ y = 0 := by
    intro h
    have h0 : max |x| |y| ≤ 0 := not_lt.1 h
    exact ⟨abs_eq_zero.1 (le_antisymm ((le_max_left _ _).trans h0) (abs_nonneg _)),
      abs_eq_zero.1 (le_antisymm ((le_max_right _ _).trans h0) (abs_nonneg _))⟩
  refine ⟨?_, ?_, ?_, ?_, ?_⟩
  · simp only [deltaNormalized, max_comm |y| |x|, abs_sub_comm y x]
  · unfold deltaNormalized
    split
    · positivity
    · exact hmax
  · unfold deltaNormalized
    split
    · rename_i h
      rw [div_le_iff₀ h]
      have h1 := abs_sub x y
      have h2 := le_max_left |x| |y|
      have h3 := le_max_right |x| |y|
      linarith
    · rename_i h
      obtain ⟨rfl, rfl⟩ := hz h
      simp
  · unfold deltaNormalized
    split
    · rename_i h
      rw [div_eq_zero_iff, abs_eq_zero, sub_eq_zero]
      constructor
      · rintro (h' | h')
        · exact h'
        · exact absurd h' h.ne'
      · exact Or.inl
    · rename_i h
      obtain ⟨rfl, rfl⟩ := hz h
      simp
  · have hsp : 0 < |s| := abs_pos.2 hs
    have hm : max |s * x| |s * y| = |s| * max |x| |y| := by
      rw [abs_mul, abs_mul, mul_max_of_nonneg _ _ hsp.le]
    unfold deltaNormalized
    rw [hm, ← mul_sub, abs_mul]
    by_cases h : 0 < max |x| |y|
    · rw [if_pos h, if_pos (mul_pos hsp h), mul_div_mul_left _ _ hsp.ne']
    · obtain ⟨rfl, rfl⟩ := hz h
      simp

end Verif
