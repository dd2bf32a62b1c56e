import Verif.Lemmas.Lse

/-!
# Property C31: log-sum-exp bounds
-/

namespace Verif

/-- **C31 (max).** The maximum of a non-empty array is below `max_lse`, which is at most `eps log n` above it.
"Maximum" is stated as: `m` is an entry and no entry is larger. -/
theorem C31_max_lse_bounds (xs : List ℝ) (m eps : ℝ) (he : 0 < eps) (hm : m ∈ xs) (hmax : ∀ x ∈ xs, x ≤ m) :
    m ≤ maxLse xs eps ∧ maxLse xs eps ≤ m + eps * Real.log xs.length :=
  ⟨le_maxLse he hm, maxLse_le he (List.ne_nil_of_mem hm) hmax⟩

/-- The upper bound is attained: for an array with `n` equal entries the error is exactly `eps log n`. -/
theorem C31_max_lse_bound_attained (n : ℕ) (hn : n ≠ 0) (a eps : ℝ) (he : 0 < eps) :
    maxLse (List.replicate n a) eps = a + eps * Real.log n := maxLse_const n hn a eps he.ne'

/-- **C31 (abs).** -/
theorem C31_abs_lse_bounds (x eps : ℝ) (he : 0 < eps) :
    |x| ≤ absLse x eps ∧ absLse x eps ≤ |x| + eps * Real.log 2 := ⟨le_absLse he, absLse_le he⟩

/-- **C31 (abs, symmetry).** `abs_lse` is even. -/
theorem C31_abs_lse_even (x eps : ℝ) : absLse (-x) eps = absLse x eps := by
  simp [absLse, maxLse, add_comm]

/-- **C31 (linf).** With `m` the largest absolute value in the array. -/
theorem C31_linf_lse_bounds (xs : List ℝ) (m eps : ℝ) (he : 0 < eps) (hm : ∃ x ∈ xs, |x| = m)
    (hmax : ∀ x ∈ xs, |x| ≤ m) :
    m ≤ linfLse xs eps ∧ linfLse xs eps ≤ m + eps * Real.log (2 * xs.length) := by
  obtain ⟨x, hx, rfl⟩ := hm
  exact ⟨le_linfLse he hx, linfLse_le he (List.ne_nil_of_mem hx) hmax⟩

/-- **C31 (monotone).** Raising entries cannot lower `max_lse`. -/
theorem C31_max_lse_monotone (xs ys : List ℝ) (eps : ℝ) (he : 0 < eps) (hne : xs ≠ [])
    (h : List.Forall₂ (· ≤ ·) xs ys) : maxLse xs eps ≤ maxLse ys eps := by
  unfold maxLse
  refine mul_le_mul_of_nonneg_left (Real.log_le_log (sum_exp_pos hne eps) ?_) he.le
  clear hne
  induction h with
  | nil => simp
  | cons hab _ ih =>
    simp only [List.map_cons, List.sum_cons]
    exact add_le_add (Real.exp_le_exp.2 (div_le_div_of_nonneg_right hab he.le)) ih

/-- **C31 (shift).** `max_lse` commutes with adding a constant. -/
theorem C31_max_lse_shift (xs : List ℝ) (a eps : ℝ) (he : 0 < eps) (hne : xs ≠ []) :
    maxLse (xs.map fun x => x + a) eps = maxLse xs eps + a := by
  unfold maxLse
  have : ((xs.map fun x => x + a).map fun x => Real.exp (x / eps)) =
      (xs.map fun x => Real.exp (x / eps)).map fun y => y * Real.exp (a / eps) := by
    rw [List.map_map, List.map_map]
    apply List.map_congr_left
    intro x _
    simp [add_div, Real.exp_add]
  rw [this, List.sum_map_mul_right, List.map_id',
    Real.log_mul (sum_exp_pos hne eps).ne' (Real.exp_pos _).ne', Real.log_exp, mul_add,
    mul_div_cancel₀ _ he.ne']

example : (3 : ℝ) ∈ [1, 3, 2] ∧ ∀ x ∈ [(1 : ℝ), 3, 2], x ≤ 3 := by
  refine ⟨by simp, ?_⟩
  intro x hx
  simp at hx
  rcases hx with rfl | rfl | rfl <;> norm_num

example : (∃ x ∈ [(-3 : ℝ), 1], |x| = 3) ∧ ∀ x ∈ [(-3 : ℝ), 1], |x| ≤ 3 := by
  refine ⟨⟨-3, by simp, by norm_num⟩, ?_⟩
  intro x hx
  simp at hx
  rcases hx with rfl | rfl <;> norm_num

example : List.Forall₂ (· ≤ ·) [(1 : ℝ), 3] [2, 3] := by
  repeat constructor
  · norm_num
  · constructor
    · norm_num
    · constructor

end Verif
