import Verif.Model.Coils
import Verif.Spec.TrigPoly
import Mathlib.Analysis.SpecialFunctions.Complex.Log
import Mathlib.Algebra.Field.GeomSum
import Mathlib.Algebra.BigOperators.Field

/-! # Fourier coefficients of cut coils (C56, C68) -/

namespace Verif

open Real Finset

/-! ## Discrete orthogonality -/

theorem exp_sum (N : ℕ) (hN : N ≠ 0) (m : ℤ) :
    ∑ j ∈ range N, Complex.exp ((2 * π * j * m / N : ℝ) * Complex.I) = if (N : ℤ) ∣ m then (N : ℂ) else 0 := by
  have hN' : (N : ℂ) ≠ 0 := by exact_mod_cast hN
  have hpi : (π : ℂ) ≠ 0 := by exact_mod_cast pi_ne_zero
  set z : ℂ := Complex.exp ((2 * π * m / N : ℝ) * Complex.I) with hz
  have hpow : ∀ j ∈ range N, Complex.exp ((2 * π * j * m / N : ℝ) * Complex.I) = z ^ j := by
    intro j _
    rw [hz, ← Complex.exp_nat_mul]
    congr 1
    push_cast
    ring
  rw [sum_congr rfl hpow]
  have hzN : z ^ N = 1 := by
    rw [hz, ← Complex.exp_nat_mul, Complex.exp_eq_one_iff]
    refine ⟨m, ?_⟩
    push_cast
    field_simp
  split_ifs with h
  · obtain ⟨q, hq⟩ := h
    have : z = 1 := by
      rw [hz, Complex.exp_eq_one_iff]
      refine ⟨q, ?_⟩
      rw [hq]
      push_cast
      field_simp
    simp [this]
  · have hz1 : z ≠ 1 := by
      intro h1
      rw [hz, Complex.exp_eq_one_iff] at h1
      obtain ⟨q, hq⟩ := h1
      apply h
      refine ⟨q, ?_⟩
      have hI := Complex.I_ne_zero
      push_cast at hq
      have h2 : (m : ℂ) = N * q := by
        field_simp at hq
        linear_combination hq
      exact_mod_cast h2
    rw [geom_sum_eq hz1, hzN]
    simp

theorem cos_sum (N : ℕ) (hN : N ≠ 0) (m : ℤ) :
    ∑ j ∈ range N, cos (2 * π * j * m / N) = if (N : ℤ) ∣ m then (N : ℝ) else 0 := by
  have h := congrArg Complex.re (exp_sum N hN m)
  simp only [Complex.re_sum, Complex.exp_ofReal_mul_I_re] at h
  rw [h]
  split_ifs <;> simp

theorem sin_sum (N : ℕ) (hN : N ≠ 0) (m : ℤ) : ∑ j ∈ range N, sin (2 * π * j * m / N) = 0 := by
  have h := congrArg Complex.im (exp_sum N hN m)
  simp only [Complex.im_sum, Complex.exp_ofReal_mul_I_im] at h
  rw [h]
  split_ifs <;> simp

theorem cos_cos_sum (N : ℕ) (hN : N ≠ 0) (a b : ℕ) :
    ∑ j ∈ range N, cos (2 * π * j * a / N) * cos (2 * π * j * b / N)
      = ((if (N : ℤ) ∣ (a : ℤ) - b then (N : ℝ) else 0) + if (N : ℤ) ∣ (a : ℤ) + b then (N : ℝ) else 0) / 2 := by
  rw [← cos_sum N hN, ← cos_sum N hN, ← sum_add_distrib, sum_div]
  refine sum_congr rfl fun j _ => ?_
  have h1 : 2 * π * j * ((a : ℤ) - (b : ℤ) : ℤ) / N = 2 * π * j * a / N - 2 * π * j * b / N := by push_cast; ring
  have h2 : 2 * π * j * ((a : ℤ) + (b : ℤ) : ℤ) / N = 2 * π * j * a / N + 2 * π * j * b / N := by push_cast; ring
  rw [h1, h2, cos_sub, cos_add]
  ring

theorem sin_sin_sum (N : ℕ) (hN : N ≠ 0) (a b : ℕ) :
    ∑ j ∈ range N, sin (2 * π * j * a / N) * sin (2 * π * j * b / N)
      = ((if (N : ℤ) ∣ (a : ℤ) - b then (N : ℝ) else 0) - if (N : ℤ) ∣ (a : ℤ) + b then (N : ℝ) else 0) / 2 := by
  rw [← cos_sum N hN, ← cos_sum N hN, ← sum_sub_distrib, sum_div]
  refine sum_congr rfl fun j _ => ?_
  have h1 : 2 * π * j * ((a : ℤ) - (b : ℤ) : ℤ) / N = 2 * π * j * a / N - 2 * π * j * b / N := by push_cast; ring
  have h2 : 2 * π * j * ((a : ℤ) + (b : ℤ) : ℤ) / N = 2 * π * j * a / N + 2 * π * j * b / N := by push_cast; ring
  rw [h1, h2, cos_sub, cos_add]
  ring

theorem sin_cos_sum (N : ℕ) (hN : N ≠ 0) (a b : ℕ) :
    ∑ j ∈ range N, sin (2 * π * j * a / N) * cos (2 * π * j * b / N) = 0 := by
  have h : ∑ j ∈ range N, (sin (2 * π * j * ((a : ℤ) + (b : ℤ) : ℤ) / N)
      + sin (2 * π * j * ((a : ℤ) - (b : ℤ) : ℤ) / N)) / 2 = 0 := by
    rw [← sum_div, sum_add_distrib, sin_sum N hN, sin_sum N hN]
    simp
  rw [← h]
  refine sum_congr rfl fun j _ => ?_
  have h1 : 2 * π * j * ((a : ℤ) - (b : ℤ) : ℤ) / N = 2 * π * j * a / N - 2 * π * j * b / N := by push_cast; ring
  have h2 : 2 * π * j * ((a : ℤ) + (b : ℤ) : ℤ) / N = 2 * π * j * a / N + 2 * π * j * b / N := by push_cast; ring
  rw [h1, h2, sin_sub, sin_add]
  ring

/-- For degrees at most `order` and more than `2 order` samples, a sum or difference of degrees is a multiple of `N` only if it
is 0. -/
theorem dvd_small (N : ℕ) (a b : ℕ) (h : a + b < N) : ((N : ℤ) ∣ (a : ℤ) - b ↔ a = b) ∧
    ((N : ℤ) ∣ (a : ℤ) + b ↔ a = 0 ∧ b = 0) := by
  constructor
  · constructor
    · intro hd
      have := Int.eq_zero_of_abs_lt_dvd hd (by rw [abs_lt]; constructor <;> omega)
      omega
    · rintro rfl; simp
  · constructor
    · intro hd
      have := Int.eq_zero_of_abs_lt_dvd hd (by rw [abs_lt]; constructor <;> omega)
      omega
    · rintro ⟨rfl, rfl⟩; simp

/-! ## The transform of samples -/

theorem uniformSamples_length (N : ℕ) (f : ℝ → ℝ) : (uniformSamples N f).length = N := by simp [uniformSamples]

theorem list_sum_range (f : ℕ → ℝ) (n : ℕ) : ((List.range n).map f).sum = ∑ k ∈ range n, f k := by
  induction n with
  | zero => simp
  | succ n ih => rw [List.range_succ, List.map_append, List.sum_append, ih, sum_range_succ]; simp

theorem uniformSamples_getD (N : ℕ) (f : ℝ → ℝ) (j : ℕ) (h : j < N) : (uniformSamples N f).getD j 0 = f ((j : ℝ) / N) := by
  simp [uniformSamples, List.getD, h]

theorem rfftRe_samples (N : ℕ) (f : ℝ → ℝ) (k : ℕ) :
    rfftRe (uniformSamples N f) k = ∑ j ∈ range N, f ((j : ℝ) / N) * cos (2 * π * j * k / N) := by
  rw [rfftRe, list_sum_range, uniformSamples_length]
  refine sum_congr rfl fun j hj => ?_
  rw [uniformSamples_getD N f j (mem_range.1 hj)]

theorem rfftIm_samples (N : ℕ) (f : ℝ → ℝ) (k : ℕ) :
    rfftIm (uniformSamples N f) k = -∑ j ∈ range N, f ((j : ℝ) / N) * sin (2 * π * j * k / N) := by
  rw [rfftIm, list_sum_range, uniformSamples_length, ← sum_neg_distrib]
  refine sum_congr rfl fun j hj => ?_
  rw [uniformSamples_getD N f j (mem_range.1 hj)]

theorem poly_cos (N order : ℕ) (hN : N ≠ 0) (a0 : ℝ) (s c : ℕ → ℝ) (k : ℕ) :
    ∑ j ∈ range N, trigPoly order a0 s c ((j : ℝ) / N) * cos (2 * π * j * k / N)
      = a0 * (if (N : ℤ) ∣ (k : ℤ) then (N : ℝ) else 0)
        + ∑ l ∈ range order, c (l + 1) * (((if (N : ℤ) ∣ ((l + 1 : ℕ) : ℤ) - k then (N : ℝ) else 0)
            + if (N : ℤ) ∣ ((l + 1 : ℕ) : ℤ) + k then (N : ℝ) else 0) / 2) := by
  have e : ∀ j ∈ range N, trigPoly order a0 s c ((j : ℝ) / N) * cos (2 * π * j * k / N)
      = a0 * cos (2 * π * j * (k : ℤ) / N) + ∑ l ∈ range order,
          (s (l + 1) * (sin (2 * π * j * (l + 1 : ℕ) / N) * cos (2 * π * j * k / N))
            + c (l + 1) * (cos (2 * π * j * (l + 1 : ℕ) / N) * cos (2 * π * j * k / N))) := by
    intro j _
    rw [trigPoly, add_mul, sum_mul]
    refine congrArg₂ (· + ·) (by push_cast; rfl) (sum_congr rfl fun l _ => ?_)
    have h1 : 2 * π * ((l + 1 : ℕ) : ℝ) * ((j : ℝ) / N) = 2 * π * j * (l + 1 : ℕ) / N := by ring
    rw [h1]
    ring
  rw [sum_congr rfl e, sum_add_distrib, ← mul_sum, cos_sum N hN, sum_comm]
  refine congrArg₂ (· + ·) rfl (sum_congr rfl fun l _ => ?_)
  rw [sum_add_distrib, ← mul_sum, ← mul_sum, sin_cos_sum N hN, cos_cos_sum N hN]
  ring

theorem poly_sin (N order : ℕ) (hN : N ≠ 0) (a0 : ℝ) (s c : ℕ → ℝ) (k : ℕ) :
    ∑ j ∈ range N, trigPoly order a0 s c ((j : ℝ) / N) * sin (2 * π * j * k / N)
      = ∑ l ∈ range order, s (l + 1) * (((if (N : ℤ) ∣ ((l + 1 : ℕ) : ℤ) - k then (N : ℝ) else 0)
            - if (N : ℤ) ∣ ((l + 1 : ℕ) : ℤ) + k then (N : ℝ) else 0) / 2) := by
  have e : ∀ j ∈ range N, trigPoly order a0 s c ((j : ℝ) / N) * sin (2 * π * j * k / N)
      = a0 * sin (2 * π * j * (k : ℤ) / N) + ∑ l ∈ range order,
          (s (l + 1) * (sin (2 * π * j * (l + 1 : ℕ) / N) * sin (2 * π * j * k / N))
            + c (l + 1) * (sin (2 * π * j * k / N) * cos (2 * π * j * (l + 1 : ℕ) / N))) := by
    intro j _
    rw [trigPoly, add_mul, sum_mul]
    refine congrArg₂ (· + ·) (by push_cast; rfl) (sum_congr rfl fun l _ => ?_)
    have h1 : 2 * π * ((l + 1 : ℕ) : ℝ) * ((j : ℝ) / N) = 2 * π * j * (l + 1 : ℕ) / N := by ring
    rw [h1]
    ring
  rw [sum_congr rfl e, sum_add_distrib, ← mul_sum, sin_sum N hN, sum_comm, mul_zero, zero_add]
  refine sum_congr rfl fun l _ => ?_
  rw [sum_add_distrib, ← mul_sum, ← mul_sum, sin_cos_sum N hN, sin_sin_sum N hN]
  ring

/-! ## C56 -/

/-- The constant coefficient. -/
theorem coeff_zero (N order : ℕ) (h : order < N) (a0 : ℝ) (s c : ℕ → ℝ) :
    rfftRe (uniformSamples N (trigPoly order a0 s c)) 0 / N = a0 := by
  have hN : N ≠ 0 := by omega
  have hN' : (N : ℝ) ≠ 0 := by exact_mod_cast hN
  rw [rfftRe_samples, poly_cos N order hN, sum_eq_zero]
  · simp [hN']
  · intro l hl
    have hl := mem_range.1 hl
    have h1 := dvd_small N (l + 1) 0 (by omega)
    rw [if_neg (by rw [h1.1]; omega), if_neg (by rw [h1.2]; omega)]
    simp

/-- The cosine coefficients. -/
theorem coeff_cos (N order : ℕ) (h : 2 * order < N) (a0 : ℝ) (s c : ℕ → ℝ) (k : ℕ) (hk : k < order) :
    2 * (rfftRe (uniformSamples N (trigPoly order a0 s c)) (k + 1) / N) = c (k + 1) := by
  have hN : N ≠ 0 := by omega
  have hN' : (N : ℝ) ≠ 0 := by exact_mod_cast hN
  rw [rfftRe_samples, poly_cos N order hN, sum_eq_single k]
  · have h1 := dvd_small N (k + 1) (k + 1) (by omega)
    have h2 := dvd_small N (k + 1) 0 (by omega)
    have h3 : ¬ (N : ℤ) ∣ ((k + 1 : ℕ) : ℤ) := by
      have := h2.1.not.2 (by omega)
      simpa using this
    rw [if_neg h3, if_pos (h1.1.2 rfl), if_neg (by rw [h1.2]; omega)]
    field_simp; ring
  · intro l hl hne
    have hl := mem_range.1 hl
    have h1 := dvd_small N (l + 1) (k + 1) (by omega)
    rw [if_neg (by rw [h1.1]; omega), if_neg (by rw [h1.2]; omega)]
    simp
  · intro h1; exact absurd (mem_range.2 hk) h1

/-- The sine coefficients. -/
theorem coeff_sin (N order : ℕ) (h : 2 * order < N) (a0 : ℝ) (s c : ℕ → ℝ) (k : ℕ) (hk : k < order) :
    -2 * (rfftIm (uniformSamples N (trigPoly order a0 s c)) (k + 1) / N) = s (k + 1) := by
  have hN : N ≠ 0 := by omega
  have hN' : (N : ℝ) ≠ 0 := by exact_mod_cast hN
  rw [rfftIm_samples, poly_sin N order hN, sum_eq_single k]
  · have h1 := dvd_small N (k + 1) (k + 1) (by omega)
    rw [if_pos (h1.1.2 rfl), if_neg (by rw [h1.2]; omega)]
    field_simp; ring
  · intro l hl hne
    have hl := mem_range.1 hl
    have h1 := dvd_small N (l + 1) (k + 1) (by omega)
    rw [if_neg (by rw [h1.1]; omega), if_neg (by rw [h1.2]; omega)]
    simp
  · intro h1; exact absurd (mem_range.2 hk) h1

theorem flatMap_congr_range {β : Type} (n : ℕ) (f g : ℕ → List β) (h : ∀ k < n, f k = g k) :
    (List.range n).flatMap f = (List.range n).flatMap g := by
  rw [List.flatMap, List.flatMap, List.map_congr_left]
  intro k hk
  exact h k (List.mem_range.1 hk)

/-- **C56.** With more than `2 order` samples `ifft_simsopt` returns the coefficients of every trigonometric polynomial of degree at
most `order`, in simsopt's order. -/
theorem C56_recovers_coefficients (N order : ℕ) (h : 2 * order < N) (a0 : ℝ) (s c : ℕ → ℝ) :
    ifftSimsopt (uniformSamples N (trigPoly order a0 s c)) order = .ok (curveDofs order a0 s c) := by
  rw [ifftSimsopt, uniformSamples_length, if_neg (by omega), if_neg (by omega), curveDofs, coeff_zero N order (by omega)]
  rw [flatMap_congr_range order _ _ fun k hk => by rw [coeff_sin N order h a0 s c k hk, coeff_cos N order h a0 s c k hk]]

/-- Concrete case: `3 + 2 sin - cos` at 3 samples. -/
example : ifftSimsopt (uniformSamples 3 (trigPoly 1 3 (fun _ => 2) (fun _ => -1))) 1 = .ok [3, 2, -1] :=
  C56_recovers_coefficients 3 1 (by norm_num) 3 (fun _ => 2) (fun _ => -1)

/-- **C56.** Too few samples are refused. -/
theorem C56_too_few_samples (x : List ℝ) (order : ℕ) (h : x.length < 2 * order) :
    ifftSimsopt x order = .error .assertionError := by rw [ifftSimsopt, if_pos h]

example : ifftSimsopt [1, 2, 3] 2 = .error .assertionError := C56_too_few_samples _ _ (by simp)

/-- The polynomial with the returned coefficients. -/
noncomputable def fitCos (x : List ℝ) (k : ℕ) : ℝ := 2 * (rfftRe x k / x.length)
noncomputable def fitSin (x : List ℝ) (k : ℕ) : ℝ := -2 * (rfftIm x k / x.length)

theorem ifft_eq_curveDofs (x : List ℝ) (order : ℕ) (h : 2 * order < x.length) :
    ifftSimsopt x order = .ok (curveDofs order (rfftRe x 0 / x.length) (fitSin x) (fitCos x)) := by
  rw [ifftSimsopt, if_neg (by omega), if_neg (by omega)]
  rfl

theorem rfftRe_eq (x : List ℝ) (k : ℕ) :
    rfftRe x k = ∑ j ∈ range x.length, x.getD j 0 * cos (2 * π * j * k / x.length) := list_sum_range _ _

theorem rfftIm_eq (x : List ℝ) (k : ℕ) :
    rfftIm x k = -∑ j ∈ range x.length, x.getD j 0 * sin (2 * π * j * k / x.length) := by
  rw [rfftIm, list_sum_range, sum_neg_distrib]

/-- The residual of the fit is orthogonal to every polynomial of degree at most `order`. -/
theorem residual_orthogonal (x : List ℝ) (order : ℕ) (h : 2 * order < x.length) (b0 : ℝ) (s c : ℕ → ℝ) :
    ∑ j ∈ range x.length, (x.getD j 0 - trigPoly order (rfftRe x 0 / x.length) (fitSin x) (fitCos x) ((j : ℝ) / x.length))
      * trigPoly order b0 s c ((j : ℝ) / x.length) = 0 := by
  set N := x.length with hNdef
  set p := trigPoly order (rfftRe x 0 / N) (fitSin x) (fitCos x) with hp
  have hN : N ≠ 0 := by omega
  have hN' : (N : ℝ) ≠ 0 := by exact_mod_cast hN
  have h0 : ∑ j ∈ range N, (x.getD j 0 - p ((j : ℝ) / N)) = 0 := by
    have e := coeff_zero N order (by omega) (rfftRe x 0 / N) (fitSin x) (fitCos x)
    rw [rfftRe_samples, div_left_inj' hN', rfftRe_eq, ← hNdef] at e
    simp only [Nat.cast_zero, mul_zero, zero_div, cos_zero, mul_one] at e
    rw [sum_sub_distrib, hp, rfftRe_eq, ← hNdef]
    simp only [Nat.cast_zero, mul_zero, zero_div, cos_zero, mul_one]
    rw [e, sub_self]
  have hc : ∀ k < order, ∑ j ∈ range N, (x.getD j 0 - p ((j : ℝ) / N)) * cos (2 * π * j * (k + 1 : ℕ) / N) = 0 := by
    intro k hk
    have e := coeff_cos N order h (rfftRe x 0 / N) (fitSin x) (fitCos x) k hk
    rw [rfftRe_samples, fitCos, ← hNdef] at e
    have e2 := (div_left_inj' hN').1 (mul_left_cancel₀ (two_ne_zero) e)
    rw [rfftRe_eq x (k + 1), ← hNdef] at e2
    simp only [sub_mul, sum_sub_distrib]
    rw [hp, e2, sub_self]
  have hs : ∀ k < order, ∑ j ∈ range N, (x.getD j 0 - p ((j : ℝ) / N)) * sin (2 * π * j * (k + 1 : ℕ) / N) = 0 := by
    intro k hk
    have e := coeff_sin N order h (rfftRe x 0 / N) (fitSin x) (fitCos x) k hk
    rw [rfftIm_samples, fitSin, ← hNdef] at e
    have e2 := (div_left_inj' hN').1 (mul_left_cancel₀ (by norm_num) e)
    rw [rfftIm_eq, ← hNdef, neg_inj] at e2
    simp only [sub_mul, sum_sub_distrib]
    rw [hp, e2, sub_self]
  have e : ∀ j ∈ range N, (x.getD j 0 - p ((j : ℝ) / N)) * trigPoly order b0 s c ((j : ℝ) / N)
      = b0 * (x.getD j 0 - p ((j : ℝ) / N)) + ∑ k ∈ range order,
        (s (k + 1) * ((x.getD j 0 - p ((j : ℝ) / N)) * sin (2 * π * j * (k + 1 : ℕ) / N))
          + c (k + 1) * ((x.getD j 0 - p ((j : ℝ) / N)) * cos (2 * π * j * (k + 1 : ℕ) / N))) := by
    intro j _
    rw [trigPoly, mul_add, mul_sum]
    refine congrArg₂ (· + ·) (by ring) (sum_congr rfl fun l _ => ?_)
    have h1 : 2 * π * ((l + 1 : ℕ) : ℝ) * ((j : ℝ) / N) = 2 * π * j * (l + 1 : ℕ) / N := by ring
    rw [h1]
    ring
  rw [sum_congr rfl e, sum_add_distrib, ← mul_sum, h0, sum_comm, mul_zero, zero_add]
  refine sum_eq_zero fun k hk => ?_
  rw [sum_add_distrib, ← mul_sum, ← mul_sum, hs k (mem_range.1 hk), hc k (mem_range.1 hk)]
  simp

theorem trigPoly_sub (order : ℕ) (a0 b0 : ℝ) (s c s' c' : ℕ → ℝ) (t : ℝ) :
    trigPoly order a0 s c t - trigPoly order b0 s' c' t = trigPoly order (a0 - b0) (s - s') (c - c') t := by
  have : ∀ k ∈ range order, (s - s') (k + 1) * sin (2 * π * (k + 1 : ℕ) * t) + (c - c') (k + 1) * cos (2 * π * (k + 1 : ℕ) * t)
      = (s (k + 1) * sin (2 * π * (k + 1 : ℕ) * t) + c (k + 1) * cos (2 * π * (k + 1 : ℕ) * t))
        - (s' (k + 1) * sin (2 * π * (k + 1 : ℕ) * t) + c' (k + 1) * cos (2 * π * (k + 1 : ℕ) * t)) := by
    intro k _; simp only [Pi.sub_apply]; ring
  rw [trigPoly, trigPoly, trigPoly, sum_congr rfl this, sum_sub_distrib]
  ring

/-- **C56.** For arbitrary data the returned coefficients are the least squares fit: any other polynomial of degree at most
`order` has a residual that is larger by exactly the squared distance of the two polynomials at the samples. -/
theorem C56_least_squares (x : List ℝ) (order : ℕ) (h : 2 * order < x.length) :
    ∃ a0 s c, ifftSimsopt x order = .ok (curveDofs order a0 s c) ∧ ∀ b0 s' c',
      ∑ j ∈ range x.length, (x.getD j 0 - trigPoly order b0 s' c' ((j : ℝ) / x.length)) ^ 2
        = ∑ j ∈ range x.length, (x.getD j 0 - trigPoly order a0 s c ((j : ℝ) / x.length)) ^ 2
          + ∑ j ∈ range x.length, (trigPoly order a0 s c ((j : ℝ) / x.length) - trigPoly order b0 s' c' ((j : ℝ) / x.length)) ^ 2 := by
  refine ⟨_, _, _, ifft_eq_curveDofs x order h, fun b0 s' c' => ?_⟩
  have ho := residual_orthogonal x order h (rfftRe x 0 / x.length - b0) (fitSin x - s') (fitCos x - c')
  simp only [← trigPoly_sub] at ho
  rw [← sub_eq_zero]
  refine Eq.trans ?_ (Eq.trans (congrArg (fun v => 2 * v) ho) (mul_zero 2))
  simp only [mul_sum]
  rw [← sum_add_distrib, ← sum_sub_distrib]
  refine sum_congr rfl fun j _ => ?_
  ring

/-! ## C68 -/

/-- What `ifft_simsopt` returns at exactly `2 order` samples: all coefficients are right except the two of the highest degree.
The sine coefficient is lost and the cosine coefficient is doubled. -/
theorem C68_highest_degree_partial (order : ℕ) (ho : 0 < order) (a0 : ℝ) (s c : ℕ → ℝ) :
    ifftSimsopt (uniformSamples (2 * order) (trigPoly order a0 s c)) order
      = .ok (curveDofs order a0 (fun k => if k = order then 0 else s k) (fun k => if k = order then 2 * c k else c k)) := by
  set N := 2 * order with hNd
  have hN : N ≠ 0 := by omega
  have hN' : (N : ℝ) ≠ 0 := by exact_mod_cast hN
  rw [ifftSimsopt, uniformSamples_length, if_neg (by omega), if_neg (by omega), curveDofs, coeff_zero N order (by omega)]
  rw [flatMap_congr_range order _ _ fun k hk => ?_]
  have hsum : ∀ l < order, ((N : ℤ) ∣ ((l + 1 : ℕ) : ℤ) - ((k + 1 : ℕ) : ℤ) ↔ l = k) := by
    intro l hl
    constructor
    · intro hd
      have := Int.eq_zero_of_abs_lt_dvd hd (by rw [abs_lt]; constructor <;> omega)
      omega
    · rintro rfl; simp
  have hadd : ∀ l < order, ((N : ℤ) ∣ ((l + 1 : ℕ) : ℤ) + ((k + 1 : ℕ) : ℤ) ↔ l + 1 = order ∧ k + 1 = order) := by
    intro l hl
    constructor
    · rintro ⟨q, hq⟩
      have hq1 : q = 1 := by
        have h1 : 0 < q := by
          by_contra hneg
          have : (N : ℤ) * q ≤ 0 := Int.mul_nonpos_of_nonneg_of_nonpos (by omega) (by omega)
          omega
        have h2 : q < 2 := by
          by_contra hneg
          have : (N : ℤ) * 2 ≤ N * q := Int.mul_le_mul_of_nonneg_left (by omega) (by omega)
          omega
        omega
      rw [hq1] at hq
      omega
    · rintro ⟨h1, h2⟩
      refine ⟨1, ?_⟩
      omega
  have hk0 : ¬ (N : ℤ) ∣ ((k + 1 : ℕ) : ℤ) := by
    intro hd
    have := Int.eq_zero_of_abs_lt_dvd hd (by rw [abs_lt]; constructor <;> omega)
    omega
  congr 1
  · rw [rfftIm_samples, poly_sin N order hN, sum_eq_single k]
    · rw [if_pos ((hsum k hk).2 rfl)]
      by_cases hko : k + 1 = order
      · rw [if_pos ((hadd k hk).2 ⟨hko, hko⟩), if_pos hko]; simp
      · rw [if_neg (fun hd => hko ((hadd k hk).1 hd).1), if_neg hko]; field_simp; ring
    · intro l hl hne
      have hl := mem_range.1 hl
      rw [if_neg (fun hd => hne ((hsum l hl).1 hd)), if_neg]
      · simp
      · intro hd
        have := (hadd l hl).1 hd
        omega
    · intro h1; exact absurd (mem_range.2 hk) h1
  · congr 1
    rw [rfftRe_samples, poly_cos N order hN, if_neg hk0, sum_eq_single k]
    · rw [if_pos ((hsum k hk).2 rfl)]
      by_cases hko : k + 1 = order
      · rw [if_pos ((hadd k hk).2 ⟨hko, hko⟩), if_pos hko]; field_simp; ring
      · rw [if_neg (fun hd => hko ((hadd k hk).1 hd).1), if_neg hko]; field_simp; ring
    · intro l hl hne
      have hl := mem_range.1 hl
      rw [if_neg (fun hd => hne ((hsum l hl).1 hd)), if_neg]
      · simp
      · intro hd
        have := (hadd l hl).1 hd
        omega
    · intro h1; exact absurd (mem_range.2 hk) h1

/-- **C68** is false: the samples `1, -1` of `cos (2 pi t)` give the cosine coefficient 2. -/
theorem C68_violated_partial :
    ifftSimsopt (uniformSamples 2 (trigPoly 1 0 (fun _ => 0) (fun _ => 1))) 1
      ≠ .ok (curveDofs 1 0 (fun _ => 0) (fun _ => 1)) := by
  have h := C68_highest_degree_partial 1 (by norm_num) 0 (fun _ => 0) (fun _ => 1)
  intro h2
  rw [show 2 = 2 * 1 from rfl] at h2
  rw [h2] at h
  simp [curveDofs] at h

/-- The samples accepted by the default `order` include the violating case: a coil given by an even number of points gets exactly
`order = N / 2`. -/
theorem C68_default_order_partial (n : ℕ) : defaultOrder [2 * n, 2 * n, 2 * n] = n := by
  simp [defaultOrder]

end Verif
