import Mathlib.Analysis.SpecialFunctions.Trigonometric.Basic
import Mathlib.Analysis.SpecialFunctions.Complex.Circle
import Mathlib.Algebra.Polynomial.Roots
import Mathlib.Tactic.LinearCombination

/-!
# Zeros of trigonometric polynomials

A trigonometric polynomial of degree `n` with more than `2 n` zeros in one period vanishes.
-/

namespace Verif

open Real Polynomial

/-- `f` is a trigonometric polynomial of degree at most `n` in `2 pi t`. -/
def IsTrig (n : ℕ) (f : ℝ → ℝ) : Prop :=
  ∃ p : ℂ[X], p.natDegree ≤ 2 * n ∧
    ∀ t : ℝ, (f t : ℂ) * Complex.exp (2 * π * t * Complex.I) ^ n = p.eval (Complex.exp (2 * π * t * Complex.I))

theorem IsTrig.zero (n : ℕ) : IsTrig n fun _ => 0 := ⟨0, by simp, by simp⟩

theorem IsTrig.add {n : ℕ} {f g : ℝ → ℝ} (hf : IsTrig n f) (hg : IsTrig n g) : IsTrig n fun t => f t + g t := by
  obtain ⟨p, hp, hp2⟩ := hf
  obtain ⟨q, hq, hq2⟩ := hg
  refine ⟨p + q, (natDegree_add_le p q).trans (max_le hp hq), fun t => ?_⟩
  rw [eval_add, ← hp2, ← hq2]
  push_cast
  ring

theorem IsTrig.const_mul {n : ℕ} {f : ℝ → ℝ} (hf : IsTrig n f) (c : ℝ) : IsTrig n fun t => c * f t := by
  obtain ⟨p, hp, hp2⟩ := hf
  refine ⟨C (c : ℂ) * p, (natDegree_C_mul_le _ _).trans hp, fun t => ?_⟩
  rw [eval_mul, eval_C, ← hp2]
  push_cast
  ring

theorem IsTrig.sum {n : ℕ} {ι : Type} (s : Finset ι) {f : ι → ℝ → ℝ} (hf : ∀ i ∈ s, IsTrig n (f i)) :
    IsTrig n fun t => ∑ i ∈ s, f i t := by
  induction s using Finset.cons_induction with
  | empty => simpa using IsTrig.zero n
  | cons a s ha ih =>
    simp only [Finset.sum_cons]
    exact (hf a (Finset.mem_cons_self _ _)).add (ih fun i hi => hf i (Finset.mem_cons_of_mem hi))

theorem trig_cos_aux (n : ℕ) (m : ℕ) (hm : m ≤ n) (c : ℝ) : IsTrig n fun t => cos (2 * π * m * t + c) := by
  refine ⟨C (Complex.exp (c * Complex.I) / 2) * X ^ (n + m) + C (Complex.exp (-(c * Complex.I)) / 2) * X ^ (n - m), ?_, fun t => ?_⟩
  · refine (natDegree_add_le _ _).trans (max_le ?_ ?_)
    · exact (natDegree_C_mul_X_pow_le _ _).trans (by omega)
    · exact (natDegree_C_mul_X_pow_le _ _).trans (by omega)
  · simp only [eval_add, eval_mul, eval_C, eval_pow, eval_X]
    have h1 : Complex.exp (2 * π * t * Complex.I) ^ n =
        Complex.exp (2 * π * t * Complex.I) ^ (n - m) * Complex.exp (2 * π * t * Complex.I) ^ m := by
      rw [← pow_add]
      congr 1
      omega
    rw [Complex.ofReal_cos, Complex.cos, pow_add, h1]
    have h2 : Complex.exp (2 * π * t * Complex.I) ^ m = Complex.exp (2 * π * m * t * Complex.I) := by
      rw [← Complex.exp_nat_mul]
      congr 1
      ring
    have h3 : Complex.exp (((2 * π * m * t + c : ℝ) : ℂ) * Complex.I) =
        Complex.exp (2 * π * m * t * Complex.I) * Complex.exp (c * Complex.I) := by
      rw [← Complex.exp_add]
      congr 1
      push_cast
      ring
    have h4 : Complex.exp (-((2 * π * m * t + c : ℝ) : ℂ) * Complex.I) * Complex.exp (2 * π * m * t * Complex.I) =
        Complex.exp (-(c * Complex.I)) := by
      rw [← Complex.exp_add]
      congr 1
      push_cast
      ring
    rw [h2, h3]
    linear_combination (Complex.exp (2 * π * t * Complex.I) ^ (n - m) / 2) * h4

/-- Modes are trigonometric polynomials. -/
theorem IsTrig.cos {n : ℕ} {m : ℤ} (hm : |m| ≤ n) (c : ℝ) : IsTrig n fun t => Real.cos (2 * π * m * t + c) := by
  obtain ⟨k, rfl | rfl⟩ := m.eq_nat_or_neg
  · rw [Nat.abs_cast] at hm
    simpa using trig_cos_aux n k (by exact_mod_cast hm) c
  · rw [abs_neg, Nat.abs_cast] at hm
    have h := trig_cos_aux n k (by exact_mod_cast hm) (-c)
    have e : (fun t : ℝ => Real.cos (2 * π * ((-(k : ℤ) : ℤ) : ℝ) * t + c)) = fun t : ℝ => Real.cos (2 * π * k * t + -c) := by
      funext t
      rw [← Real.cos_neg]
      congr 1
      push_cast
      ring
    rw [e]
    exact h

theorem IsTrig.sin {n : ℕ} {m : ℤ} (hm : |m| ≤ n) (c : ℝ) : IsTrig n fun t => Real.sin (2 * π * m * t + c) := by
  have h := IsTrig.cos hm (c - π / 2)
  have e : (fun t : ℝ => Real.sin (2 * π * m * t + c)) = fun t : ℝ => Real.cos (2 * π * m * t + (c - π / 2)) := by
    funext t
    rw [← Real.cos_sub_pi_div_two]
    congr 1
    ring
  rw [e]
  exact h

/-- Different points of one period give different points of the circle. -/
theorem circle_injective {a b : ℝ} (h : |a - b| < 1) (he : Complex.exp (2 * π * a * Complex.I) = Complex.exp (2 * π * b * Complex.I)) :
    a = b := by
  rw [Complex.exp_eq_exp_iff_exists_int] at he
  obtain ⟨n, hn⟩ := he
  have h2 : (a : ℂ) = b + n := by
    have : (2 * π * Complex.I : ℂ) ≠ 0 := by
      simp [pi_ne_zero]
    apply mul_left_cancel₀ this
    linear_combination hn
  have h3 : a = b + n := by exact_mod_cast h2
  have h4 : |(n : ℝ)| < 1 := by rwa [h3, add_sub_cancel_left] at h
  have h5 : |n| < 1 := by exact_mod_cast h4
  rw [Int.abs_lt_one_iff] at h5
  rw [h3, h5]
  simp

/-- A trigonometric polynomial of degree `n` with more than `2 n` zeros in one period vanishes. -/
theorem IsTrig.eq_zero {n : ℕ} {f : ℝ → ℝ} (hf : IsTrig n f) (s : Finset ℝ) (hs : 2 * n < s.card)
    (hd : ∀ a ∈ s, ∀ b ∈ s, |a - b| < 1) (hz : ∀ a ∈ s, f a = 0) (t : ℝ) : f t = 0 := by
  obtain ⟨p, hp, hp2⟩ := hf
  have hp0 : p = 0 := by
    refine Polynomial.eq_zero_of_natDegree_lt_card_of_eval_eq_zero' p (s.image fun a : ℝ => Complex.exp (2 * π * a * Complex.I)) ?_ ?_
    · intro w hw
      obtain ⟨a, ha, rfl⟩ := Finset.mem_image.1 hw
      rw [← hp2, hz a ha]
      simp
    · rw [Finset.card_image_of_injOn]
      · omega
      · intro a ha b hb hab
        exact circle_injective (hd a ha b hb) hab
  have h := hp2 t
  rw [hp0, eval_zero, mul_eq_zero] at h
  rcases h with h | h
  · exact_mod_cast h
  · exact absurd h (pow_ne_zero _ (Complex.exp_ne_zero _))

example : IsTrig 1 fun t => Real.cos (2 * π * ((1 : ℤ) : ℝ) * t + 0) := IsTrig.cos (by norm_num) 0

end Verif
