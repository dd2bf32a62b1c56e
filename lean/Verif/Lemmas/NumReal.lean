import Verif.Model.Num
import Mathlib.Tactic.Ring
import Mathlib.Tactic.FieldSimp
import Mathlib.Tactic.Linarith
import Mathlib.Tactic.Positivity
import Mathlib.Algebra.BigOperators.Fin
import Mathlib.Data.List.OfFn

/-! The operations of `Num ℝ` are the usual ones. -/

namespace Verif

@[simp] theorem num_add (a b : ℝ) : Num.add a b = a + b := rfl
@[simp] theorem num_sub (a b : ℝ) : Num.sub a b = a - b := rfl
@[simp] theorem num_mul (a b : ℝ) : Num.mul a b = a * b := rfl
@[simp] theorem num_div (a b : ℝ) : Num.div a b = a / b := rfl
@[simp] theorem num_neg (a : ℝ) : Num.neg a = -a := rfl
@[simp] theorem num_abs (a : ℝ) : Num.abs a = |a| := rfl
@[simp] theorem num_sqrt (a : ℝ) : Num.sqrt a = Real.sqrt a := rfl
@[simp] theorem num_max (a b : ℝ) : Num.max a b = max a b := rfl
@[simp] theorem num_ofNat (n : ℕ) : (Num.ofNat n : ℝ) = (n : ℝ) := rfl
@[simp] theorem num_lt (a b : ℝ) : Num.lt a b = true ↔ a < b := by simp [Num.lt]
@[simp] theorem num_le (a b : ℝ) : Num.le a b = true ↔ a ≤ b := by simp [Num.le]
@[simp] theorem num_eq (a b : ℝ) : Num.eq a b = true ↔ a = b := by simp [Num.eq]
@[simp] theorem num_lt_false (a b : ℝ) : Num.lt a b = false ↔ b ≤ a := by simp [Num.lt]
@[simp] theorem num_le_false (a b : ℝ) : Num.le a b = false ↔ b < a := by simp [Num.le]
@[simp] theorem num_eq_false (a b : ℝ) : Num.eq a b = false ↔ a ≠ b := by simp [Num.eq]

@[simp] theorem num_sum (v : List ℝ) : Num.sum v = v.sum := by
  induction v with
  | nil => simp [Num.sum]
  | cons a v ih => simp only [Num.sum, List.foldr_cons, num_add, List.sum_cons] at *; rw [ih]

theorem num_norm (v : List ℝ) : Num.norm v = Real.sqrt (v.map fun a => a * a).sum := by
  simp [Num.norm]

theorem num_norm_nonneg (v : List ℝ) : 0 ≤ Num.norm v := by
  rw [num_norm]; exact Real.sqrt_nonneg _

theorem sum_sq_nonneg (v : List ℝ) : 0 ≤ (v.map fun a => a * a).sum := by
  apply List.sum_nonneg
  intro x hx
  obtain ⟨a, _, rfl⟩ := List.mem_map.1 hx
  exact mul_self_nonneg a

/-- The norm vanishes only for the zero vector. -/
theorem num_norm_eq_zero {v : List ℝ} (h : Num.norm v = 0) : ∀ a ∈ v, a = 0 := by
  rw [num_norm, Real.sqrt_eq_zero (sum_sq_nonneg v)] at h
  induction v with
  | nil => simp
  | cons a v ih =>
    simp only [List.map_cons, List.sum_cons] at h
    have h1 := sum_sq_nonneg v
    have h2 := mul_self_nonneg a
    have h3 : a * a = 0 := by linarith
    have h4 : (v.map fun a => a * a).sum = 0 := by linarith
    intro b hb
    rcases List.mem_cons.1 hb with rfl | hb
    · exact mul_self_eq_zero.1 h3
    · exact ih h4 b hb

theorem zipWith_ofFn {n : ℕ} {A B C : Type} (f : A → B → C) (a : Fin n → A) (b : Fin n → B) :
    List.zipWith f (List.ofFn a) (List.ofFn b) = List.ofFn fun i => f (a i) (b i) := by
  induction n with
  | zero => simp
  | succ n ih => simp [List.ofFn_succ, ih]

theorem map_ofFn' {n : ℕ} {A B : Type} (f : A → B) (a : Fin n → A) :
    (List.ofFn a).map f = List.ofFn fun i => f (a i) := by
  rw [List.map_ofFn]; rfl

theorem exists_ofFn {A : Type} {l : List A} {n : ℕ} (h : l.length = n) : ∃ v : Fin n → A, l = List.ofFn v := by
  subst h
  exact ⟨_, List.ofFn_getElem.symm⟩

theorem num_dot_ofFn {n : ℕ} (a b : Fin n → ℝ) :
    Num.dot (List.ofFn a) (List.ofFn b) = ∑ i, a i * b i := by
  unfold Num.dot
  rw [zipWith_ofFn, num_sum, List.sum_ofFn]
  rfl

/-- Telescoping: consecutive differences of a list sum to first minus last. -/
theorem sum_consecutive_sub (a : ℝ) (l : List ℝ) :
    (List.zipWith (fun x y : ℝ => x - y) (a :: l).dropLast (a :: l).tail).sum
      = a - (a :: l).getLast (List.cons_ne_nil a l) := by
  induction l generalizing a with
  | nil => simp
  | cons b l ih =>
    have := ih b
    simp only [List.dropLast_cons_of_ne_nil (List.cons_ne_nil b l), List.tail_cons, List.zipWith_cons_cons,
      List.sum_cons] at *
    rw [this, List.getLast_cons (List.cons_ne_nil b l)]
    ring

end Verif
