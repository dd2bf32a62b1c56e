import Verif.Model.Num

/-!
# Arithmetic with NaN

What IEEE 754 (and JAX's `maximum`, `abs`, `sqrt`) say about NaN, without anything about rounding or infinities.
-/

namespace Verif

/-- A number structure with NaN: an operation with a NaN argument gives NaN, a comparison with NaN is false. -/
class NanNum (α : Type) [Num α] where
  isNan : α → Prop
  add_left : ∀ a b : α, isNan a → isNan (Num.add a b)
  add_right : ∀ a b : α, isNan b → isNan (Num.add a b)
  sub_left : ∀ a b : α, isNan a → isNan (Num.sub a b)
  sub_right : ∀ a b : α, isNan b → isNan (Num.sub a b)
  mul_left : ∀ a b : α, isNan a → isNan (Num.mul a b)
  mul_right : ∀ a b : α, isNan b → isNan (Num.mul a b)
  div_left : ∀ a b : α, isNan a → isNan (Num.div a b)
  div_right : ∀ a b : α, isNan b → isNan (Num.div a b)
  max_left : ∀ a b : α, isNan a → isNan (Num.max a b)
  max_right : ∀ a b : α, isNan b → isNan (Num.max a b)
  neg_nan : ∀ a : α, isNan a → isNan (Num.neg a)
  abs_nan : ∀ a : α, isNan a → isNan (Num.abs a)
  sqrt_nan : ∀ a : α, isNan a → isNan (Num.sqrt a)
  lt_left : ∀ a b : α, isNan a → Num.lt a b = false
  lt_right : ∀ a b : α, isNan b → Num.lt a b = false
  le_left : ∀ a b : α, isNan a → Num.le a b = false
  le_right : ∀ a b : α, isNan b → Num.le a b = false
  eq_left : ∀ a b : α, isNan a → Num.eq a b = false
  eq_right : ∀ a b : α, isNan b → Num.eq a b = false

/-- Component `i` of the vector is NaN. -/
def NanAt {α : Type} [Num α] [NanNum α] (v : List α) (i : ℕ) : Prop := ∃ a, v[i]? = some a ∧ NanNum.isNan a

/-- The real numbers with one NaN: division by zero and roots of negative numbers give NaN. -/
abbrev NanReal : Type := Option ℝ

open Classical in
/-- Exact arithmetic of the real numbers with a NaN. -/
noncomputable instance instNumNanReal : Num NanReal where
  add a b := a.bind fun x => b.bind fun y => some (x + y)
  sub a b := a.bind fun x => b.bind fun y => some (x - y)
  mul a b := a.bind fun x => b.bind fun y => some (x * y)
  div a b := a.bind fun x => b.bind fun y => if y = 0 then none else some (x / y)
  neg a := a.bind fun x => some (-x)
  abs a := a.bind fun x => some |x|
  sqrt a := a.bind fun x => if x < 0 then none else some (Real.sqrt x)
  max a b := a.bind fun x => b.bind fun y => some (max x y)
  ofNat n := some n
  lt a b := decide (∃ x y, a = some x ∧ b = some y ∧ x < y)
  le a b := decide (∃ x y, a = some x ∧ b = some y ∧ x ≤ y)
  eq a b := decide (∃ x y, a = some x ∧ b = some y ∧ x = y)

noncomputable instance instNanNumNanReal : NanNum NanReal where
  isNan a := a = none
  add_left := by rintro a b rfl; rfl
  add_right := by rintro (_ | a) b rfl <;> rfl
  sub_left := by rintro a b rfl; rfl
  sub_right := by rintro (_ | a) b rfl <;> rfl
  mul_left := by rintro a b rfl; rfl
  mul_right := by rintro (_ | a) b rfl <;> rfl
  div_left := by rintro a b rfl; rfl
  div_right := by rintro (_ | a) b rfl <;> rfl
  max_left := by rintro a b rfl; rfl
  max_right := by rintro (_ | a) b rfl <;> rfl
  neg_nan := by rintro a rfl; rfl
  abs_nan := by rintro a rfl; rfl
  sqrt_nan := by rintro a rfl; rfl
  lt_left := by rintro a b rfl; simp [Num.lt]
  lt_right := by rintro a b rfl; simp [Num.lt]
  le_left := by rintro a b rfl; simp [Num.le]
  le_right := by rintro a b rfl; simp [Num.le]
  eq_left := by rintro a b rfl; simp [Num.eq]
  eq_right := by rintro a b rfl; simp [Num.eq]

end Verif
