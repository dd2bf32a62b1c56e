import Mathlib.Data.Real.Basic

/-! # What a constraint request means -/

namespace Verif

/-- The constraint `field <type> value`, at every entry of the field. -/
def FieldConstraint (type : String) (value : ℝ) (field : List ℝ) : Prop :=
  (type = "<=" → ∀ x ∈ field, x ≤ value) ∧ (type = ">=" → ∀ x ∈ field, value ≤ x) ∧
    (type = "==" → ∀ x ∈ field, x = value)

/-- The constraint `field <type> value` up to a violation of `tol`, at every entry of the field. -/
def FieldConstraintWithin (type : String) (value tol : ℝ) (field : List ℝ) : Prop :=
  (type = "<=" → ∀ x ∈ field, x ≤ value + tol) ∧ (type = ">=" → ∀ x ∈ field, value - tol ≤ x) ∧
    (type = "==" → ∀ x ∈ field, value - tol ≤ x ∧ x ≤ value + tol)

/-- All entries are non-positive: how the solver reads an inequality function. -/
def AllNonpos (l : List ℝ) : Prop := ∀ x ∈ l, x ≤ 0

/-- All entries vanish: how the solver reads an equality function. -/
def AllZero (l : List ℝ) : Prop := ∀ x ∈ l, x = 0

end Verif
