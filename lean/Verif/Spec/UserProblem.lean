import Verif.Model.Wrapper
import Verif.Spec.Constraint

/-! # The problem the user asks for

In terms of the potential only: no auxiliary variables, no scaled unknowns. -/

namespace Verif

variable {P : Type}

/-- The value of the quantity with this name. -/
def rawOf (reg : Registry P) (name : String) (qp : P) (d : Dofs) : Val :=
  match reg name with
  | some (.quantity q) => q.rawF qp d
  | _ => Val.scalar 0

/-- The size of a unit given as a number. -/
def UnitArg.size : UnitArg → ℝ
  | .scalar u => |u|
  | _ => 1

/-- The objectives as a list of name, unit and weight. A single objective has weight 1. -/
def objectiveList : OneOrMany String → OneOrMany UnitArg → OneOrMany ℝ → List (String × UnitArg × ℝ)
  | .one n, .one u, _ => [(n, u, 1)]
  | .many ns, .many us, .many ws => ns.zip (us.zip ws)
  | _, _, _ => []

/-- All requested constraints hold at the potential. -/
def UserFeasible (reg : Registry P) (rs : List Request) (qp : P) (d : Dofs) : Prop :=
  ∀ r ∈ rs, FieldConstraint r.type r.value (rawOf reg r.name qp d).entries

/-- The weighted sum of quantity over unit; an objective is a name, a unit and a weight. -/
noncomputable def userObjective (reg : Registry P) (objs : List (String × UnitArg × ℝ)) (qp : P) (d : Dofs) : ℝ :=
  (objs.map fun o => o.2.2 * ((rawOf reg o.1 qp d).entries.headD 0 / o.2.1.size)).sum

/-- The potential satisfies all requested constraints, and no other one that does has a smaller objective. `pot` says which
dictionaries hold a potential. -/
def UserMinimiser (reg : Registry P) (objs : List (String × UnitArg × ℝ)) (rs : List Request) (qp : P) (pot : Dofs → Prop)
    (d : Dofs) : Prop :=
  pot d ∧ UserFeasible reg rs qp d ∧ ∀ e, pot e → UserFeasible reg rs qp e → userObjective reg objs qp d ≤ userObjective reg objs qp e

end Verif
