import Verif.Model.Call
import Verif.Lemmas.Shape

/-!
# Listing objectives and constraints in another order

Nothing here refers to the parsing code: a call is given by its list of objectives and its list of constraints.
-/

namespace Verif

/-- One objective as the user lists it: name, unit and weight. -/
structure ObjectiveItem where
  name : String
  unit : UnitArg
  weight : ℝ

/-- The arguments of a call with these objectives and constraints, each given by parallel lists. -/
def CallArgs.listing (a : CallArgs) (objs : List ObjectiveItem) (cons : List Request) : CallArgs :=
  { a with opts := { a.opts with
      objectiveName := .many (objs.map ObjectiveItem.name)
      objectiveUnit := .many (objs.map ObjectiveItem.unit)
      objectiveWeight := .many (objs.map ObjectiveItem.weight)
      constraintName := cons.map Request.name
      constraintType := cons.map Request.type
      constraintUnit := cons.map Request.unit
      constraintValue := cons.map Request.value } }

/-- A quantity that is listed more than once always has the same unit. -/
def OneUnitEach (l : List (String × UnitArg)) : Prop := ∀ a ∈ l, ∀ b ∈ l, a.1 = b.1 → a.2 = b.2

/-- The status of the solver is the same up to the order of the constraints: inequality values keep their multipliers, equality values too. -/
def Status.SameUpToOrder (s' s : Status ℝ) : Prop :=
  s' = { s with finG := s'.finG, finMu := s'.finMu, finH := s'.finH, finLam := s'.finLam } ∧
  s'.finG.length = s'.finMu.length ∧ s.finG.length = s.finMu.length ∧ (s'.finG.zip s'.finMu).Perm (s.finG.zip s.finMu) ∧
  s'.finH.length = s'.finLam.length ∧ s.finH.length = s.finLam.length ∧ (s'.finH.zip s'.finLam).Perm (s.finH.zip s.finLam)

/-- The results of the solver are the same up to the order of the constraints. -/
inductive SolveResults.SameUpToOrder : SolveResults → SolveResults → Prop
  | inner (r : InnerResult ℝ) : SameUpToOrder (.inner r) (.inner r)
  | outer {s' s : Status ℝ} (h : s'.SameUpToOrder s) : SameUpToOrder (.outer s') (.outer s)

/-- Both calls fail, or both do not stop, or they return the same outputs and solution, and the same solver results up to order. -/
inductive SameCallUpToOrder : Except PyErr (Option CallOut) → Except PyErr (Option CallOut) → Prop
  | error (e' e : PyErr) : SameCallUpToOrder (.error e') (.error e)
  | none : SameCallUpToOrder (.ok none) (.ok none)
  | some {out : List (String × MetricOut Val)} {qp : FieldProblem} {d : Dofs} {r' r : SolveResults} (h : r'.SameUpToOrder r) :
      SameCallUpToOrder (.ok (some ⟨out, qp, d, r'⟩)) (.ok (some ⟨out, qp, d, r⟩))

/-- Contract of an optimiser: it evaluates functions only at vectors of the shape it was given. -/
structure Optimizer.LocalContract (opt : Optimizer ℝ) (gradOp : (List ℝ → ℝ) → List ℝ → List ℝ) : Prop where
  grad : ∀ (f f' : List ℝ → ℝ) (x : List ℝ), (∀ y : List ℝ, y.length = x.length → f y = f' y) → gradOp f x = gradOp f' x
  update : ∀ (f f' : List ℝ → ℝ) (g : List ℝ) (s : opt.State) (x : List ℝ) (v : ℝ), g.length = x.length →
    (∀ y : List ℝ, y.length = x.length → f y = f' y) → opt.update g s x v f = opt.update g s x v f'

end Verif
