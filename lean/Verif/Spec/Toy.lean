import Verif.Model.Solver
import Mathlib.Analysis.Calculus.Deriv.Basic

/-!
A concrete optimiser, used only in examples and counterexamples: gradient descent with fixed step length,
keeping the counter, value and gradient in its state the way optax does.
-/

namespace Verif

/-- Gradient descent with step length `step`. -/
def gradientDescent {α : Type} [Num α] (gradOp : (List α → α) → List α → List α) (step : α) : Optimizer α where
  State := ℕ × Option (α × List α)
  init _ := (0, none)
  update g s p _ f :=
    let u := g.map fun t => Num.neg (Num.mul step t)
    (u, (s.1 + 1, some (f (Num.vadd p u), gradOp f (Num.vadd p u))))
  count s := s.1
  value s := match s.2 with | some v => v.1 | none => Num.ofNat 0
  valueFinite s := s.2.isSome
  grad s := match s.2 with | some v => v.2 | none => []

theorem gradientDescent_count {α : Type} [Num α] (gradOp : (List α → α) → List α → List α) (step : α) :
    (gradientDescent gradOp step).CountContract where
  init_count _ := rfl
  update_count _ _ _ _ _ := rfl

theorem gradientDescent_value {α : Type} [Num α] (gradOp : (List α → α) → List α → List α) (step : α) :
    (gradientDescent gradOp step).ValueContract where
  init_value _ := rfl
  update_value _ _ _ _ _ := rfl

/-- The true gradient of a real function of a list: partial derivative for each entry. -/
noncomputable def realGrad (f : List ℝ → ℝ) (p : List ℝ) : List ℝ :=
  (List.range p.length).map fun i => deriv (fun t => f (p.set i t)) (p.getD i 0)

end Verif
