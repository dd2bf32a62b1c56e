import Verif.Model.V3
import Mathlib.Analysis.Calculus.Deriv.Basic

/-! # Derivative of a vector valued function of one variable, by components -/

namespace Verif

/-- `f` has derivative `f'` at `t`, component by component. -/
def HasDerivV3 (f : ℝ → V3) (f' : V3) (t : ℝ) : Prop :=
  HasDerivAt (fun s => (f s).x) f'.x t ∧ HasDerivAt (fun s => (f s).y) f'.y t ∧ HasDerivAt (fun s => (f s).z) f'.z t

end Verif
