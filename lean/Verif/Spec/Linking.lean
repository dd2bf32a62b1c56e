import Verif.Spec.Deriv
import Mathlib.MeasureTheory.Integral.IntervalIntegral.Basic
import Mathlib.Analysis.SpecialFunctions.Trigonometric.Basic

/-! # Closed curves, circulation and linking, stated independently of the code -/

namespace Verif

/-- `y` is a closed curve with the continuous tangent `e`; the parameter runs from 0 to 1. -/
structure IsLoop (y e : ℝ → V3) : Prop where
  deriv : ∀ s, HasDerivV3 y (e s) s
  cont : Continuous (fun s => (e s).x) ∧ Continuous (fun s => (e s).y) ∧ Continuous (fun s => (e s).z)
  closed : y 1 = y 0

/-- The circulation of the field `B` along the curve. -/
noncomputable def circulation (B : V3 → V3) (y e : ℝ → V3) : ℝ := ∫ s in (0 : ℝ)..1, V3.dot (B (y s)) (e s)

/-- The integral of Gauss: how often the closed curves `x` and `y` with the tangents `f` and `e` are linked. -/
noncomputable def linking (y e x f : ℝ → V3) : ℝ :=
  1 / (4 * Real.pi) * ∫ s in (0 : ℝ)..1, ∫ t in (0 : ℝ)..1, V3.dot (x t - y s) (V3.cross (f t) (e s)) / (x t - y s).norm ^ 3

end Verif
