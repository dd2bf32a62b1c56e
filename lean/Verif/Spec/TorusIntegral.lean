import Verif.Model.V3
import Mathlib.MeasureTheory.Integral.IntervalIntegral.Basic

/-! # Integrals over the whole torus, stated independently of the code -/

namespace Verif

/-- The integral of a vector field over both angles, by components; a full turn is 1. -/
noncomputable def torusIntegral (f : ℝ → ℝ → V3) : V3 :=
  ⟨∫ p in (0 : ℝ)..1, ∫ t in (0 : ℝ)..1, (f p t).x, ∫ p in (0 : ℝ)..1, ∫ t in (0 : ℝ)..1, (f p t).y,
    ∫ p in (0 : ℝ)..1, ∫ t in (0 : ℝ)..1, (f p t).z⟩

/-- The law of Biot and Savart: `mu0/4pi` times `K x (y - x) / |y - x|^3`, the field at `y` of a current `K` at `x`. -/
noncomputable def biotSavart (y x K : V3) : V3 := (1e-7 / (y - x).norm ^ 3) • V3.cross K (y - x)

end Verif
