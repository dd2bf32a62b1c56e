import Mathlib.Analysis.SpecialFunctions.Trigonometric.Basic

/-! # Trigonometric polynomials in one variable, stated independently of the code -/

namespace Verif

open Real

/-- `a0 + sum_{k=1}^{order} (s_k sin (2 pi k t) + c_k cos (2 pi k t))`: a coordinate of simsopt's `CurveXYZFourier`. -/
noncomputable def trigPoly (order : ℕ) (a0 : ℝ) (s c : ℕ → ℝ) (t : ℝ) : ℝ :=
  a0 + ∑ k ∈ Finset.range order, (s (k + 1) * sin (2 * π * (k + 1 : ℕ) * t) + c (k + 1) * cos (2 * π * (k + 1 : ℕ) * t))

/-- Samples on the uniform grid `0, 1/N, ..., (N-1)/N`. -/
noncomputable def uniformSamples (N : ℕ) (f : ℝ → ℝ) : List ℝ := (List.range N).map fun j : ℕ => f ((j : ℝ) / N)

/-- The coefficients in the order of simsopt: constant, then sine and cosine coefficient of each degree. -/
def curveDofs (order : ℕ) (a0 : ℝ) (s c : ℕ → ℝ) : List ℝ :=
  a0 :: (List.range order).flatMap fun k => [s (k + 1), c (k + 1)]

end Verif
