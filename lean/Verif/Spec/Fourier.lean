import Mathlib.Analysis.SpecialFunctions.Trigonometric.Basic

/-! # Fourier series on a torus with `nfp` field periods, stated independently of the code -/

namespace Verif

open Real

/-- `sum_i c_i cos (2 pi (m_i theta - nfp n_i phi))`. -/
noncomputable def cosSeries (nfp : ℕ) (modes : List (ℤ × ℤ)) (c : List ℝ) (phi theta : ℝ) : ℝ :=
  ((modes.zip c).map fun p => p.2 * cos (2 * π * (p.1.1 * theta - nfp * p.1.2 * phi))).sum

/-- `sum_i c_i sin (2 pi (m_i theta - nfp n_i phi))`. -/
noncomputable def sinSeries (nfp : ℕ) (modes : List (ℤ × ℤ)) (c : List ℝ) (phi theta : ℝ) : ℝ :=
  ((modes.zip c).map fun p => p.2 * sin (2 * π * (p.1.1 * theta - nfp * p.1.2 * phi))).sum

end Verif
