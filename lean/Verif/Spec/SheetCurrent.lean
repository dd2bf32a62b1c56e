import Verif.Spec.SurfaceGradient
import Verif.Spec.Deriv
import Verif.Spec.Fourier
import Verif.Spec.TorusIntegral

/-!
# Current sheets and their values on a grid, stated independently of the code

`x : ℝ → ℝ → V3` is a surface and `f` a stream function on it.
-/

namespace Verif

/-- The derivative of `x` in its first argument. -/
noncomputable def tangentPhi (x : ℝ → ℝ → V3) (p t : ℝ) : V3 :=
  ⟨deriv (fun s => (x s t).x) p, deriv (fun s => (x s t).y) p, deriv (fun s => (x s t).z) p⟩

/-- The derivative of `x` in its second argument. -/
noncomputable def tangentTheta (x : ℝ → ℝ → V3) (p t : ℝ) : V3 :=
  ⟨deriv (fun s => (x p s).x) t, deriv (fun s => (x p s).y) t, deriv (fun s => (x p s).z) t⟩

/-- The normal whose length is the area per angles. -/
noncomputable def areaVector (x : ℝ → ℝ → V3) (p t : ℝ) : V3 := V3.cross (tangentPhi x p t) (tangentTheta x p t)

/-- `K` is the current on `x` with the stream function `f`: the unit normal times the surface gradient. -/
def IsSheetCurrent (x : ℝ → ℝ → V3) (f : ℝ → ℝ → ℝ) (K : ℝ → ℝ → V3) : Prop := ∀ p t, ∃ g,
  IsSurfaceGradient (tangentPhi x p t) (tangentTheta x p t) f p t g ∧
    K p t = V3.cross ((1 / (areaVector x p t).norm) • areaVector x p t) g

/-- `D` is the rate of change of `K` along the curves on `x` with velocity `K`. -/
def IsConvective (x K D : ℝ → ℝ → V3) : Prop := ∀ p t, ∃ (a b : ℝ → ℝ) (a' b' : ℝ), a 0 = p ∧ b 0 = t ∧ HasDerivAt a a' 0 ∧
  HasDerivAt b b' 0 ∧ HasDerivV3 (fun u => x (a u) (b u)) (K p t) 0 ∧ HasDerivV3 (fun u => K (a u) (b u)) (D p t) 0

/-- The potential with the coefficients `c`: a sine series, and without symmetry a constant and a cosine series after it. -/
noncomputable def potentialSeries (sym : Bool) (nfp : ℕ) (modes : List (ℤ × ℤ)) (c : List ℝ) (p t : ℝ) : ℝ :=
  if sym then sinSeries nfp modes c p t
  else sinSeries nfp modes (c.take modes.length) p t + c.getD modes.length 0 + cosSeries nfp modes (c.drop (modes.length + 1)) p t

/-- The array `l` contains the `k` components of `f` at the points of the grid, one row for each angle in `phis`. -/
def GridValues (phis thetas : List ℝ) (k : ℕ) (l : List ℝ) (f : ℝ → ℝ → Fin k → ℝ) : Prop :=
  l.length = phis.length * thetas.length * k ∧
    ∀ (i : Fin phis.length) (j : Fin thetas.length) (m : Fin k), l[(i * thetas.length + j) * k + m]? = some (f phis[i] thetas[j] m)

/-- The components of a vector by number. -/
def V3.comp (v : V3) (m : Fin 3) : ℝ := ![v.x, v.y, v.z] m

end Verif
