import Verif.Model.Problem
import Verif.Spec.Rotation

/-! # A device rotated about its axis and described with other origins of the angles -/

namespace Verif

/-- The surface `S'` is `S` rotated by `2 π s` about the z axis; the point that had the angles `(phi, theta)` has the angles
`(phi + s, theta + t)`, and the grid consists of the same points. -/
structure MovedSurface (s t : ℝ) (S S' : GridSurface) : Prop where
  point : ∀ phi theta, S'.shape.gamma S'.dofs (phi + s) (theta + t) = rotZ (2 * Real.pi * s) (S.shape.gamma S.dofs phi theta)
  phis : S'.phis = S.phis.map fun p => p + s
  thetas : S'.thetas = S.thetas.map fun x => x + t

/-- All surfaces of the problem moved; the same currents, resolution and plasma field. -/
structure MovedProblem (s t : ℝ) (Q Q' : FieldProblem) : Prop where
  winding : MovedSurface s t Q.winding Q'.winding
  eval : MovedSurface s t Q.evalSurface Q'.evalSurface
  plasma : MovedSurface s t Q.plasma Q'.plasma
  bPlasma : Q'.bPlasma = Q.bPlasma
  nfp : Q'.cp.surf.nfp = Q.cp.surf.nfp
  G : Q'.cp.G = Q.cp.G
  I : Q'.cp.I = Q.cp.I
  mpol : Q'.cp.mpol = Q.cp.mpol
  ntor : Q'.cp.ntor = Q.cp.ntor
  stellsym : Q'.cp.stellsym = Q.cp.stellsym

/-- The same single valued potential on the moved surface. -/
def MovedPotential (s t : ℝ) (Q Q' : FieldProblem) (c c' : List ℝ) : Prop :=
  c'.length = c.length ∧ ∀ phi theta, Q'.cp.Phi c' (phi + s) (theta + t) = Q.cp.Phi c phi theta

end Verif
