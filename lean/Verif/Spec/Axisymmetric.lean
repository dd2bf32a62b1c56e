import Verif.Spec.Rotation
import Verif.Model.Field

/-!
# Axisymmetric surfaces, stated by their points
-/

namespace Verif

/-- The cross section at `phi` is the one at 0, turned. -/
def Axisymmetric (S : SurfaceShape) (dofs : List ℝ) : Prop :=
  ∀ phi theta, S.gamma dofs phi theta = rotZ (2 * Real.pi * phi) (S.gamma dofs 0 theta)

/-- The same problem with another net poloidal current. -/
def FieldProblem.withG (Q : FieldProblem) (g : ℝ) : FieldProblem := { Q with cp := { Q.cp with G := g } }

/-- The data of an axisymmetric problem: axisymmetric surfaces, uniform toroidal grids whose numbers of points per field period are
multiples of `k`, and a plasma field that does not depend on the toroidal angle. The potential need not be axisymmetric. -/
structure IsAxisymmetricData (Q : FieldProblem) (k : ℕ) : Prop where
  nfp : Q.cp.surf.nfp ≠ 0
  winding : Axisymmetric Q.cp.surf Q.cp.wdofs
  plasma : Axisymmetric Q.plasma.shape Q.plasma.dofs
  same_nfp : Q.plasma.shape.nfp = Q.cp.surf.nfp
  winding_grid : ∃ a, a ≠ 0 ∧ Q.wPhis = linspace0 1 (Q.cp.surf.nfp * (k * a))
  eval_grid : ∃ a, a ≠ 0 ∧ Q.ePhis = linspace0 (1 / Q.cp.surf.nfp) (k * a)
  plasma_grid : ∃ a, a ≠ 0 ∧ Q.plasma.phis = linspace0 (1 / Q.cp.surf.nfp) (k * a)
  plasma_field : ∃ b : ℝ → ℝ, Q.bPlasma = (gridPoints Q.plasma.phis Q.plasma.thetas).map fun q => b q.2

/-- The unit vector in the direction of increasing toroidal angle, at the toroidal angle `2 pi p`. -/
noncomputable def toroidalUnit (p : ℝ) : V3 := ⟨-Real.sin (2 * Real.pi * p), Real.cos (2 * Real.pi * p), 0⟩

/-- The circle of radius `a` about the axis at the height `b`, and its tangent. -/
noncomputable def levelCircle (a b s : ℝ) : V3 := rotZ (2 * Real.pi * s) ⟨a, 0, b⟩

noncomputable def levelTangent (a s : ℝ) : V3 := (2 * Real.pi * a) • toroidalUnit s

end Verif
