import Verif.Model.Shipped
import Verif.Model.Field
import Verif.Model.Force

/-!
# The quantities of the package evaluated on a problem

The fields of `Model/Current.lean`, `Model/Field.lean` and `Model/Force.lean` on the grids of a `FieldProblem`, in the form in which
`Model/Shipped.lean` uses them.
-/

namespace Verif

/-- The part of a parameter object read by the generators: `ndofs` (quadcoil_params.py 162), `eval_surface.da()` and `nfp`. -/
noncomputable instance : HasQp FieldProblem where
  ndofs Q := (cpNdofs Q.cp.stellsym Q.cp.mpol Q.cp.ntor).1
  da Q := Q.evalSurface.da
  nfp Q := Q.cp.nfp

/-- `dofs['phi']`. -/
def coefs (d : Dofs) : List ℝ := (d "phi").entries

/-- The last axis of a vector field. -/
def V3.toList (v : V3) : List ℝ := [v.x, v.y, v.z]

/-- The value of a computation that may raise; 0 stands for an exception. -/
noncomputable def okOr0 : Except PyErr ℝ → ℝ
  | .ok v => v
  | .error _ => 0

namespace FieldProblem

variable (Q : FieldProblem)

/-- The grid of `eval_surface`. -/
def evalGrid : List (ℝ × ℝ) := gridPoints Q.ePhis Q.eThetas

/-- The grid of the plasma surface. -/
def plasmaGrid : List (ℝ × ℝ) := gridPoints Q.plasma.phis Q.plasma.thetas

/-- `winding_surface.da()` at one point, surfacerzfourier_jax.py 206-211. -/
noncomputable def windingDa (p t : ℕ) : ℝ :=
  gridStep Q.wPhis * gridStep Q.wThetas * (Q.cp.surf.normal Q.cp.wdofs (Q.wPhis.getD p 0) (Q.wThetas.getD t 0)).norm

/-- `_force_cyl` at the point `(i, j)` of the evaluation grid, force.py 116-168. -/
noncomputable def forceAt (c : List ℝ) (i j : ℕ) : V3 :=
  let f (comp : V3 → ℝ) : ℝ := forceCylOf Q.cp c (fun p => Q.wPhis.getD p 0) (fun t => Q.wThetas.getD t 0)
    (fun p => Q.ePhis.getD p 0) (fun t => Q.eThetas.getD t 0) Q.wPhis.length Q.wThetas.length Q.windingDa i j comp
  ⟨f V3.x, f V3.y, f V3.z⟩

/-- The fields on the grids: current.py 9-102, curvature.py 9-47, magnetic_field.py 9-61, force.py 116-168, dipole.py 10-40. (`_K_theta`
raises without stellarator symmetry, see `CpParams.KTheta`.) -/
noncomputable def fns : FieldFns FieldProblem where
  K Q d := Q.evalGrid.map fun q => (Q.cp.K (coefs d) q.1 q.2).toList
  K2 Q d := Q.evalGrid.map fun q => Q.cp.K2 (coefs d) q.1 q.2
  KTheta Q d := Q.evalGrid.map fun q => okOr0 (Q.cp.KTheta (coefs d) q.1 q.2)
  fK Q d := Q.fK (coefs d)
  KdotGradK Q d := Q.evalGrid.flatMap fun q => (Q.cp.KdotGradK (coefs d) q.1 q.2).toList
  KdotGradKCyl Q d := Q.evalGrid.flatMap fun q =>
    (projectCylindrical (Q.cp.surf.gamma Q.cp.wdofs q.1 q.2) (Q.cp.KdotGradK (coefs d) q.1 q.2)).toList
  windingB Q d := Q.plasmaGrid.flatMap fun q => (Q.windingB (coefs d) (Q.plasma.shape.gamma Q.plasma.dofs q.1 q.2)).toList
  Bnormal Q d := Q.bnormal (coefs d)
  Bnormal2 Q d := (Q.bnormal (coefs d)).map fun b => b ^ 2
  fB Q d := Q.fB (coefs d)
  fBnormalized Q d := Q.fBnormalized (coefs d)
  forceCyl Q d := (List.range Q.ePhis.length).flatMap fun i => (List.range Q.eThetas.length).map fun j =>
    (Q.forceAt (coefs d) i j).toList
  Phi Q d := Q.evalGrid.map fun q => Q.cp.Phi (coefs d) q.1 q.2
  PhiNet Q d := Q.evalGrid.map fun q => Q.cp.PhiNet (coefs d) q.1 q.2
  Phi2 Q d := Q.evalGrid.map fun q => Q.cp.Phi (coefs d) q.1 q.2 ^ 2
  fPhi Q d := Q.evalSurface.integrate (Q.evalGrid.map fun q => Q.cp.Phi (coefs d) q.1 q.2 ^ 2 / 2) * Q.cp.nfp

end FieldProblem

end Verif
