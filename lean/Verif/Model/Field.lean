import Verif.Model.Current

/-!
# Magnetic field and surface integrals

`_winding_surface_B`, `_Bnormal`, `_f_B`, `_f_B_normalized_by_Bnormal_IG` of `/repo/src/quadcoil/quantity/magnetic_field.py`,
`_f_K` of `/repo/src/quadcoil/quantity/current.py`, `da` and `integrate` of `/repo/src/quadcoil/surfacerzfourier_jax.py` and
the default grids of `/repo/src/quadcoil/quadcoil.py`.

Arrays of shape `(n_phi, n_theta)` are flattened, row by row.
-/

namespace Verif

/-- All grid points in the order of `reshape((-1, ...))`. -/
def gridPoints (phis thetas : List ℝ) : List (ℝ × ℝ) := phis.flatMap fun p => thetas.map fun t => (p, t)

/-- `jnp.linspace(0, stop, n, endpoint=False)`. -/
noncomputable def linspace0 (stop : ℝ) (n : ℕ) : List ℝ := (List.range n).map fun j : ℕ => (j : ℝ) * (stop / n)

/-- `jnp.sum(..., axis=0)` for rows of vectors. -/
noncomputable def vsum (l : List V3) : V3 := ⟨(l.map V3.x).sum, (l.map V3.y).sum, (l.map V3.z).sum⟩

/-- `quadpoints[1] - quadpoints[0]`, surfacerzfourier_jax.py 26-27. Indexing a JAX array out of bounds gives its last
entry, so that the difference is zero for one point. -/
noncomputable def gridStep (q : List ℝ) : ℝ := q.getD 1 (q.getLastD 0) - q.getD 0 0

/-- A surface with its grid (`SurfaceRZFourierJAX`). -/
structure GridSurface where
  shape : SurfaceShape
  dofs : List ℝ
  phis : List ℝ
  thetas : List ℝ

namespace GridSurface

variable (S : GridSurface)

/-- `da`, surfacerzfourier_jax.py 206-211. -/
noncomputable def da : List ℝ :=
  (gridPoints S.phis S.thetas).map fun q =>
    gridStep S.phis * gridStep S.thetas * (S.shape.normal S.dofs q.1 q.2).norm

/-- `integrate`, surfacerzfourier_jax.py 214-216. -/
noncomputable def integrate (f : List ℝ) : ℝ := (List.zipWith (· * ·) f S.da).sum

/-- `area`, surfacerzfourier_jax.py 220-222. -/
noncomputable def area : ℝ := S.da.sum

end GridSurface

/-- The parameters used by the field quantities: current data, winding grid, evaluation grid, plasma surface and plasma
normal field (`QuadcoilParams`, quadcoil_params.py 20-64, 134-166). -/
structure FieldProblem where
  cp : CpParams
  wPhis : List ℝ
  wThetas : List ℝ
  ePhis : List ℝ
  eThetas : List ℝ
  plasma : GridSurface
  bPlasma : List ℝ

namespace FieldProblem

variable (Q : FieldProblem)

/-- `winding_surface`. -/
def winding : GridSurface := ⟨Q.cp.surf, Q.cp.wdofs, Q.wPhis, Q.wThetas⟩

/-- `eval_surface`: the winding surface with the grid `quadpoints_phi`, `quadpoints_theta`, quadcoil_params.py 44-61. -/
def evalSurface : GridSurface := ⟨Q.cp.surf, Q.cp.wdofs, Q.ePhis, Q.eThetas⟩

/-- One summand of `compute_B`, magnetic_field.py 23-32. -/
noncomputable def bTerm (c : List ℝ) (point : V3) (q : ℝ × ℝ) : V3 :=
  let r := point - Q.cp.surf.gamma Q.cp.wdofs q.1 q.2
  let rmagInv := 1 / Real.sqrt r.normSq
  rmagInv ^ 3 • ((Q.cp.surf.normal Q.cp.wdofs q.1 q.2).norm • V3.cross (Q.cp.K c q.1 q.2) r)

/-- `compute_B`, magnetic_field.py 23-32. -/
noncomputable def computeB (c : List ℝ) (point : V3) : V3 :=
  vsum ((gridPoints Q.wPhis Q.wThetas).map (Q.bTerm c point))

/-- `_winding_surface_B` at one point, magnetic_field.py 9-34. -/
noncomputable def windingB (c : List ℝ) (point : V3) : V3 :=
  ((1e-7 : ℝ) / Q.wPhis.length / Q.wThetas.length) • Q.computeB c point

/-- The winding surface part of the normal field at one plasma point, magnetic_field.py 40-41. -/
noncomputable def bnWinding (c : List ℝ) (q : ℝ × ℝ) : ℝ :=
  V3.dot (Q.plasma.shape.unitnormal Q.plasma.dofs q.1 q.2) (Q.windingB c (Q.plasma.shape.gamma Q.plasma.dofs q.1 q.2))

/-- `_Bnormal`, magnetic_field.py 37-42. -/
noncomputable def bnormal (c : List ℝ) : List ℝ :=
  ((gridPoints Q.plasma.phis Q.plasma.thetas).zip Q.bPlasma).map fun q => Q.bnWinding c q.1 + q.2

/-- `_f_B`, magnetic_field.py 47-50. -/
noncomputable def fB (c : List ℝ) : ℝ := Q.plasma.integrate ((Q.bnormal c).map fun b => b ^ 2 / 2) * Q.cp.nfp

/-- `_f_B_normalized_by_Bnormal_IG`, magnetic_field.py 54-61. -/
noncomputable def fBnormalized (c : List ℝ) : ℝ :=
  Q.fB c / Q.fB (List.replicate (cpNdofs Q.cp.stellsym Q.cp.mpol Q.cp.ntor).1 0)

/-- `_f_K`, current.py 99-102. -/
noncomputable def fK (c : List ℝ) : ℝ :=
  Q.evalSurface.integrate ((gridPoints Q.ePhis Q.eThetas).map fun q => Q.cp.K2 c q.1 q.2 / 2) * Q.cp.nfp

end FieldProblem

/-- Default `winding_quadpoints_phi`, quadcoil.py 274-275. -/
noncomputable def defaultWindingPhi (nfp : ℕ) : List ℝ := linspace0 1 (32 * nfp)

/-- Default `winding_quadpoints_theta`, quadcoil.py 276-277. -/
noncomputable def defaultTheta : List ℝ := linspace0 1 34

/-- Default `quadpoints_phi`, quadcoil.py 278-280. -/
noncomputable def defaultEvalPhi (nfp : ℕ) (windingPhi : List ℝ) : List ℝ := windingPhi.take (windingPhi.length / nfp)

/-- Default `plasma_quadpoints_phi`, quadcoil.py 270-271. -/
noncomputable def defaultPlasmaPhi (nfp : ℕ) : List ℝ := linspace0 (1 / nfp) 32

end Verif
