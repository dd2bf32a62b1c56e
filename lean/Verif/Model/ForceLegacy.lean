import Verif.Model.Problem

/-!
# The earlier force routine: `/repo/src/quadcoil/quantity/force.py` 351-403

`_force_cyl_legacy` evaluates the force at the points of the first field period of the winding grid and excludes the sources by
distance.
-/

namespace Verif

/-- `_force_cyl_legacy`, force.py 370-403: as `forceCyl`, with the integration `_integrate_force_legacy`. All projections use `gamma_y`; for
the tensors, which live on the first field period of the winding surface, `gamma_y` at the *source* indices. -/
noncomputable def forceCylLegacy (A : ForceArrays) (KY : ℕ → ℕ → V3) (i j : ℕ) (comp : V3 → ℝ) : ℝ :=
  ({ A with
    KCyl := fun i j => projectCylindrical (A.gammaY i j) (KY i j)
    singleT := fun p t => projectTensor (A.gammaY p t) (A.singleT p t)
    doubleT := fun p t => projectTensor (A.gammaY p t) (A.doubleT p t) } : ForceArrays).integrateForceLegacy i j comp

/-- `_force_cyl_legacy` at the point `(i, j)` of the first field period of the winding grid, force.py 351-403: `gamma_y` is
`gamma_x[:n_phi_1fp]` (365), `K_y` the current at the same points (367). -/
noncomputable def FieldProblem.forceLegacyAt (Q : FieldProblem) (c : List ℝ) (i j : ℕ) : V3 :=
  let phi (p : ℕ) : ℝ := Q.wPhis.getD p 0
  let theta (t : ℕ) : ℝ := Q.wThetas.getD t 0
  let f (comp : V3 → ℝ) : ℝ :=
    forceCylLegacy (forceArrays Q.cp c phi theta phi theta Q.wPhis.length Q.wThetas.length Q.windingDa)
      (fun i j => Q.cp.K c (phi i) (theta j)) i j comp
  ⟨f V3.x, f V3.y, f V3.z⟩

end Verif
