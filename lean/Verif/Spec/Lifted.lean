import Verif.Spec.MirrorImage

/-!
# A device at another height
-/

namespace Verif

/-- A point, moved up by `h`. -/
def liftZ (h : ℝ) (v : V3) : V3 := ⟨v.x, v.y, v.z + h⟩

/-- The coefficients of a surface without stellarator symmetry, moved up by `h`: the first coefficient of `Z`, which is its mean value, grows
by `h`. -/
noncomputable def SurfaceShape.liftDofs (S : SurfaceShape) (h : ℝ) (dofs : List ℝ) : List ℝ := dofs.modify S.numR fun z => z + h

/-- Both surfaces are moved up. All else stays. -/
noncomputable def FieldProblem.lifted (h : ℝ) (Q : FieldProblem) : FieldProblem :=
  { Q with
    cp := { Q.cp with wdofs := Q.cp.surf.liftDofs h Q.cp.wdofs }
    plasma := { Q.plasma with dofs := Q.plasma.shape.liftDofs h Q.plasma.dofs } }

/-- The quantities computed from cylindrical components. -/
def cylNames : List String :=
  ["K_dot_grad_K_cyl", "f_max_K_dot_grad_K_cyl", "f_max_force_cyl", "f_l1_force_cyl", "f_max_force2_cyl"]

/-- A call for a device at another height. -/
noncomputable def CallArgs.lifted (h : ℝ) (a : CallArgs) : CallArgs :=
  { a with
    plasmaDofs := a.plasmaShape.liftDofs h a.plasmaDofs
    windingDofs := a.windingDofs.map fun w => SurfaceShape.liftDofs ⟨a.nfp, a.windingStellsym, a.windingMpol, a.windingNtor⟩ h w }

/-- The surfaces have no stellarator symmetry, which would fix their height, and the right number of coefficients. -/
structure FieldProblem.Movable (Q : FieldProblem) : Prop where
  winding : Q.cp.surf.stellsym = false
  plasma : Q.plasma.shape.stellsym = false
  windingSize : Q.cp.wdofs.length = 2 * Q.cp.surf.numR
  plasmaSize : Q.plasma.dofs.length = 2 * Q.plasma.shape.numR

/-- The results of a call, with the device moved up. -/
noncomputable def liftedOut (h : ℝ) (o : CallOut) : CallOut := { o with qp := o.qp.lifted h }

end Verif
