import Verif.Model.Problem

/-!
# Problems of another size

Every length is multiplied by `l` and every current by `mu`; a magnetic field is then multiplied by `mu / l`.
-/

namespace Verif

/-- Lengths times `l`, currents times `mu`. -/
noncomputable def CpParams.rescale (l mu : ℝ) (P : CpParams) : CpParams :=
  { P with wdofs := P.wdofs.map (l * ·), G := mu * P.G, I := mu * P.I }

/-- Lengths times `l`, currents times `mu`, fields times `mu / l`. -/
noncomputable def FieldProblem.rescale (l mu : ℝ) (Q : FieldProblem) : FieldProblem :=
  { Q with cp := Q.cp.rescale l mu, plasma := { Q.plasma with dofs := Q.plasma.dofs.map (l * ·) },
           bPlasma := Q.bPlasma.map (mu / l * ·) }

/-- Coefficients of the current potential (a current) times `mu`. -/
noncomputable def rescaleDofs (mu : ℝ) (d : Dofs) : Dofs := fun k => if k = "phi" then .array ((d "phi").entries.map (mu * ·)) else d k

/-- The scales that DESC would report for the rescaled problem. -/
noncomputable def Scales.rescale (l mu : ℝ) (s : Scales) : Scales := ⟨mu / l * s.B, l * s.R0, l * s.a⟩

end Verif
