import Verif.Model.Problem
import Verif.Model.Wrapper

/-!
# The same device with all currents reversed
-/

namespace Verif

/-- Both net currents and the plasma field change sign; the geometry is the same. -/
noncomputable def FieldProblem.reversed (Q : FieldProblem) : FieldProblem :=
  { Q with cp := { Q.cp with G := -Q.cp.G, I := -Q.cp.I }, bPlasma := Q.bPlasma.map fun x => -x }

/-- The current potential changes sign; auxiliary variables do not. -/
noncomputable def reversedDofs (d : Dofs) : Dofs := fun k => if k = "phi" then .array ((d "phi").entries.map fun x => -x) else d k

/-- The quantities that are linear in the currents. -/
def oddQuantities : List String := ["K", "K_theta", "winding_surface_B", "Bnormal", "Phi", "Phi_with_net_current"]

/-- A value with the sign that its quantity takes if all currents are reversed. -/
noncomputable def reversedValue (name : String) (v : Val) : Val := if name ∈ oddQuantities then v.map fun x => -x else v

/-- The opposite comparison. -/
def oppositeType (type : String) : String := if type = "<=" then ">=" else if type = ">=" then "<=" else type

/-- The constraint for reversed currents. -/
def Request.reversed (r : Request) : Request :=
  if r.name ∈ oddQuantities then { r with type := oppositeType r.type, value := -r.value } else r

end Verif
