import Verif.Model.Wrapper

/-!
# A small parameter object and quantity table

Used by the `example`s and by the counterexamples. The grid has two points; the net poloidal current is a parameter.
-/

namespace Verif

/-- Two grid points, two coefficients. -/
structure ToyQp where
  netPoloidal : ℝ

instance : HasQp ToyQp where
  ndofs _ := 2
  da _ := [1, 2]
  nfp _ := 3

/-- A field with the structure of `K_theta`: net poloidal current plus a linear function of the coefficients. -/
def toyKTheta (qp : ToyQp) (dofs : Dofs) : Val :=
  Val.array ((dofs "phi").entries.map fun x => x + qp.netPoloidal)

/-- A field with the structure of `Phi`: linear in the coefficients. -/
def toyPhi (_ : ToyQp) (dofs : Dofs) : Val := Val.array (dofs "phi").entries

/-- A field with the structure of `Bnormal`: linear in the coefficients, unusable as an objective. -/
def toyEq (_ : ToyQp) (dofs : Dofs) : Val := Val.array (dofs "phi").entries

/-- A table of quantities with the same roles as the ones in `quadcoil.quantity`. -/
noncomputable def toyRegistry : Registry ToyQp := fun name =>
  if name = "K_theta" then some (.quantity (Quantity.generateC2 toyKTheta ["<=", ">="]))
  else if name = "K_dot_grad_K" then some (.quantity (Quantity.generateC2 toyEq ["<=", ">=", "=="]))
  else if name = "f_Phi" then
    some (.quantity (Quantity.generateC2 (fun _ d => Val.scalar (((d "phi").entries.map fun x => x ^ 2).sum))
      ["f", "<="]))
  else if name = "f_max_Phi" then some (.quantity (Quantity.generateLinf toyPhi "scaled_max_Phi" false false))
  else if name = "f_max_Phi2" then some (.quantity (Quantity.generateLinf toyPhi "scaled_max_Phi_f_max_Phi2" false true))
  else if name = "f_l1_Phi" then some (.quantity (Quantity.generateL1 toyPhi "scaled_abs_Phi" false))
  else if name = "jnp" then some .other
  else none

end Verif
