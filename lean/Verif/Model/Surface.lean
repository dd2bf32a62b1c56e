import Verif.Model.V3
import Verif.Model.Modes
import Mathlib.Analysis.SpecialFunctions.Trigonometric.Basic
import Mathlib.Data.Nat.Factorial.Basic

/-!
# Fourier surfaces: `/repo/src/quadcoil/surfacerzfourier_jax.py`

All arrays are modelled at one grid point `(phi, theta)` (both angles run from 0 to 1).
-/

namespace Verif

open Real

/-- `derivative_factor_c`, `derivative_factor_s` for one mode, surfacerzfourier_jax.py 400-408. -/
noncomputable def derivFactor (nfp : ℕ) (a b : ℕ) (m n : ℤ) : ℝ :=
  (-(n : ℝ) * π * 2 * nfp) ^ a * ((m : ℝ) * π * 2) ^ b * (-1) ^ ((a + b) / 2)

/-- The argument of `cos` and `sin` for one mode, surfacerzfourier_jax.py 421-422. -/
noncomputable def modeAngle (nfp : ℕ) (phi theta : ℝ) (m n : ℤ) : ℝ :=
  (m : ℝ) * π * 2 * theta - (n : ℝ) * π * 2 * nfp * phi

/-- One entry of `cmn`, surfacerzfourier_jax.py 409-446: derivative of order `(a, b)` of `cos` of the mode. -/
noncomputable def cEntry (nfp : ℕ) (a b : ℕ) (phi theta : ℝ) (m n : ℤ) : ℝ :=
  if (a + b) % 2 = 0 then derivFactor nfp a b m n * cos (modeAngle nfp phi theta m n)
  else -derivFactor nfp a b m n * sin (modeAngle nfp phi theta m n)

/-- One entry of `smn`, surfacerzfourier_jax.py 409-446: derivative of order `(a, b)` of `sin` of the mode. -/
noncomputable def sEntry (nfp : ℕ) (a b : ℕ) (phi theta : ℝ) (m n : ℤ) : ℝ :=
  if (a + b) % 2 = 0 then derivFactor nfp a b m n * sin (modeAngle nfp phi theta m n)
  else derivFactor nfp a b m n * cos (modeAngle nfp phi theta m n)

/-- The static fields of a surface (constructor, surfacerzfourier_jax.py 10-29). -/
structure SurfaceShape where
  nfp : ℕ
  stellsym : Bool
  mpol : ℕ
  ntor : ℕ

namespace SurfaceShape

variable (S : SurfaceShape)

/-- `cmn`. -/
noncomputable def cmn (a b : ℕ) (phi theta : ℝ) : List ℝ :=
  List.zipWith (cEntry S.nfp a b phi theta) (surfMc S.mpol S.ntor) (surfNc S.mpol S.ntor)

/-- `smn`. -/
noncomputable def smn (a b : ℕ) (phi theta : ℝ) : List ℝ :=
  List.zipWith (sEntry S.nfp a b phi theta) (surfMs S.mpol S.ntor) (surfNs S.mpol S.ntor)

/-- `r_operator`, surfacerzfourier_jax.py 456-461. -/
noncomputable def rOperator (a b : ℕ) (phi theta : ℝ) : List ℝ :=
  if S.stellsym then S.cmn a b phi theta else S.cmn a b phi theta ++ S.smn a b phi theta

/-- `z_operator`, surfacerzfourier_jax.py 456-461. -/
noncomputable def zOperator (a b : ℕ) (phi theta : ℝ) : List ℝ :=
  if S.stellsym then S.smn a b phi theta else S.cmn a b phi theta ++ S.smn a b phi theta

/-- `r_operator_padded`, surfacerzfourier_jax.py 462: the `r` rows of `dof_to_rz_op` (392-472). -/
noncomputable def rOperatorPadded (a b : ℕ) (phi theta : ℝ) : List ℝ :=
  S.rOperator a b phi theta ++ (S.zOperator a b phi theta).map fun _ => 0

/-- `z_operator_padded`, surfacerzfourier_jax.py 463: the `z` rows of `dof_to_rz_op`. -/
noncomputable def zOperatorPadded (a b : ℕ) (phi theta : ℝ) : List ℝ :=
  ((S.rOperator a b phi theta).map fun _ => 0) ++ S.zOperator a b phi theta

/-- One row of a matrix times the vector of degrees of freedom (`@ dofs`). The code raises an error when the lengths
differ; the length required is `C37_dof_count`. -/
noncomputable def applyRow (row dofs : List ℝ) : ℝ := (List.zipWith (· * ·) row dofs).sum

/-- `R` derivative of order `(a, b)`: the `r` rows of `dof_to_rz_op` applied to the coefficients. -/
noncomputable def rDash (dofs : List ℝ) (a b : ℕ) (phi theta : ℝ) : ℝ := applyRow (S.rOperatorPadded a b phi theta) dofs

/-- `Z` derivative of order `(a, b)`. -/
noncomputable def zDash (dofs : List ℝ) (a b : ℕ) (phi theta : ℝ) : ℝ := applyRow (S.zOperatorPadded a b phi theta) dofs

/-- `binomial_coef`, surfacerzfourier_jax.py 508: quotients of factorials (as floating point numbers). -/
noncomputable def binomialCoef (a k : ℕ) : ℝ := (a.factorial : ℝ) / (k.factorial : ℝ) / ((a - k).factorial : ℝ)

/-- `derivative_factor` of `dof_to_gamma_op`, surfacerzfourier_jax.py 504-509. -/
noncomputable def trigFactor (a k : ℕ) : ℝ := binomialCoef a k * (-1) ^ ((a - k) / 2) * (π * 2) ^ (a - k)

/-- The summand of `dof_to_x` for `dash1_order_rz = k`, surfacerzfourier_jax.py 510-515, applied to the coefficients. -/
noncomputable def xTerm (dofs : List ℝ) (a b : ℕ) (phi theta : ℝ) (k : ℕ) : ℝ :=
  if (a - k) % 2 = 0 then trigFactor a k * S.rDash dofs k b phi theta * cos (phi * π * 2)
  else -trigFactor a k * S.rDash dofs k b phi theta * sin (phi * π * 2)

/-- The summand of `dof_to_y`, surfacerzfourier_jax.py 510-515. -/
noncomputable def yTerm (dofs : List ℝ) (a b : ℕ) (phi theta : ℝ) (k : ℕ) : ℝ :=
  if (a - k) % 2 = 0 then trigFactor a k * S.rDash dofs k b phi theta * sin (phi * π * 2)
  else trigFactor a k * S.rDash dofs k b phi theta * cos (phi * π * 2)

/-- `dof_to_gamma` (surfacerzfourier_jax.py 474-534) of order `(a, b)`, called by `gammadash(a, b)` (172-183).
Simplified: the product with the coefficients is taken in every summand of the operator, not after the summation. -/
noncomputable def gammadash (dofs : List ℝ) (a b : ℕ) (phi theta : ℝ) : V3 :=
  ⟨((List.range (a + 1)).map (S.xTerm dofs a b phi theta)).sum,
   ((List.range (a + 1)).map (S.yTerm dofs a b phi theta)).sum,
   S.zDash dofs a b phi theta⟩

/-- `gamma`, surfacerzfourier_jax.py 185. -/
noncomputable def gamma (dofs : List ℝ) (phi theta : ℝ) : V3 := S.gammadash dofs 0 0 phi theta

/-- `normal`, surfacerzfourier_jax.py 194-195. -/
noncomputable def normal (dofs : List ℝ) (phi theta : ℝ) : V3 :=
  V3.cross (S.gammadash dofs 1 0 phi theta) (S.gammadash dofs 0 1 phi theta)

/-- `unitnormal`, surfacerzfourier_jax.py 199-201. -/
noncomputable def unitnormal (dofs : List ℝ) (phi theta : ℝ) : V3 :=
  (1 / (S.normal dofs phi theta).norm) • S.normal dofs phi theta

end SurfaceShape

end Verif
