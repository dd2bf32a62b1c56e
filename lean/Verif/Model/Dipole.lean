import Verif.Model.Quantity

/-!
# The current potential quantities (`/repo/src/quadcoil/quantity/dipole.py`) and array shapes

`trig qp` is the list of rows of `trig_m_i_n_i` (one row per grid point), which `qp.diff_helper()` returns. It is a
parameter here; its entries are modelled in `Model/Modes.lean`.
-/

namespace Verif

variable {P : Type}

/-- One row of a matrix product: `sum_i row_i * x_i`. -/
noncomputable def rowDot (row x : List ℝ) : ℝ := (List.zipWith (· * ·) row x).sum

/-- `_Phi`, dipole.py 10-23: `trig_m_i_n_i @ phi_mn`. -/
noncomputable def phiField (trig : P → List (List ℝ)) (qp : P) (dofs : Dofs) : Val :=
  Val.array ((trig qp).map fun row => rowDot row (dofs "phi").entries)

/-- `_f_Phi`, dipole.py 38-40: `qp.eval_surface.integrate(_Phi**2/2) * qp.nfp`. -/
noncomputable def fPhi [HasQp P] (trig : P → List (List ℝ)) (qp : P) (dofs : Dofs) : Val :=
  Val.scalar (l1Integral' qp ((phiField trig qp dofs).entries.map fun x => x ^ 2 / 2))
where
  /-- `integrate` (surfacerzfourier_jax.py: sum of field times area element) times `nfp` -/
  l1Integral' (qp : P) (v : List ℝ) : ℝ := (List.zipWith (· * ·) v (HasQp.da qp)).sum * HasQp.nfp qp

/-- The five quantities of dipole.py that can be used as objectives (dipole.py 72-113). -/
noncomputable def dipoleObjectives [HasQp P] (trig : P → List (List ℝ)) : List (String × Quantity P) :=
  [("f_max_Phi", Quantity.generateLinf (phiField trig) "scaled_max_Phi" false false),
   ("f_max_Phi2", Quantity.generateLinf (phiField trig) "scaled_max_Phi_f_max_Phi2" false true),
   ("f_max_Phi4", Quantity.generateLinf4 (phiField trig) "scaled_max_Phi2_f_max_Phi4"),
   ("f_l1_Phi", Quantity.generateL1 (phiField trig) "scaled_abs_Phi" false),
   ("f_Phi", Quantity.generateC2 (fPhi trig) ["f", "<="])]

/-- `jnp.broadcast_to(a, target)` succeeds for an array `a` of shape `shape`: aligned at the last axis, every axis of `a`
has length 1 or the target length, and `a` has no more axes than the target. Shapes are listed from the last axis to the
first. -/
def canBroadcast : List ℕ → List ℕ → Bool
  | [], _ => true
  | _ :: _, [] => false
  | a :: as, t :: ts => (a == 1 || a == t) && canBroadcast as ts

/-- Whether `_scaled_slack_f_impl` of `generate_l1_norm` (quantity.py 572-582) can be evaluated for a field of shape
`(nPhi, nTheta, *trailing)`: it evaluates `jnp.broadcast_to(da, field.shape)` with `da` of shape `(nPhi, nTheta)`. -/
def slackL1Evaluable (nPhi nTheta : ℕ) (trailing : List ℕ) : Bool :=
  canBroadcast [nTheta, nPhi] (trailing.reverse ++ [nTheta, nPhi])

/-- Whether `_scaled_approx_f_impl` of `generate_l1_norm` (quantity.py 584-592) can be evaluated: `da` is first reshaped to
`(nPhi, nTheta, 1, ..., 1)`. -/
def approxL1Evaluable (nPhi nTheta : ℕ) (trailing : List ℕ) : Bool :=
  canBroadcast (trailing.map (fun _ => 1) ++ [nTheta, nPhi]) (trailing.reverse ++ [nTheta, nPhi])

end Verif
