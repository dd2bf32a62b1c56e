import Verif.Model.Wrapper
import Verif.Model.Dipole

/-!
# The quantities defined by the package

The module level definitions of `/repo/src/quadcoil/quantity/current.py`, `curvature.py`, `magnetic_field.py`, `force.py` and
`dipole.py`, in the order in which `quantity/__init__.py` imports them, with their DESC units. (`quantity/regularization.py` is
not imported by `quantity/__init__.py`, so its quantity is not an attribute of `quadcoil.quantity`.)
-/

namespace Verif

variable {P : Type}

/-- The fields and integrals that the quantities are built from. They are modelled in `Model/Current.lean`, `Model/Field.lean`,
`Model/Force.lean` and `Model/Dipole.lean`; here they are parameters. Vector fields are flattened, except `K` and the
force, which `generate_huber` and `generate_l1_norm` need point by point. -/
structure FieldFns (P : Type) where
  K : P → Dofs → List (List ℝ)
  K2 : P → Dofs → List ℝ
  KTheta : P → Dofs → List ℝ
  fK : P → Dofs → ℝ
  KdotGradK : P → Dofs → List ℝ
  KdotGradKCyl : P → Dofs → List ℝ
  windingB : P → Dofs → List ℝ
  Bnormal : P → Dofs → List ℝ
  Bnormal2 : P → Dofs → List ℝ
  fB : P → Dofs → ℝ
  fBnormalized : P → Dofs → ℝ
  forceCyl : P → Dofs → List (List ℝ)
  Phi : P → Dofs → List ℝ
  PhiNet : P → Dofs → List ℝ
  Phi2 : P → Dofs → List ℝ
  fPhi : P → Dofs → ℝ

/-- A field as the array given to the generators. -/
def arr (f : P → Dofs → List ℝ) : P → Dofs → Val := fun qp d => Val.array (f qp d)

/-- An integral as a zero-dimensional array. -/
def num (f : P → Dofs → ℝ) : P → Dofs → Val := fun qp d => Val.scalar (f qp d)

/-- `generate_l1_norm`, quantity.py 521-631, for a field of vectors. (The value of the slack form, lines 572-582, cannot be evaluated
for such a field, see C74; here it has the value that `generateL1` gives it.) -/
noncomputable def Quantity.generateL1Vec [HasQp P] (func : P → Dofs → List (List ℝ)) (aux : String) (positiveDefinite : Bool) :
    Quantity P :=
  { Quantity.generateL1 (fun qp d => Val.array (func qp d).flatten) aux positiveDefinite with
    rawF := fun qp dofs => Val.scalar (l1Integral qp ((func qp dofs).map fun v => (v.map fun x => |x|).sum))
    approxF := fun qp dofs unit sp =>
      Val.map2 (· / ·)
        (Val.scalar (l1Integral qp ((func qp dofs).map fun v => (v.map fun x => absLse x sp.lseEpsilon).sum))) unit }

open Quantity in
/-- current.py 117-162, curvature.py 55-77, magnetic_field.py 67-116, force.py 523-547, dipole.py 52-113. -/
noncomputable def shipped [HasQp P] (F : FieldFns P) : List (String × Quantity P) :=
  [("K", generateC2 (arr fun qp d => (F.K qp d).flatten) ["<=", ">="]),
   ("K2", generateC2 (arr F.K2) ["<="]),
   ("f_max_K2", generateLinf (arr F.K2) "scaled_max_K2_f_max_K2" false false),
   ("f_huber_K", generateHuber F.K),
   ("K_theta", generateC2 (arr F.KTheta) ["<=", ">="]),
   ("f_K", generateC2 (num F.fK) ["f", "<="]),
   ("K_dot_grad_K", generateC2 (arr F.KdotGradK) ["<=", ">=", "=="]),
   ("K_dot_grad_K_cyl", generateC2 (arr F.KdotGradKCyl) ["<=", ">="]),
   ("f_max_K_dot_grad_K_cyl", generateLinf (arr F.KdotGradKCyl) "max_KK_cyl" false false),
   ("winding_surface_B", generateC2 (arr F.windingB) ["<=", ">="]),
   ("Bnormal", generateC2 (arr F.Bnormal) ["<=", ">="]),
   ("Bnormal2", generateC2 (arr F.Bnormal2) ["<="]),
   ("f_B", generateC2 (num F.fB) ["f", "<="]),
   ("f_B_normalized_by_Bnormal_IG", generateC2 (num F.fBnormalized) ["f", "<="]),
   ("f_max_Bnormal", generateLinf (arr F.Bnormal) "scaled max Bnormal" false false),
   ("f_max_Bnormal2", generateLinf (arr F.Bnormal2) "scaled max Bnormal2" true false),
   ("f_max_force_cyl", generateLinf (arr fun qp d => (F.forceCyl qp d).flatten) "max_force_cyl" false false),
   ("f_l1_force_cyl", generateL1Vec F.forceCyl "l1_force_cyl" false),
   ("f_max_force2_cyl", generateLinf (arr fun qp d => (F.forceCyl qp d).flatten) "max_force2_cyl" false true),
   ("Phi", generateC2 (arr F.Phi) ["<=", ">="]),
   ("Phi_with_net_current", generateC2 (arr F.PhiNet) ["<=", ">="]),
   ("Phi2", generateC2 (arr F.Phi2) ["<="]),
   ("f_max_Phi", generateLinf (arr F.Phi) "scaled_max_Phi" false false),
   ("f_max_Phi2", generateLinf (arr F.Phi) "scaled_max_Phi_f_max_Phi2" false true),
   ("f_max_Phi4", generateLinf4 (arr F.Phi) "scaled_max_Phi2_f_max_Phi4"),
   ("f_l1_Phi", generateL1 (arr F.Phi) "scaled_abs_Phi" false),
   ("f_Phi", generateC2 (num F.fPhi) ["f", "<="])]

/-- What the checks of `_Quantity.__init__` (quantity.py 157-184) see when a generator calls it. -/
def Quantity.ctorArgs (q : Quantity P) : CtorArgs :=
  ⟨false, q.slackInit.map fun l => some (l.map Prod.fst), q.compatibility⟩

/-- The attributes of the module `quadcoil.quantity`; `others` are the names of the attributes that are not quantities (imported
modules and functions). -/
noncomputable def shippedRegistry [HasQp P] (F : FieldFns P) (others : List String) : Registry P := fun name =>
  match (shipped F).lookup name with
  | some q => some (.quantity q)
  | none => if name ∈ others then some .other else none

/-! ## DESC units -/

/-- The entries of `compute_scaling_factors(eq)` that are read. -/
structure Scales where
  B : ℝ
  R0 : ℝ
  a : ℝ

/-- `_K_desc_unit`, current.py 55. `mu0` is `scipy.constants.mu_0`. -/
noncomputable def kUnit (mu0 : ℝ) (s : Scales) : ℝ := s.B / mu0

/-- `_Phi_desc_unit`, dipole.py 24. -/
noncomputable def phiDescUnit (mu0 : ℝ) (s : Scales) : ℝ := kUnit mu0 s * s.a

/-- `_force_desc_unit`, force.py 517. -/
noncomputable def forceUnit (mu0 : ℝ) (s : Scales) : ℝ := s.B * kUnit mu0 s * s.a ^ 2

/-- The attribute `desc_unit` of the quantities: current.py 55-60, 104-105, 117-162; curvature.py 42, 55-77; magnetic_field.py 35,
52, 67-116; force.py 517-519, 523-547; dipole.py 24, 42-47, 52-113. -/
noncomputable def descUnit (mu0 : ℝ) (s : Scales) : List (String × ℝ) :=
  [("K", kUnit mu0 s),
   ("K2", kUnit mu0 s ^ 2),
   ("f_max_K2", kUnit mu0 s ^ 2),
   ("f_huber_K", kUnit mu0 s * s.R0 * s.a),
   ("K_theta", kUnit mu0 s),
   ("f_K", kUnit mu0 s ^ 2 * s.R0 * s.a),
   ("K_dot_grad_K", kUnit mu0 s ^ 2 / s.a),
   ("K_dot_grad_K_cyl", kUnit mu0 s ^ 2 / s.a),
   ("f_max_K_dot_grad_K_cyl", kUnit mu0 s ^ 2 / s.a),
   ("winding_surface_B", s.B),
   ("Bnormal", s.B),
   ("Bnormal2", s.B ^ 2),
   ("f_B", s.B ^ 2 * s.R0 * s.a),
   ("f_B_normalized_by_Bnormal_IG", 1),
   ("f_max_Bnormal", s.B),
   ("f_max_Bnormal2", s.B ^ 2),
   ("f_max_force_cyl", forceUnit mu0 s),
   ("f_l1_force_cyl", s.B * kUnit mu0 s * s.a ^ 2 * s.R0 * s.a),
   ("f_max_force2_cyl", forceUnit mu0 s ^ 2),
   ("Phi", phiDescUnit mu0 s),
   ("Phi_with_net_current", phiDescUnit mu0 s),
   ("Phi2", phiDescUnit mu0 s ^ 2),
   ("f_max_Phi", phiDescUnit mu0 s),
   ("f_max_Phi2", phiDescUnit mu0 s ^ 2),
   ("f_max_Phi4", phiDescUnit mu0 s ^ 4),
   ("f_l1_Phi", phiDescUnit mu0 s * s.R0 * s.a),
   ("f_Phi", phiDescUnit mu0 s ^ 2 * s.R0 * s.a)]

end Verif
