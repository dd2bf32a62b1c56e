import Verif.Spec.Rescale
import Verif.Model.Call

/-!
# A call in other units

All lengths of the arguments are multiplied by `l` and all currents by `mu`. Numbers with other dimensions follow: magnetic fields are
multiplied by `mu / l`, and values and units of a quantity by the factor of that quantity.
-/

namespace Verif

/-- How each quantity scales with lengths and currents: its value is a power of a current times a power of a length. The normal field and
the force are per permeability, which is a number. -/
noncomputable def valueFactor (l mu : ℝ) : List (String × ℝ) :=
  [("K", mu / l), ("K2", (mu / l) ^ 2), ("f_max_K2", (mu / l) ^ 2), ("f_huber_K", mu / l * l ^ 2), ("K_theta", mu),
   ("f_K", (mu / l) ^ 2 * l ^ 2), ("K_dot_grad_K", (mu / l) ^ 2 / l), ("K_dot_grad_K_cyl", (mu / l) ^ 2 / l),
   ("f_max_K_dot_grad_K_cyl", (mu / l) ^ 2 / l), ("winding_surface_B", mu / l), ("Bnormal", mu / l), ("Bnormal2", (mu / l) ^ 2),
   ("f_B", (mu / l) ^ 2 * l ^ 2), ("f_B_normalized_by_Bnormal_IG", 1), ("f_max_Bnormal", mu / l), ("f_max_Bnormal2", (mu / l) ^ 2),
   ("f_max_force_cyl", (mu / l) ^ 2), ("f_l1_force_cyl", (mu / l) ^ 2 * l ^ 2), ("f_max_force2_cyl", ((mu / l) ^ 2) ^ 2),
   ("Phi", mu), ("Phi_with_net_current", mu), ("Phi2", mu ^ 2), ("f_max_Phi", mu), ("f_max_Phi2", mu ^ 2), ("f_max_Phi4", mu ^ 4),
   ("f_l1_Phi", mu * l ^ 2), ("f_Phi", mu ^ 2 * l ^ 2)]

/-- The factor of the quantity `name`; names without a dimension, such as `f_obj`, have the factor 1. -/
noncomputable def factorOf (l mu : ℝ) (name : String) : ℝ := ((valueFactor l mu).lookup name).getD 1

/-- A unit given by the user, times `e`. -/
noncomputable def UnitArg.times (e : ℝ) : UnitArg → UnitArg
  | .none => .none
  | .scalar u => .scalar (e * u)
  | .other => .other

/-- The units of several quantities. Units without a quantity stay. -/
noncomputable def timesUnits (l mu : ℝ) : List String → List UnitArg → List UnitArg
  | n :: ns, u :: us => u.times (factorOf l mu n) :: timesUnits l mu ns us
  | _, us => us

/-- One or several items as a list. -/
def OneOrMany.list {α : Type} : OneOrMany α → List α
  | .one a => [a]
  | .many l => l

/-- The unit or units of the objective. -/
noncomputable def timesObjectiveUnit (l mu : ℝ) : OneOrMany String → OneOrMany UnitArg → OneOrMany UnitArg
  | .one n, .one u => .one (u.times (factorOf l mu n))
  | .many ns, .many us => .many (timesUnits l mu ns us)
  | _, us => us

/-- The values of several constraints. Values without a constraint stay. -/
noncomputable def timesValues (l mu : ℝ) : List String → List ℝ → List ℝ
  | n :: ns, v :: vs => factorOf l mu n * v :: timesValues l mu ns vs
  | _, vs => vs

/-- The arguments for objective, constraints and solver in other units. -/
noncomputable def QuadcoilArgs.rescale (l mu : ℝ) (o : QuadcoilArgs) : QuadcoilArgs :=
  { o with
    objectiveUnit := timesObjectiveUnit l mu o.objectiveName o.objectiveUnit
    constraintUnit := timesUnits l mu o.constraintName o.constraintUnit
    constraintValue := timesValues l mu o.constraintName o.constraintValue
    phiInit := o.phiInit.map fun c => c.map (mu * ·) }

/-- The whole call in other units. -/
noncomputable def CallArgs.rescale (l mu : ℝ) (a : CallArgs) : CallArgs :=
  { a with
    plasmaDofs := a.plasmaDofs.map (l * ·)
    netPoloidal := mu * a.netPoloidal
    netToroidal := mu * a.netToroidal
    phiUnit := a.phiUnit.map (mu * ·)
    bnormalPlasma := a.bnormalPlasma.map fun b => b.map fun r => r.map (mu / l * ·)
    plasmaCoilDistance := a.plasmaCoilDistance.map (l * ·)
    windingDofs := a.windingDofs.map fun w => w.map (l * ·)
    opts := a.opts.rescale l mu }

/-- The results of the call in other units: values are multiplied by the factors of their quantities, the potential by `mu`. What the solver
reports, such as the number of iterations, stays. -/
noncomputable def CallOut.rescale (l mu : ℝ) (R : CallOut) : CallOut where
  out := R.out.map fun e => (e.1, { e.2 with value := e.2.value.map (factorOf l mu e.1 * ·) })
  qp := R.qp.rescale l mu
  dofs := rescaleDofs mu R.dofs
  results := R.results

/-- The quantities whose smoothed form, or whose form with auxiliary variables, or the start of these, is another one in other units. Some
depend on the unit of length, some on the unit of current, and the force on both. (The form of `f_l1_force_cyl` with auxiliary variables
cannot be evaluated at all, see C74.) -/
def UnitBound (l mu : ℝ) (smoothing : Option String) (name : String) : Prop :=
  smoothing = some "slack" ∧ (name = "f_l1_force_cyl" ∨ l ≠ 1 ∧ (name = "f_huber_K" ∨ name = "f_l1_Phi") ∨
    mu ≠ l ∧ name = "f_max_force2_cyl" ∨ mu ≠ 1 ∧ name = "f_max_Phi2") ∨
  smoothing = some "approx" ∧ (l ≠ 1 ∧ name = "f_huber_K" ∨ mu ≠ l ∧ (name = "f_l1_force_cyl" ∨ name = "f_max_force2_cyl") ∨
    mu ≠ 1 ∧ (name = "f_max_Phi2" ∨ name = "f_max_Phi4" ∨ name = "f_l1_Phi"))

/-- The generator of winding surfaces does not depend on the unit of length, for the plasma and the distance of this call. -/
def CallArgs.GeneratorScales (a : CallArgs) (l : ℝ) : Prop :=
  ∀ d, a.plasmaCoilDistance = some d →
    a.generator (a.plasmaGamma.map fun r => r.map (l • ·)) (l * d) a.nfp a.plasmaStellsym a.windingMpol a.windingNtor =
      (a.generator a.plasmaGamma d a.nfp a.plasmaStellsym a.windingMpol a.windingNtor).map (l * ·)

end Verif
