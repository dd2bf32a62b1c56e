import Verif.Model.Call
import Verif.Model.ImplicitDiff

/-!
# The gradients of a whole call without constraints: `/repo/src/quadcoil/quadcoil.py` 308-333, 400-528, 757-766, 942-1004

The dictionary of the inputs with respect to which gradients are taken, the call with other inputs, the objective and the metrics as
functions of the flattened unknowns and inputs, and the arrays of gradients. Derivatives taken by JAX are the derivatives of the real
functions. The solution `vihp` of the linear system (`lx.linear_solve`, 955-959) is a parameter, required to solve it. The Lagrangian of
the path with constraints is modelled in `ImplicitDiff.lean`.
-/

namespace Verif

/-- A flat vector cut into rows as long as those of an array: the leaf `Bnormal_plasma` after `ravel_pytree` and back. -/
def reshapeLike : List (List ℝ) → List ℝ → List (List ℝ)
  | [], _ => []
  | r :: rows, y => y.take r.length :: reshapeLike rows (y.drop r.length)

/-- `jnp.array(objective_weight)`, quadcoil.py 316. -/
def weightsVal : OneOrMany ℝ → Val
  | .one w => .scalar w
  | .many ws => .array ws

/-- `objective_weight_temp`, quadcoil.py 483-486. -/
def leafWeights : Option Val → OneOrMany ℝ
  | some (.array ws) => .many ws
  | some (.scalar w) => .one w
  | none => .one 1

/-- The entries of a leaf of a dictionary; none without it (quadcoil.py 487-490). -/
def entriesAt (d : List (String × Val)) (k : String) : List ℝ := ((d.lookup k).map Val.entries).getD []

/-- A leaf that is a number. -/
def numberAt (d : List (String × Val)) (k : String) : ℝ := (entriesAt d k).headD 0

namespace CallArgs

variable (a : CallArgs)

/-- `y_dict_current`, quadcoil.py 308-333, in the order of its insertions. -/
def yInserted : List (String × Val) :=
  [("plasma_dofs", .array a.plasmaDofs), ("net_poloidal_current_amperes", .scalar a.netPoloidal),
    ("net_toroidal_current_amperes", .scalar a.netToroidal)] ++
  (match a.opts.objectiveName with
    | .one _ => []
    | .many _ => [("objective_weight", weightsVal a.opts.objectiveWeight)]) ++
  (if a.opts.constraintName.length > 0 then [("constraint_value", .array a.opts.constraintValue)] else []) ++
  (match a.bnormalPlasma with
    | none => []
    | some b => [("Bnormal_plasma", .array b.flatten)]) ++
  (match a.plasmaCoilDistance with
    | none => [("winding_dofs", .array (a.windingDofs.getD []))]
    | some d => [("plasma_coil_distance", .scalar d)])

/-- `y_dict_current` in the order of its leaves. -/
def yDict : List (String × Val) := sortKeys a.yInserted

/-- `y_flat`, quadcoil.py 758. -/
def yFlat : List ℝ := ravel a.yDict

/-- The call with the inputs of another dictionary, as `y_to_qp` (408-465) and `f_g_ineq_h_eq_from_y` (473-491) read it. Which leaves are
read is decided by the arguments of the call. -/
def withY (d : List (String × Val)) : CallArgs :=
  { a with
    plasmaDofs := entriesAt d "plasma_dofs"
    netPoloidal := numberAt d "net_poloidal_current_amperes"
    netToroidal := numberAt d "net_toroidal_current_amperes"
    bnormalPlasma := a.bnormalPlasma.map fun b => reshapeLike b (entriesAt d "Bnormal_plasma")
    plasmaCoilDistance := a.plasmaCoilDistance.map fun _ => numberAt d "plasma_coil_distance"
    windingDofs := if a.plasmaCoilDistance.isNone then some (entriesAt d "winding_dofs") else a.windingDofs
    opts := { a.opts with
      objectiveWeight := leafWeights (d.lookup "objective_weight")
      constraintValue := entriesAt d "constraint_value" } }

/-- The call at flattened inputs: `unravel_y(y)`. -/
def atY (y : List ℝ) : CallArgs := a.withY (unravelLike a.yDict y)

/-- `l_k(x, y)` without constraints, quadcoil.py 764-766. -/
noncomputable def objectiveAt (reg : Registry FieldProblem) (s : Setup) (x y : List ℝ) : Except PyErr Val := do
  let o ← (a.atY y).paramsObj
  let p ← fghFromY reg o.toField (a.atY y).opts
  .ok (p.f (dofsOf s.template s.phiUnit x))

/-- `f_metric(x, y)`, quadcoil.py 942-952 with `xp_to_x` the identity (771). The objective `f_obj` is the one set up by the call, with its
weights, evaluated at other parameters. -/
noncomputable def metricAt (reg : Registry FieldProblem) (s : Setup) (name : String) (x y : List ℝ) : Except PyErr Val := do
  let o ← (a.atY y).paramsObj
  if name = "f_obj" then do
    let p ← fghFromY reg o.toField a.opts
    .ok (p.f (dofsOf s.template s.phiUnit x))
  else metricValue reg o.toField (dofsOf s.template s.phiUnit x) name

end CallArgs

/-- The number that a function returns. -/
def okNumber : Except PyErr Val → ℝ
  | .ok v => v.entries.headD 0
  | .error _ => 0

namespace CallArgs

variable (a : CallArgs) (reg : Registry FieldProblem) (s : Setup)

/-- `l_k` on vectors. -/
noncomputable def lk {nx : ℕ} (x : Fin nx → ℝ) (y : Fin a.yFlat.length → ℝ) : ℝ := okNumber (a.objectiveAt reg s (List.ofFn x) (List.ofFn y))

/-- `f_metric` on vectors. -/
noncomputable def fMetric {nx : ℕ} (name : String) (x : Fin nx → ℝ) (y : Fin a.yFlat.length → ℝ) : ℝ :=
  okNumber (a.metricAt reg s name (List.ofFn x) (List.ofFn y))

/-- `y_flat` as a vector. -/
def y0 : Fin a.yFlat.length → ℝ := fun i => a.yFlat[i]

/-- `vihp` solves the linear system, quadcoil.py 775-781, 953-959. -/
def SolvesVihp {nx : ℕ} (name : String) (x vihp : Fin nx → ℝ) : Prop := SolvesHessian (a.lk reg s) (a.fMetric reg s name) x a.y0 vihp

/-- `dfdy_arr`, quadcoil.py 999-1003. -/
noncomputable def dfdyArr {nx : ℕ} (name : String) (x vihp : Fin nx → ℝ) : List ℝ :=
  List.ofFn fun i => reportedGrad (a.lk reg s) (a.fMetric reg s name) x a.y0 vihp (Pi.single i 1)

/-- `dfdy_dict`, quadcoil.py 1004. -/
noncomputable def dfdyDict {nx : ℕ} (name : String) (x vihp : Fin nx → ℝ) : List (String × Val) :=
  (unravelLike a.yDict (a.dfdyArr reg s name x vihp)).map fun kv => ("df_d" ++ kv.1, kv.2)

end CallArgs

end Verif
