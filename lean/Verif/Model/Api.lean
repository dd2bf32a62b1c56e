import Verif.Model.Wrapper

/-!
# The top level function (`/repo/src/quadcoil/quadcoil.py`)

Argument checking, the dictionary of differentiable inputs, the flattened unknowns and the output dictionary.
-/

namespace Verif

/-! ## Argument checking -/

/-- What the checks can see of a Python argument. -/
inductive PyObj where
  | str (s : String)
  | tuple (len : ℕ)
  | list (len : ℕ)
  /-- a numpy or JAX array of the given shape -/
  | array (shape : List ℕ)
  /-- a number, `None`, or any other object without `len` -/
  | other
  deriving DecidableEq

namespace PyObj

/-- Python `len`. -/
def len : PyObj → Except PyErr ℕ
  | str s => .ok s.length
  | tuple n => .ok n
  | list n => .ok n
  | array (n :: _) => .ok n
  | array [] => .error .typeError
  | other => .error .typeError

/-- `is_ndarray(arr, n)`, math_utils.py 13-14 (the argument `n` is ignored by the code: it always tests for 1). -/
def isNdarray : PyObj → ℕ → Bool
  | array shape, _ => shape.length == 1
  | _, _ => false

end PyObj

/-- The arguments that are checked before anything is computed. -/
structure CheckedArgs where
  plasmaCoilDistanceGiven : Bool
  windingDofsGiven : Bool
  objectiveName : PyObj
  objectiveWeight : PyObj
  objectiveUnit : PyObj
  constraintName : PyObj
  constraintType : PyObj
  constraintUnit : PyObj
  constraintValue : PyObj

/-- The first half of `_input_checking`, quadcoil.py 1104-1112. `or` is lazy: the second `len` is only evaluated if the
first test fails. -/
def checkObjective (a : CheckedArgs) : Except PyErr Unit :=
  match a.objectiveName with
  | .str _ => .ok ()
  | .tuple n =>
    if a.objectiveWeight.isNdarray 1 then do
      let w ← a.objectiveWeight.len
      if n ≠ w then .error .valueError
      else do
        let u ← a.objectiveUnit.len
        if n ≠ u then .error .valueError else .ok ()
    else .error .typeError
  | _ => .error .typeError

/-- The second half of `_input_checking`, quadcoil.py 1113-1129. -/
def checkConstraints (a : CheckedArgs) : Except PyErr Unit :=
  match a.constraintName, a.constraintType with
  | .tuple n, .tuple t =>
    if n ≠ t then .error .valueError
    else do
      let u ← a.constraintUnit.len
      if n ≠ u then .error .valueError
      else do
        let v ← a.constraintValue.len
        if n ≠ v then .error .valueError else .ok ()
  | _, _ => .error .typeError

/-- `_input_checking`, quadcoil.py 1094-1129. -/
def inputChecking (a : CheckedArgs) : Except PyErr Unit := do
  checkObjective a
  checkConstraints a

/-- The checks at the start of `quadcoil`, quadcoil.py 287-307. -/
def quadcoilChecks (a : CheckedArgs) : Except PyErr Unit :=
  if a.plasmaCoilDistanceGiven = false ∧ a.windingDofsGiven = false then .error .valueError
  else if a.plasmaCoilDistanceGiven = true ∧ a.windingDofsGiven = true then .error .valueError
  else inputChecking a

/-! ## Differentiable inputs and the output dictionary -/

/-- The parts of the arguments that decide which inputs are differentiated. -/
structure YArgs where
  objectiveIsString : Bool
  nConstraints : ℕ
  bnormalPlasmaGiven : Bool
  plasmaCoilDistanceGiven : Bool

/-- The keys of `y_dict_current`, quadcoil.py 310-333. -/
def yKeys (a : YArgs) : List String :=
  ["plasma_dofs", "net_poloidal_current_amperes", "net_toroidal_current_amperes"]
    ++ (if a.objectiveIsString then [] else ["objective_weight"])
    ++ (if 0 < a.nConstraints then ["constraint_value"] else [])
    ++ (if a.bnormalPlasmaGiven then ["Bnormal_plasma"] else [])
    ++ (if a.plasmaCoilDistanceGiven then ["plasma_coil_distance"] else ["winding_dofs"])

/-- One entry of the output dictionary: the value and, in gradient mode, the keys of `'grad'`. -/
structure MetricOut (V : Type) where
  value : V
  gradKeys : Option (List String)

/-- Python `d[k] = v`. -/
def dictSet {β : Type} (d : List (String × β)) (k : String) (v : β) : List (String × β) :=
  d.filter (fun kv => kv.1 ≠ k) ++ [(k, v)]

/-- One pass of the metric loop in `value_only` mode, quadcoil.py 746-755: for `'f_obj'` the value is computed but the
assignment to `out_dict` is inside the `else` branch. `metric` evaluates a quantity by name (it raises for unknown names). -/
def valueOnlyStep {V : Type} (metric : String → Except PyErr V) (out : List (String × MetricOut V)) (name : String) :
    Except PyErr (List (String × MetricOut V)) :=
  if name = "f_obj" then .ok out
  else do
    let r ← metric name
    .ok (dictSet out name ⟨r, none⟩)

/-- The output dictionary in `value_only` mode, quadcoil.py 744-756. -/
def valueOnlyOut {V : Type} (metric : String → Except PyErr V) (names : List String) :
    Except PyErr (List (String × MetricOut V)) := names.foldlM (valueOnlyStep metric) []

/-- One pass of the metric loop in gradient mode, quadcoil.py 941-1008: `{f"df_d{key}": value for key, value in ...}`.
`fObj` is the objective at the optimum. The entries added for `verbose > 0` are in `Model/Verbose.lean`. -/
def gradientStep {V : Type} (fObj : V) (metric : String → Except PyErr V) (a : YArgs)
    (out : List (String × MetricOut V)) (name : String) : Except PyErr (List (String × MetricOut V)) := do
  let r ← if name = "f_obj" then Except.ok fObj else metric name
  .ok (dictSet out name ⟨r, some ((yKeys a).map fun k => "df_d" ++ k)⟩)

/-- The output dictionary in gradient mode. -/
def gradientOut {V : Type} (fObj : V) (metric : String → Except PyErr V) (a : YArgs) (names : List String) :
    Except PyErr (List (String × MetricOut V)) := names.foldlM (gradientStep fObj metric a) []

/-! ## Flattened unknowns -/

/-- `flatten_util.ravel_pytree(x_dict)[0]`: all leaves one after the other. The dictionary is listed in JAX's leaf order. -/
def ravel (d : List (String × Val)) : List ℝ := d.flatMap fun kv => kv.2.entries

/-- The second result of `ravel_pytree(template)`: cuts a flat vector into leaves of the shapes of the template. -/
def unravelLike : List (String × Val) → List ℝ → List (String × Val)
  | [], _ => []
  | (k, .scalar _) :: rest, x => (k, .scalar (x.headD 0)) :: unravelLike rest (x.drop 1)
  | (k, .array v) :: rest, x => (k, .array (x.take v.length)) :: unravelLike rest (x.drop v.length)

/-- `unravel_unscale_x`, quadcoil.py 608-614: `{**d, "phi": d["phi_scaled"] * phi_unit}` without the key `"phi_scaled"`. -/
noncomputable def unravelUnscale (template : List (String × Val)) (phiUnit : ℝ) (x : List ℝ) : Option (List (String × Val)) :=
  let d := unravelLike template x
  (d.lookup "phi_scaled").map fun s =>
    (dictSet d "phi" (Val.map (fun t => t * phiUnit) s)).filter fun kv => kv.1 ≠ "phi_scaled"

/-- `x_dict`, quadcoil.py 573-601 (before sorting): the scaled potential and the slack variables. -/
noncomputable def xDict (phiInit : List ℝ) (phiUnit : ℝ) (aux : List (String × Val)) : List (String × Val) :=
  aux ++ [("phi_scaled", Val.array (phiInit.map fun t => t / phiUnit))]

/-- The coefficient read as minor radius, `dofs[ntor*2 + 1]`, quadcoil.py 556-557. JAX clamps an index that is too large. -/
noncomputable def minorRadius (ntor : ℕ) (dofs : List ℝ) : ℝ := dofs.getD (ntor * 2 + 1) (dofs.getLastD 0)

/-- The automatic unit of the potential, quadcoil.py 546-558. `bnormal` is the normal field at the initial potential. -/
noncomputable def phiUnitAuto (bnormal : List ℝ) (plasmaCoilDistance : Option ℝ) (plasmaNtor : ℕ) (plasmaDofs : List ℝ)
    (windingNtor : ℕ) (windingDofs : List ℝ) : ℝ :=
  let estimate := (bnormal.map fun b => |b|).sum / bnormal.length
  match plasmaCoilDistance with
  | some d => estimate * 1e7 * |d|
  | none => estimate * 1e7 * |minorRadius plasmaNtor plasmaDofs - minorRadius windingNtor windingDofs|

/-! ## Constrained or not -/

/-- `n_g`, `n_h` and `unconstrained`, quadcoil.py 521-536: the numbers of constraint functions decide which solver runs. -/
def isUnconstrained (mergeConstraints : Bool) (nGFunctions nHFunctions : ℕ) : Bool :=
  let nG := if mergeConstraints then 1 else nGFunctions
  nG == 0 && nHFunctions == 0

end Verif
