import Verif.Model.Quantity

/-!
# Parsing of objectives and constraints (`/repo/src/quadcoil/wrapper.py`)
-/

namespace Verif

variable {P : Type}

/-- An attribute of the module `quadcoil.quantity`: a `_Quantity` or something else. -/
inductive Attr (P : Type) where
  | quantity (q : Quantity P)
  | other

/-- The attributes of the module `quadcoil.quantity`. -/
abbrev Registry (P : Type) := String → Option (Attr P)

/-- `get_quantity`, wrapper.py 8-35. -/
def getQuantity (reg : Registry P) (name : String) : Except PyErr (Quantity P) :=
  match reg name with
  | some (.quantity q) => .ok q
  | some .other => .error .valueError
  | none => .error .valueError

/-- A unit given by the user: `None`, a scalar, or something else (an array, a string, ...). -/
inductive UnitArg where
  | none
  | scalar (u : ℝ)
  | other

/-- The five results of `_add_quantity`. -/
structure Added (P : Type) where
  val : P → Dofs → Val
  g : List (P → Dofs → Val)
  h : List (P → Dofs → Val)
  unit : P → Val
  slack : List (String × (P → Dofs → Val))

/-- The unit as a function of the parameters, wrapper.py 144-153. -/
noncomputable def unitCallable [HasQp P] (q : Quantity P) : UnitArg → Except PyErr (P → Val)
  | .none => .ok fun qp => q.call qp (phiOnly (Val.array (List.replicate (HasQp.ndofs qp) 0)))
  | .scalar u => .ok fun _ => Val.scalar |u|
  | .other => .error .typeError

/-- `_add_quantity`, wrapper.py 93-186. -/
noncomputable def addQuantity [HasQp P] (reg : Registry P) (name : String) (unit : UnitArg) (useCase : String)
    (smoothing : Option String) (sp : SmoothingParams) : Except PyErr (Added P) := do
  let q ← getQuantity reg name
  let f ← q.scaledF smoothing sp
  let g ← q.scaledG smoothing
  let h ← q.scaledH smoothing
  let init ← q.scaledInit smoothing
  if ¬ q.compatibility.contains useCase then .error .valueError
  else do
    let u ← unitCallable q unit
    let applyUnit : (P → Dofs → Val → Val) → P → Dofs → Val := fun fn qp dofs => fn qp dofs (u qp)
    .ok {
      val := applyUnit f
      g := (g.map applyUnit).toList
      h := (h.map applyUnit).toList
      unit := u
      slack := (init.getD []).map fun kv => (kv.1, applyUnit kv.2) }

/-- Python `a | b` for dictionaries. -/
def dictUnion {β : Type} (a b : List (String × β)) : List (String × β) :=
  a.map (fun kv => (kv.1, (b.lookup kv.1).getD kv.2)) ++ b.filter (fun kv => (a.lookup kv.1).isNone)

/-- The results of `_parse_constraints`. -/
structure Parsed (P : Type) where
  g : List (P → Dofs → Val)
  h : List (P → Dofs → Val)
  slack : List (String × (P → Dofs → Val))

/-- One constraint request. -/
structure Request where
  name : String
  type : String
  unit : UnitArg
  value : ℝ

/-- `cons_func_centered_i`, wrapper.py 353-368. -/
noncomputable def consFunc (a : Added P) (value sign : ℝ) (smoothing : Option String) (sp : SmoothingParams)
    (qp : P) (dofs : Dofs) : Val :=
  let out := Val.map (fun x => sign * x)
    (Val.map2 (· - ·) (a.val qp dofs) (Val.map2 (· / ·) (Val.scalar value) (a.unit qp)))
  if smoothing = some "approx" ∧ out.isScalar = false then Val.scalar (maxLse out.entries sp.lseEpsilon)
  else out

/-- One pass of the loop of `_parse_constraints`, wrapper.py 326-375. -/
noncomputable def parseStep [HasQp P] (reg : Registry P) (smoothing : Option String) (sp : SmoothingParams)
    (acc : Parsed P) (r : Request) : Except PyErr (Parsed P) := do
  let a ← addQuantity reg r.name r.unit r.type smoothing sp
  let slack := dictUnion acc.slack a.slack
  let g := acc.g ++ a.g
  let h := acc.h ++ a.h
  let sign : ℝ := if r.type = ">=" then -1 else 1
  let f := consFunc a r.value sign smoothing sp
  if r.type = "==" then .ok ⟨g, h ++ [f], slack⟩
  else if r.type = "<=" ∨ r.type = ">=" then .ok ⟨g ++ [f], h, slack⟩
  else .error .valueError

/-- The requests given as four parallel lists. -/
def zipRequests (names types : List String) (units : List UnitArg) (values : List ℝ) : List Request :=
  List.zipWith (fun nt uv => ⟨nt.1, nt.2, uv.1, uv.2⟩) (names.zip types) (units.zip values)

/-- `_parse_constraints`, wrapper.py 265-382. -/
noncomputable def parseConstraints [HasQp P] (reg : Registry P) (names types : List String) (units : List UnitArg)
    (values : List ℝ) (smoothing : Option String) (sp : SmoothingParams) : Except PyErr (Parsed P) :=
  if names.length ≠ types.length ∨ names.length ≠ units.length ∨ names.length ≠ values.length then .error .valueError
  else (zipRequests names types units values).foldlM (parseStep reg smoothing sp) ⟨[], [], []⟩

/-- An argument that is a single item or a sequence. -/
inductive OneOrMany (α : Type) where
  | one (a : α)
  | many (l : List α)

/-- The results of `_parse_objectives`. -/
structure ParsedObj (P : Type) where
  f : P → Dofs → Val
  g : List (P → Dofs → Val)
  h : List (P → Dofs → Val)
  slack : List (String × (P → Dofs → Val))

/-- The accumulators of the loop in `_parse_objectives`. -/
structure ObjAcc (P : Type) where
  f : List (P → Dofs → Val)
  g : List (P → Dofs → Val)
  h : List (P → Dofs → Val)
  slack : List (String × (P → Dofs → Val))

/-- The loop of `_parse_objectives`, wrapper.py 236-253. `objective_unit[i]` raises `IndexError` when there are too few
units; additional units are ignored. -/
noncomputable def parseObjLoop [HasQp P] (reg : Registry P) (smoothing : Option String) (sp : SmoothingParams) :
    List String → List UnitArg → ObjAcc P → Except PyErr (ObjAcc P)
  | [], _, acc => .ok acc
  | _ :: _, [], _ => .error .indexError
  | n :: ns, u :: us, acc => do
    let a ← addQuantity reg n u "f" smoothing sp
    parseObjLoop reg smoothing sp ns us
      ⟨acc.f ++ [a.val], acc.g ++ a.g, acc.h ++ a.h, dictUnion acc.slack a.slack⟩

/-- `f_tot`, wrapper.py 254-262. -/
noncomputable def fTot (fs : List (P → Dofs → Val)) (weights : List ℝ) (qp : P) (dofs : Dofs) : Val :=
  (fs.zip weights).foldl (fun out fw => Val.map2 (· + ·) out (Val.map (fun x => x * fw.2) (fw.1 qp dofs))) (Val.scalar 0)

/-- `_parse_objectives`, wrapper.py 188-263. With a string name the weight is replaced by `[1.]`. With a tuple of names a
weight or unit that is not a sequence raises `TypeError` (`len` / subscript of a number or `None`). -/
noncomputable def parseObjectives [HasQp P] (reg : Registry P) (names : OneOrMany String) (units : OneOrMany UnitArg)
    (weights : OneOrMany ℝ) (smoothing : Option String) (sp : SmoothingParams) : Except PyErr (ParsedObj P) :=
  let run (names : List String) (units : List UnitArg) (weights : List ℝ) : Except PyErr (ParsedObj P) :=
    if names.length ≠ weights.length then .error .valueError
    else do
      let acc ← parseObjLoop reg smoothing sp names units ⟨[], [], [], []⟩
      .ok ⟨fTot acc.f weights, acc.g, acc.h, acc.slack⟩
  match names, units, weights with
  | .one n, .one u, _ => run [n] [u] [1]
  | .one n, .many _, _ => run [n] [.other] [1]
  | .many _, _, .one _ => .error .typeError
  | .many ns, .many us, .many ws => run ns us ws
  | .many ns, .one _, .many ws =>
    if ns.length ≠ ws.length then .error .valueError
    else if ns = [] then run [] [] []
    else .error .typeError

/-- `merge_callables(...)(qp, dofs)`, wrapper.py 37-91. `None` entries are skipped. With `merge_constraints`,
`jnp.array(outputs)` raises for outputs of different lengths. -/
noncomputable def mergeCallables (callables : List (Option (P → Dofs → Val))) (mergeConstraints : Bool)
    (smoothing : Option String) (sp : SmoothingParams) (qp : P) (dofs : Dofs) : Except PyErr (List ℝ) :=
  let outputs := (callables.filterMap id).map fun fn => (fn qp dofs).entries
  if outputs.length = 0 then .ok []
  else if mergeConstraints then
    if smoothing = some "approx" then
      if outputs.all (fun o => o.length = (outputs.headD []).length) then
        .ok [maxLse outputs.flatten sp.lseEpsilon]
      else .error .typeError
    else .error .attributeError
  else .ok outputs.flatten

/-- The part of `f_g_ineq_h_eq_from_y` (quadcoil.py 473-528) that joins objectives and constraints. -/
structure Joined (P : Type) where
  f : P → Dofs → Val
  g : List (P → Dofs → Val)
  h : List (P → Dofs → Val)
  slack : List (String × (P → Dofs → Val))

/-- quadcoil.py 491-509: `g_list = g_obj_list + g_cons_list` and so on. -/
def joinParsed (o : ParsedObj P) (c : Parsed P) : Joined P :=
  ⟨o.f, o.g ++ c.g, o.h ++ c.h, dictUnion o.slack c.slack⟩

end Verif
