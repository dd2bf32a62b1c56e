import Verif.Model.Lse
import Mathlib.Analysis.Real.Sqrt

/-!
# `_Quantity` and its generators (`/repo/src/quadcoil/quantity/quantity.py`)

Simplifications:
* an array is its flattened list of entries (`Val`), except where a function uses the last axis (`generateHuber`);
* the degrees of freedom dictionary is a total map from names to values (a missing key raises `KeyError` in the code);
* the parameter object `qp` is an arbitrary type `P` that provides `ndofs`, the area elements of the evaluation surface,
  and `nfp`;
* `_compress_by_stellsym` / `_expand_by_stellsym` (quantity.py 22-57) are `flatten` / `reshape`, the same as the other
  branch, so `auto_stellsym` has no effect and is not a parameter.
-/

namespace Verif

/-- A JAX value: a zero-dimensional array (`jnp.isscalar` is true) or an array, flattened. -/
inductive Val where
  | scalar (x : ℝ)
  | array (xs : List ℝ)

namespace Val

/-- `jnp.atleast_1d(v).ravel()`: all entries in order. -/
def entries : Val → List ℝ
  | scalar x => [x]
  | array xs => xs

/-- `jnp.isscalar`. -/
def isScalar : Val → Bool
  | scalar _ => true
  | array _ => false

/-- Elementwise unary function. -/
def map (f : ℝ → ℝ) : Val → Val
  | scalar x => scalar (f x)
  | array xs => array (xs.map f)

/-- Elementwise binary function with scalar broadcasting (two arrays are assumed to have the same shape). -/
def map2 (f : ℝ → ℝ → ℝ) : Val → Val → Val
  | scalar x, scalar y => scalar (f x y)
  | scalar x, array ys => array (ys.map (f x))
  | array xs, scalar y => array (xs.map fun x => f x y)
  | array xs, array ys => array (List.zipWith f xs ys)

end Val

/-- The Python exceptions that the modelled code can raise. -/
inductive PyErr where
  | valueError | typeError | attributeError | indexError | keyError | nameError | assertionError | zeroDivisionError
  deriving DecidableEq

/-- The dictionary of degrees of freedom. -/
abbrev Dofs := String → Val

/-- What the quantities use from a `QuadcoilParams` object: the number of current potential coefficients, the area
elements `eval_surface.da()` (flattened) and the number of field periods. -/
class HasQp (P : Type) where
  ndofs : P → ℕ
  da : P → List ℝ
  nfp : P → ℝ

/-- `smoothing_params`: only the key `'lse_epsilon'` is ever read. -/
structure SmoothingParams where
  lseEpsilon : ℝ

/-- The attributes of a `_Quantity` (quantity.py 185-192), without the DESC unit. -/
structure Quantity (P : Type) where
  rawF : P → Dofs → Val
  approxF : P → Dofs → Val → SmoothingParams → Val
  slackF : P → Dofs → Val → Val
  slackG : Option (P → Dofs → Val → Val)
  slackH : Option (P → Dofs → Val → Val)
  slackInit : Option (List (String × (P → Dofs → Val → Val)))
  compatibility : List String

variable {P : Type}

/-- `{'phi': v}`. Other keys are absent in the code; here they hold an arbitrary value. -/
def phiOnly (v : Val) : Dofs := fun k => if k = "phi" then v else Val.scalar 0

namespace Quantity

/-- `_Quantity.__call__`, quantity.py 195-207. -/
def call (q : Quantity P) (qp : P) (dofs : Dofs) : Val := q.rawF qp (phiOnly (dofs "phi"))

/-- `scaled_f_impl`, quantity.py 209-223. -/
noncomputable def scaledF (q : Quantity P) (smoothing : Option String) (sp : SmoothingParams) :
    Except PyErr (P → Dofs → Val → Val) :=
  if smoothing = some "slack" then .ok q.slackF
  else if smoothing = none then .ok fun qp dofs unit => Val.map2 (· / ·) (q.rawF qp dofs) unit
  else if smoothing = some "approx" then .ok fun qp dofs unit => q.approxF qp dofs unit sp
  else .error .valueError

/-- `scaled_g_ineq_impl`, quantity.py 225-236. -/
def scaledG (q : Quantity P) (smoothing : Option String) : Except PyErr (Option (P → Dofs → Val → Val)) :=
  if smoothing = some "slack" then .ok q.slackG
  else if smoothing = none then .ok none
  else if smoothing = some "approx" then .ok none
  else .error .valueError

/-- `scaled_h_eq_impl`, quantity.py 238-249. -/
def scaledH (q : Quantity P) (smoothing : Option String) : Except PyErr (Option (P → Dofs → Val → Val)) :=
  if smoothing = some "slack" then .ok q.slackH
  else if smoothing = none then .ok none
  else if smoothing = some "approx" then .ok none
  else .error .valueError

/-- `scaled_slack_dofs_init`, quantity.py 251-262. -/
def scaledInit (q : Quantity P) (smoothing : Option String) :
    Except PyErr (Option (List (String × (P → Dofs → Val → Val)))) :=
  if smoothing = some "slack" then .ok q.slackInit
  else if smoothing = none then .ok none
  else if smoothing = some "approx" then .ok none
  else .error .valueError

/-- `generate_c2`, quantity.py 265-277. -/
noncomputable def generateC2 (func : P → Dofs → Val) (compatibility : List String) : Quantity P where
  rawF := func
  approxF := fun qp dofs unit _ => Val.map2 (· / ·) (func qp dofs) unit
  slackF := fun qp dofs unit => Val.map2 (· / ·) (func qp dofs) unit
  slackG := none
  slackH := none
  slackInit := none
  compatibility := compatibility

/-- `max |field|`, the first step of `_raw_f_impl` in `generate_linf_norm`. -/
noncomputable def maxAbs (v : Val) : ℝ := jmax (v.entries.map fun x => |x|)

/-- The slack inequality of `generate_linf_norm` (quantity.py 336-353) and `generate_l1_norm` (594-606):
`field/unit - p`, and unless `positive_definite` also `-field/unit - p`. -/
noncomputable def slackIneq (field unit p : Val) (positiveDefinite : Bool) : Val :=
  let field := Val.array field.entries
  let gPlus := Val.map2 (· - ·) (Val.map2 (· / ·) field unit) p
  if positiveDefinite then gPlus
  else
    let gMinus := Val.map2 (· - ·) (Val.map2 (· / ·) (Val.map (fun x => -x) field) unit) p
    Val.array (gPlus.entries ++ gMinus.entries)

/-- `generate_linf_norm`, quantity.py 279-365. -/
noncomputable def generateLinf (func : P → Dofs → Val) (aux : String) (positiveDefinite square : Bool) : Quantity P where
  rawF := fun qp dofs =>
    if square then Val.scalar (maxAbs (func qp dofs) ^ 2) else Val.scalar (maxAbs (func qp dofs))
  approxF := fun qp dofs unit sp =>
    if square then Val.scalar (linfLse (Val.map2 (· / ·) (func qp dofs) unit).entries sp.lseEpsilon ^ 2)
    else Val.scalar (linfLse (Val.map2 (· / ·) (func qp dofs) unit).entries sp.lseEpsilon)
  slackF := fun _ dofs _ => if square then Val.map (· ^ 2) (dofs aux) else dofs aux
  slackG := some fun qp dofs unit =>
    slackIneq (func qp dofs) (if square then Val.map Real.sqrt unit else unit) (dofs aux) positiveDefinite
  slackH := none
  slackInit := some [(aux, fun qp dofs unit =>
    if square then Val.map2 (· / ·) (Val.scalar (maxAbs (func qp dofs) ^ 2)) (Val.map Real.sqrt unit)
    else Val.map2 (· / ·) (Val.scalar (maxAbs (func qp dofs))) unit)]
  compatibility := ["f", "<="]

/-- `generate_linf_norm_4`, quantity.py 367-435. -/
noncomputable def generateLinf4 (func : P → Dofs → Val) (aux : String) : Quantity P where
  rawF := fun qp dofs => Val.scalar (jmax ((func qp dofs).entries.map fun x => x ^ 4))
  approxF := fun qp dofs unit sp =>
    Val.scalar (linfLse (Val.map2 (· / ·) (Val.map (· ^ 2) (func qp dofs)) (Val.map (· ^ 2) unit)).entries
      sp.lseEpsilon ^ 2)
  slackF := fun _ dofs _ => Val.map (· ^ 2) (dofs aux)
  slackG := some fun qp dofs unit =>
    Val.map2 (· - ·) (Val.map2 (· / ·) (Val.map (· ^ 2) (func qp dofs)) (Val.map Real.sqrt unit)) (dofs aux)
  slackH := none
  slackInit := some [(aux, fun qp dofs unit =>
    Val.map2 (· / ·) (Val.scalar (jmax ((func qp dofs).entries.map fun x => x ^ 2))) (Val.map Real.sqrt unit))]
  compatibility := ["f", "<="]

/-- `jnp.sum(da * |v|) * nfp` of a scalar field. -/
noncomputable def l1Integral [HasQp P] (qp : P) (v : List ℝ) : ℝ :=
  (List.zipWith (· * ·) (HasQp.da qp) v).sum * HasQp.nfp qp

/-- `generate_l1_norm`, quantity.py 521-631, for scalar fields (for vector fields see `Model/Dipole.lean`). -/
noncomputable def generateL1 [HasQp P] (func : P → Dofs → Val) (aux : String) (positiveDefinite : Bool) :
    Quantity P where
  rawF := fun qp dofs => Val.scalar (l1Integral qp ((func qp dofs).entries.map fun x => |x|))
  approxF := fun qp dofs unit sp =>
    Val.map2 (· / ·) (Val.scalar (l1Integral qp ((func qp dofs).entries.map fun x => absLse x sp.lseEpsilon))) unit
  slackF := fun qp dofs _ => Val.scalar (l1Integral qp ((dofs aux).entries.map fun x => |x|))
  slackG := some fun qp dofs unit => slackIneq (func qp dofs) unit (dofs aux) positiveDefinite
  slackH := none
  slackInit := some [(aux, fun qp dofs unit =>
    Val.map2 (· / ·) (Val.map (fun x => |x|) (Val.array (func qp dofs).entries)) unit)]
  compatibility := ["f", "<="]

/-- `jnp.linalg.norm(v, axis=-1)` of the vector at one grid point. -/
noncomputable def vecNorm (v : List ℝ) : ℝ := Real.sqrt ((v.map fun x => x ^ 2).sum)

/-- `generate_huber`, quantity.py 437-519. `func` returns the list of vectors (one per grid point). The unit of this
quantity is a number: an array-valued unit cannot occur because the raw value is a scalar. -/
noncomputable def generateHuber [HasQp P] (func : P → Dofs → List (List ℝ)) : Quantity P where
  rawF := fun qp dofs => Val.scalar (l1Integral qp ((func qp dofs).map vecNorm))
  approxF := fun qp dofs unit sp => Val.scalar (huberSmooth qp (func qp dofs) (unit.entries.headD 0) sp.lseEpsilon)
  slackF := fun qp dofs unit => Val.scalar (huberSmooth qp (func qp dofs) (unit.entries.headD 0) (1 / 1000))
  slackG := none
  slackH := none
  slackInit := none
  compatibility := ["f", "<="]
where
  /-- quantity.py 483-497 -/
  huberSmooth (qp : P) (field : List (List ℝ)) (unit eps : ℝ) : ℝ :=
    l1Integral qp (field.map fun v => vecNorm (v.map fun x => x / unit + eps ^ 2) - eps)

end Quantity

/-! ## The constructor and its registry of auxiliary names (quantity.py 146-192) -/

/-- How an argument of the constructor can look as far as the checks can tell. -/
structure CtorArgs where
  /-- one of the four implementation arguments is itself a `_Quantity` -/
  someImplIsQuantity : Bool
  /-- `_scaled_slack_dofs_init`: `none` for `None`, `some none` for something that is not a dictionary,
  `some (some keys)` for a dictionary with these keys -/
  slackInit : Option (Option (List String))
  compatibility : List String

/-- `_Quantity.__init__`: given the class attribute `_used_aux_names` returns the new one. -/
def construct (used : List String) (a : CtorArgs) : Except PyErr (List String) :=
  if a.someImplIsQuantity then .error .typeError
  else match a.slackInit with
    | none => .ok used
    | some none => .error .typeError
    | some (some keys) =>
      if keys.any (fun k => used.contains k) then .error .valueError
      else if a.compatibility.any (fun c => ! ["<=", "==", ">=", "f"].contains c) then .error .valueError
      else .ok (used ++ keys)

/-- Auxiliary names owned by a successfully constructed quantity. -/
def CtorArgs.auxNames (a : CtorArgs) : List String :=
  match a.slackInit with
  | some (some keys) => keys
  | _ => []

/-- A program that constructs quantities one after the other, catching exceptions. Returns the final class attribute and
the arguments of the constructions that succeeded, in order. -/
def constructAll : List String → List CtorArgs → List String × List CtorArgs
  | used, [] => (used, [])
  | used, a :: rest =>
    match construct used a with
    | .error _ => constructAll used rest
    | .ok used' =>
      let r := constructAll used' rest
      (r.1, a :: r.2)

end Verif
