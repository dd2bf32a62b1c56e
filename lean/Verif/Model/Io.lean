import Verif.Model.Shipped
import Verif.Model.Api
import Verif.Model.Surface
import Verif.Model.Current

/-!
# Interfaces: `/repo/src/quadcoil/io/jax.py`, `io/desc.py`, `io/focus.py`, `io/simsopt.py` and the conversions to and from DESC in
`/repo/src/quadcoil/surfacerzfourier_jax.py`
-/

namespace Verif

/-! ## `gen_quadcoil_for_diff` -/

/-- `QUADCOIL_DIFF_ARGS`, io/jax.py 9-18. -/
def quadcoilDiffArgs : List String :=
  ["plasma_dofs", "net_poloidal_current_amperes", "net_toroidal_current_amperes", "Bnormal_plasma", "plasma_coil_distance",
    "winding_dofs", "objective_weight", "constraint_value"]

/-- `partial_kwargs`, io/jax.py 33-39. -/
def partialKwargs {V : Type} (kwargs : List (String × V)) : List (String × V) :=
  kwargs.filter fun kv => kv.1 ∉ quadcoilDiffArgs

/-- The keyword arguments bound by `partial(quadcoil, value_only=..., **partial_kwargs)`, io/jax.py 43-55. Python raises
`TypeError` when a keyword is given twice. -/
def boundKwargs {V : Type} (valueOnly : V) (kwargs : List (String × V)) : Except PyErr (List (String × V)) :=
  if "value_only" ∈ (partialKwargs kwargs).map Prod.fst then .error .typeError
  else .ok (("value_only", valueOnly) :: partialKwargs kwargs)

/-- The keyword arguments `quadcoil` receives when the generated function is called with the eight differentiable arguments,
io/jax.py 70-79 and 116-125: keywords of the call replace bound ones (there are none left with these names). -/
def calledKwargs {V : Type} (valueOnly : V) (kwargs : List (String × V)) (args : String → V) :
    Except PyErr (List (String × V)) := do
  let bound ← boundKwargs valueOnly kwargs
  .ok (bound.filter (fun kv => kv.1 ∉ quadcoilDiffArgs) ++ quadcoilDiffArgs.map fun k => (k, args k))

/-- A tangent of `objective_weight`: a number or an array. -/
inductive WeightDot where
  | scalar (t : ℝ)
  | array (t : List ℝ)

/-- `tangents`, io/jax.py 105-114. `none` is Python's `None`. Arrays are flattened. -/
structure Tangents where
  plasmaDofs : Option (List ℝ)
  netPoloidal : Option (List ℝ)
  netToroidal : Option (List ℝ)
  bnormalPlasma : Option (List ℝ)
  plasmaCoilDistance : Option (List ℝ)
  windingDofs : Option (List ℝ)
  objectiveWeight : Option WeightDot
  constraintValue : Option (List ℝ)

/-- `jnp.sum(a * b)` for arrays of equal shape. -/
noncomputable def sumMul (a b : List ℝ) : ℝ := (List.zipWith (· * ·) a b).sum

/-- `out_dict_full[key_i]['grad'][key]`. -/
def gradEntry (grad : List (String × List ℝ)) (key : String) : Except PyErr (List ℝ) :=
  match grad.lookup key with
  | some g => .ok g
  | none => .error .keyError

/-- `if x_dot is not None: jvp_i += jnp.sum(grad[key] * x_dot)`. -/
noncomputable def addTerm (grad : List (String × List ℝ)) (key : String) (dot : Option (List ℝ)) (acc : ℝ) : Except PyErr ℝ :=
  match dot with
  | none => .ok acc
  | some t => do
    let g ← gradEntry grad key
    .ok (acc + sumMul g t)

/-- `if not jnp.isscalar(objective_weight_dot)`, io/jax.py 147-150: the tangent of a scalar weight is skipped. -/
def weightTangent : Option WeightDot → Option (List ℝ)
  | some (.array t) => some t
  | _ => none

/-- `if len(constraint_value_dot) > 0`, io/jax.py 151-153: the tangent of an empty sequence is skipped. -/
def constraintTangent : Option (List ℝ) → Option (List ℝ)
  | some (a :: t) => some (a :: t)
  | _ => none

/-- The loop body of `quadcoil_for_diff_jvp` for one metric, io/jax.py 134-154. -/
noncomputable def jvpMetric (grad : List (String × List ℝ)) (T : Tangents) : Except PyErr ℝ := do
  let j ← addTerm grad "df_dplasma_dofs" T.plasmaDofs 0
  let j ← addTerm grad "df_dnet_poloidal_current_amperes" T.netPoloidal j
  let j ← addTerm grad "df_dnet_toroidal_current_amperes" T.netToroidal j
  let j ← addTerm grad "df_dBnormal_plasma" T.bnormalPlasma j
  let j ← addTerm grad "df_dplasma_coil_distance" T.plasmaCoilDistance j
  let j ← addTerm grad "df_dwinding_dofs" T.windingDofs j
  let j ← addTerm grad "df_dobjective_weight" (weightTangent T.objectiveWeight) j
  addTerm grad "df_dconstraint_value" (constraintTangent T.constraintValue) j

/-! ## Surfaces: conversion to and from DESC -/

section
variable {α : Type}

/-- Python `l[:-k]`. -/
def sliceTo (l : List α) (k : ℕ) : List α := if k = 0 then [] else l.take (l.length - k)

/-- Python `l[-k:]`. -/
def sliceFrom (l : List α) (k : ℕ) : List α := if k = 0 then l else l.drop (l.length - k)

end

/-- The coefficient arrays that `to_desc` passes to `ptolemy_identity_fwd` (with the mode numbers `mc`, `nc`). -/
structure DescBlocks where
  rc : List ℝ
  rs : List ℝ
  zc : List ℝ
  zs : List ℝ

/-- `to_desc`, surfacerzfourier_jax.py 126-145. -/
noncomputable def toDescBlocks (stellsym : Bool) (dofs : List ℝ) : DescBlocks :=
  if stellsym then
    let lenSin := dofs.length / 2
    let rc := sliceTo dofs lenSin
    let zs := sliceFrom dofs lenSin
    ⟨rc, rc.map fun _ => 0, rc.map fun _ => 0, 0 :: zs⟩
  else
    let halfLen := dofs.length / 2
    let lenSin := halfLen / 2
    let rcrs := dofs.take (halfLen / 2)
    let zczs := dofs.drop (halfLen / 2)
    ⟨sliceTo rcrs lenSin, 0 :: sliceFrom rcrs lenSin, sliceTo zczs lenSin, 0 :: sliceFrom zczs lenSin⟩

/-- `from_desc`, surfacerzfourier_jax.py 101-108: the degrees of freedom from the arrays that `ptolemy_identity_rev` returns. -/
def fromDescDofs (stellsym : Bool) (raw : DescBlocks) : List ℝ :=
  let rs := raw.rs.drop 1
  let zs := raw.zs.drop 1
  if stellsym then raw.rc ++ zs else raw.rc ++ rs ++ raw.zc ++ zs

/-! ## Current potential to simsopt -/

/-- The net currents of simsopt's `CurrentPotentialFourier`. -/
structure SimsoptCp where
  netPoloidal : ℝ
  netToroidal : ℝ
  dofs : List ℝ

/-- `quadcoil_to_simsopt_cp`, io/simsopt.py 9-18. -/
def toSimsoptCp (P : CpParams) (phi : List ℝ) : SimsoptCp := ⟨P.G, 0, phi⟩

/-! ## FOCUS files -/

/-- The number of modes declared in the second line of the file, io/focus.py 44: `len(surface.get_dofs())`. -/
def focusHeaderModes (dofs : List ℝ) : ℕ := dofs.length

/-- The mode rows `(n, m)` in the order they are written, io/focus.py 48-61. -/
def focusRows (S : SurfaceShape) : List (ℤ × ℤ) :=
  (arange 0 (S.mpol + 1)).flatMap fun m => (arange (-S.ntor) (S.ntor + 1)).map fun n => (n, m)

/-- The type of a surface. -/
inductive SurfaceType where
  | quadcoil | simsopt | desc
  deriving DecidableEq

/-- The type of the surface from which `save_focus` reads the coefficients, io/focus.py 21-39. -/
def focusWorkType : SurfaceType → SurfaceType
  | .quadcoil => .simsopt
  | .simsopt => .simsopt
  | .desc => .quadcoil

/-- Reading coefficients with `get_rc`, `get_rs`, ... (io/focus.py 50-53): only simsopt's class has these methods. -/
def focusReadCoefs (t : SurfaceType) : Except PyErr Unit :=
  match focusWorkType t with
  | .simsopt => .ok ()
  | _ => .error .attributeError

/-! ## `quadcoil_desc` -/

/-- The global names of io/desc.py (imports in lines 1-3 and functions in lines 6, 27 and 156). -/
def descGlobals : List String :=
  ["quadcoil", "SurfaceRZFourierJAX", "get_quantity", "jnp", "mu_0", "generate_desc_scaling", "quadcoil_desc",
    "load_FourierCurrentPotentialField"]

/-- Evaluation of a global name. -/
def evalGlobal (globals : List String) (name : String) : Except PyErr Unit :=
  if name ∈ globals then .ok () else .error .nameError

/-- `quadcoil_desc`, io/desc.py 59-154, after DESC was imported and the equilibrium was read: line 114 evaluates
`_DESC_DERIVED_ARGNAMES`; `run` is the remaining computation. -/
def quadcoilDesc {β : Type} (run : Except PyErr β) : Except PyErr β := do
  evalGlobal descGlobals "_DESC_DERIVED_ARGNAMES"
  run

/-- Evaluation of a name inside a function: local names, then global ones. -/
def evalName (locals globals : List String) (name : String) : Except PyErr Unit :=
  if name ∈ locals then .ok () else evalGlobal globals name

/-- The local names of `load_FourierCurrentPotentialField` when line 177 is reached: the arguments (line 156) and the names assigned in
lines 157-176. -/
def loadLocals : List String :=
  ["eq", "scf", "winding_quadpoints_phi", "winding_quadpoints_theta", "source_grid", "ptolemy_identity_rev", "mm", "nn", "phis_raw",
    "phic_raw", "mpol", "ntor", "stellsym", "nfp", "phic", "phis", "phi"]

/-- `load_FourierCurrentPotentialField`, io/desc.py 156-195, after DESC was imported: `convert` stands for lines 164-176, `grids` for
lines 177-188 after the first name of the condition was evaluated, `surface` for the call in lines 190-194 after its first argument
was. Line 195 returns the name `qp`. -/
def loadCurrentPotential {α β γ : Type} (convert : Except PyErr α) (grids : α → Except PyErr β) (surface : β → Except PyErr γ) :
    Except PyErr α := do
  let phi ← convert
  evalName loadLocals descGlobals "quadpoints_phi"
  let g ← grids phi
  evalName (loadLocals ++ ["winding_quadpoints_phi_temp", "winding_quadpoints_theta_temp"]) descGlobals "scf_nescoil"
  let _ ← surface g
  evalName (loadLocals ++ ["winding_quadpoints_phi_temp", "winding_quadpoints_theta_temp", "winding_surface"]) descGlobals "qp"
  .ok phi

/-- The global names of quantity/regularization.py (imports in lines 1-4, definitions in lines 7, 13, 16 and the function decorated in
line 7). -/
def regularizationGlobals : List String := ["jnp", "jit", "_Quantity", "_Phi_coeff", "_Phi_coeff_unit", "f_max_phi_dof"]

/-- `_Phi_coeff_unit`, quantity/regularization.py 13: the product of `_K_desc_unit(scales)` and `scales["a"]`. -/
noncomputable def phiCoeffUnit (mu0 : ℝ) (s : Scales) : Except PyErr ℝ := do
  evalGlobal regularizationGlobals "_K_desc_unit"
  .ok (kUnit mu0 s * s.a)

/-- `generate_desc_scaling`, io/desc.py 12-24. `unit` is `lambda name: get_quantity(name).desc_unit(scales)`. -/
def generateDescScaling (unit : String → Except PyErr ℝ) (objectiveName : OneOrMany String) (constraintName : List String) :
    Except PyErr (OneOrMany ℝ × List ℝ) := do
  let o ← match objectiveName with
    | .one s => do
      let u ← unit s
      .ok (OneOrMany.one u)
    | .many ns => do
      let us ← ns.mapM unit
      .ok (OneOrMany.many us)
  let c ← constraintName.mapM unit
  .ok (o, c)

/-- `desc_net_poloidal_current_amperes` of `quadcoil_desc`, io/desc.py 88-93. `G` is the quantity `G` of DESC at the plasma boundary: the
circulation of the field along a toroidal turn, over `2 pi`. -/
noncomputable def descNetPoloidal (mu0 G : ℝ) : ℝ := -G / mu0 * 2 * Real.pi

end Verif
