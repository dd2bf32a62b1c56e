import Verif.Model.Field
import Verif.Model.Quantity

/-!
# Parameter objects as JAX pytrees

Constructors, `tree_flatten` and `tree_unflatten` of `SurfaceRZFourierJAX` (`/repo/src/quadcoil/surfacerzfourier_jax.py`) and
of `QuadcoilParams`, `QuadcoilParamsFiniteElement` (`/repo/src/quadcoil/quadcoil_params.py`).
-/

namespace Verif

/-- A `SurfaceRZFourierJAX` object with all attributes, derived ones included. -/
structure SurfaceObj where
  nfp : ℕ
  stellsym : Bool
  mpol : ℕ
  ntor : ℕ
  dofs : List ℝ
  quadpointsPhi : List ℝ
  quadpointsTheta : List ℝ
  thetaMesh : List (List ℝ)
  phiMesh : List (List ℝ)
  dphi : ℝ
  dtheta : ℝ

/-- A child of a pytree node, or `None`. -/
inductive Child where
  | none
  | arr1 (a : List ℝ)
  | arr2 (a : List (List ℝ))
  | num (x : ℝ)
  | surf (s : SurfaceObj)

/-- The value of an entry of `aux_data`. -/
inductive Aux where
  | int (n : ℕ)
  | bool (b : Bool)

/-- `children[i]`. -/
def childAt (l : List Child) (i : ℕ) : Except PyErr Child :=
  match l[i]? with
  | some c => .ok c
  | Option.none => .error .indexError

/-- `aux_data[key]` holding an integer. -/
def auxInt (aux : List (String × Aux)) (key : String) : Except PyErr ℕ :=
  match aux.lookup key with
  | some (.int n) => .ok n
  | some (.bool _) => .error .typeError
  | Option.none => .error .keyError

/-- `aux_data[key]` holding a boolean. -/
def auxBool (aux : List (String × Aux)) (key : String) : Except PyErr Bool :=
  match aux.lookup key with
  | some (.bool b) => .ok b
  | some (.int _) => .error .typeError
  | Option.none => .error .keyError

/-- `is_ndarray`, math_utils.py 13-14: a one-dimensional array, else the constructor raises `TypeError`. -/
def requireArr1 : Child → Except PyErr (List ℝ)
  | .arr1 a => .ok a
  | _ => .error .typeError

/-- `SurfaceRZFourierJAX.__init__`, surfacerzfourier_jax.py 10-27. -/
noncomputable def SurfaceObj.init (nfp : ℕ) (stellsym : Bool) (mpol ntor : ℕ) (phi theta dofs : Child) :
    Except PyErr SurfaceObj := do
  let p ← requireArr1 phi
  let t ← requireArr1 theta
  let d ← requireArr1 dofs
  .ok { nfp := nfp, stellsym := stellsym, mpol := mpol, ntor := ntor, dofs := d, quadpointsPhi := p, quadpointsTheta := t,
        thetaMesh := p.map fun _ => t, phiMesh := p.map fun x => t.map fun _ => x,
        dphi := gridStep p, dtheta := gridStep t }

/-- `SurfaceRZFourierJAX.tree_flatten`, surfacerzfourier_jax.py 344-360. -/
def SurfaceObj.flatten (s : SurfaceObj) : List Child × List (String × Aux) :=
  ([.arr1 s.quadpointsPhi, .arr1 s.quadpointsTheta, .arr1 s.dofs, .arr2 s.thetaMesh, .arr2 s.phiMesh, .num s.dphi,
    .num s.dtheta],
   [("nfp", .int s.nfp), ("stellsym", .bool s.stellsym), ("mpol", .int s.mpol), ("ntor", .int s.ntor)])

/-- `SurfaceRZFourierJAX.tree_unflatten`, surfacerzfourier_jax.py 362-372. -/
noncomputable def SurfaceObj.unflatten (children : List Child) (aux : List (String × Aux)) : Except PyErr SurfaceObj := do
  SurfaceObj.init (← auxInt aux "nfp") (← auxBool aux "stellsym") (← auxInt aux "mpol") (← auxInt aux "ntor")
    (← childAt children 0) (← childAt children 1) (← childAt children 2)

/-- `copy_and_set_quadpoints`, surfacerzfourier_jax.py 29-38. -/
noncomputable def SurfaceObj.copyAndSetQuadpoints (s : SurfaceObj) (phi theta : Child) : Except PyErr SurfaceObj :=
  SurfaceObj.init s.nfp s.stellsym s.mpol s.ntor phi theta (.arr1 s.dofs)

/-- The attributes set by `_Params.__init__`. -/
structure BaseParams where
  plasmaSurface : SurfaceObj
  windingSurface : SurfaceObj
  evalSurface : SurfaceObj
  netPoloidal : Child
  netToroidal : Child
  bnormalPlasma : Child
  quadpointsPhi : Child
  quadpointsTheta : Child
  stellsym : Bool

/-- An argument that may be a surface; anything else fails when an attribute is read. -/
def requireSurf : Child → Except PyErr SurfaceObj
  | .surf s => .ok s
  | _ => .error .attributeError

/-- `if x is None: x = default`. -/
def Child.orDefault (x default : Child) : Child :=
  match x with
  | .none => default
  | c => c

/-- `_Params.__init__`, quadcoil_params.py 21-61. `stellsym = none` is the default `None`. -/
noncomputable def BaseParams.init (plasma winding poloidal toroidal bnormal phi theta : Child) (stellsym : Option Bool) :
    Except PyErr BaseParams := do
  let w ← requireSurf winding
  if w.quadpointsPhi.length % w.nfp ≠ 0 then .error .assertionError else
  let p ← requireSurf plasma
  let st := match stellsym with
    | some b => b
    | Option.none => w.stellsym && p.stellsym
  let qphi := phi.orDefault (.arr1 (w.quadpointsPhi.take (w.quadpointsPhi.length / w.nfp)))
  let qtheta := theta.orDefault (.arr1 w.quadpointsTheta)
  let bn := bnormal.orDefault (.arr2 (p.quadpointsPhi.map fun _ => p.quadpointsTheta.map fun _ => 0))
  let e ← w.copyAndSetQuadpoints qphi qtheta
  .ok { plasmaSurface := p, windingSurface := w, evalSurface := e, netPoloidal := poloidal, netToroidal := toroidal,
        bnormalPlasma := bn, quadpointsPhi := qphi, quadpointsTheta := qtheta, stellsym := st }

/-- A `QuadcoilParams` object. -/
structure ParamsObj where
  base : BaseParams
  mpol : ℕ
  ntor : ℕ
  ndofs : ℕ
  ndofsHalf : ℕ

/-- `QuadcoilParams.__init__`, quadcoil_params.py 135-162. -/
noncomputable def ParamsObj.init (plasma winding poloidal toroidal bnormal : Child) (mpol ntor : ℕ) (phi theta : Child)
    (stellsym : Option Bool) : Except PyErr ParamsObj := do
  let b ← BaseParams.init plasma winding poloidal toroidal bnormal phi theta stellsym
  .ok { base := b, mpol := mpol, ntor := ntor, ndofs := (cpNdofs b.stellsym mpol ntor).1,
        ndofsHalf := (cpNdofs b.stellsym mpol ntor).2 }

/-- The children of `QuadcoilParams.tree_flatten` (quadcoil_params.py 183-192) and of the finite element variant (487-496). -/
def BaseParams.children (b : BaseParams) : List Child :=
  [.surf b.plasmaSurface, .surf b.windingSurface, .surf b.evalSurface, b.netPoloidal, b.netToroidal, b.bnormalPlasma,
   b.quadpointsPhi, b.quadpointsTheta]

/-- `QuadcoilParams.tree_flatten`, quadcoil_params.py 182-203. -/
def ParamsObj.flatten (o : ParamsObj) : List Child × List (String × Aux) :=
  (o.base.children,
   [("stellsym", .bool o.base.stellsym), ("mpol", .int o.mpol), ("ntor", .int o.ntor), ("ndofs", .int o.ndofs),
    ("ndofs_half", .int o.ndofsHalf)])

/-- `QuadcoilParams.tree_unflatten`, quadcoil_params.py 168-180. -/
noncomputable def ParamsObj.unflatten (children : List Child) (aux : List (String × Aux)) : Except PyErr ParamsObj := do
  ParamsObj.init (← childAt children 0) (← childAt children 1) (← childAt children 3) (← childAt children 4)
    (← childAt children 5) (← auxInt aux "mpol") (← auxInt aux "ntor") (← childAt children 6) (← childAt children 7)
    (some (← auxBool aux "stellsym"))

/-- The attribute names of a `QuadcoilParamsFiniteElement` object: those assigned in `_Params.__init__`
(quadcoil_params.py 34-61), the property `nfp` (63-65) and its own methods (473-505). -/
def finiteElementAttributes : List String :=
  ["plasma_surface", "winding_surface", "net_poloidal_current_amperes", "net_toroidal_current_amperes", "Bnormal_plasma",
   "stellsym", "quadpoints_phi", "quadpoints_theta", "eval_surface", "nfp", "tree_unflatten", "tree_flatten"]

/-- Reading the attributes `names` of an object having the attributes `attrs`, in order. -/
def readAttributes (attrs names : List String) : Except PyErr Unit :=
  names.forM fun n => if n ∈ attrs then .ok () else .error .attributeError

/-- `QuadcoilParamsFiniteElement.tree_flatten`, quadcoil_params.py 486-505: the attributes read, in order; the result, when
there is one, is `children` and `aux`. -/
def BaseParams.flattenFiniteElement (b : BaseParams) (aux : List (String × Aux)) :
    Except PyErr (List Child × List (String × Aux)) := do
  readAttributes finiteElementAttributes ["plasma_surface", "winding_surface", "eval_surface", "net_poloidal_current_amperes",
    "net_toroidal_current_amperes", "Bnormal_plasma", "quadpoints_phi", "quadpoints_theta", "stellsym", "ndofs", "ndofs_half"]
  .ok (b.children, aux)

end Verif
