import Verif.Model.Quadcoil
import Verif.Model.Params
import Verif.Model.Problem

/-!
# A whole call of `quadcoil`: `/repo/src/quadcoil/quadcoil.py` 63-756, 941-1008

Default grids, the checks of the arguments, the parameter object, the unit of the potential, the problem handed to the solver, the
solution and the output dictionary. The gradients themselves are modelled in `ImplicitDiff.lean`; here only their keys occur. Printing,
compilation and the arguments without effect on the values (`convex`, `verbose`, `implicit_linear_solver`, `svtol`) are left out, as is
`gplus_mask`, which has its default. Real arithmetic.
-/

namespace Verif

/-- A `winding_surface_generator`: points of the plasma surface, distance, field periods, symmetry and resolution to coefficients. -/
abbrev Generator := List (List V3) → ℝ → ℕ → Bool → ℕ → ℕ → List ℝ

/-- The default values of the arguments for objective, constraints and solver, quadcoil.py 19-20, 75, 102-150. -/
noncomputable def defaultArgs : QuadcoilArgs where
  objectiveName := .one "f_B"
  objectiveUnit := .one .none
  objectiveWeight := .one 1
  constraintName := []
  constraintType := []
  constraintUnit := []
  constraintValue := []
  smoothing := some "slack"
  sp := ⟨1e-3⟩
  mergeConstraints := false
  phiInit := none
  cInit := 1
  cGrowth := 2
  xstopOuter := 1e-6
  ctolOuter := 1e-6
  fstopInner := 1e-6
  xstopInner := 1e-6
  gtolInner := 1e-6
  fstopInnerLast := 0
  xstopInnerLast := 1e-10
  gtolInnerLast := 1e-10
  maxiterTot := 10000
  maxiterInner := 1000

/-- The arguments of `quadcoil` with their defaults, quadcoil.py 63-150. `None` is `none`. -/
structure CallArgs where
  nfp : ℕ
  stellsym : Bool
  plasmaMpol : ℕ
  plasmaNtor : ℕ
  plasmaDofs : List ℝ
  netPoloidal : ℝ
  netToroidal : ℝ := 0
  mpol : ℕ := 6
  ntor : ℕ := 4
  quadpointsPhi : Option (List ℝ) := none
  quadpointsTheta : Option (List ℝ) := none
  phiUnit : Option ℝ := none
  plasmaStellsym : Bool := true
  plasmaQuadpointsPhi : Option (List ℝ) := none
  plasmaQuadpointsTheta : Option (List ℝ) := none
  bnormalPlasma : Option (List (List ℝ)) := none
  plasmaCoilDistance : Option ℝ := none
  generator : Generator
  windingDofs : Option (List ℝ) := none
  windingMpol : ℕ := 6
  windingNtor : ℕ := 5
  windingQuadpointsPhi : Option (List ℝ) := none
  windingQuadpointsTheta : Option (List ℝ) := none
  windingStellsym : Bool := true
  opts : QuadcoilArgs := defaultArgs
  metricName : OneOrMany String := .many ["f_B", "f_K"]
  valueOnly : Bool := false

namespace CallArgs

variable (a : CallArgs)

/-- `plasma_quadpoints_phi`, quadcoil.py 270-271. -/
noncomputable def pPhi : List ℝ := a.plasmaQuadpointsPhi.getD (defaultPlasmaPhi a.nfp)

/-- `plasma_quadpoints_theta`, quadcoil.py 272-273. -/
noncomputable def pTheta : List ℝ := a.plasmaQuadpointsTheta.getD defaultTheta

/-- `winding_quadpoints_phi`, quadcoil.py 274-275. -/
noncomputable def wPhi : List ℝ := a.windingQuadpointsPhi.getD (defaultWindingPhi a.nfp)

/-- `winding_quadpoints_theta`, quadcoil.py 276-277. -/
noncomputable def wTheta : List ℝ := a.windingQuadpointsTheta.getD defaultTheta

/-- `quadpoints_phi`, quadcoil.py 278-282. -/
noncomputable def ePhi : List ℝ := a.quadpointsPhi.getD (defaultEvalPhi a.nfp a.wPhi)

/-- `quadpoints_theta`, quadcoil.py 283-286. -/
noncomputable def eTheta : List ℝ := a.quadpointsTheta.getD a.wTheta

/-- A name or a tuple of names, as the checks see it. -/
def namesObj : OneOrMany String → PyObj
  | .one s => .str s
  | .many l => .tuple l.length

/-- A number or an array, as the checks see it. -/
def weightsObj : OneOrMany ℝ → PyObj
  | .one _ => .other
  | .many l => .array [l.length]

/-- A unit or a tuple of units, as the checks see it. -/
def unitsObj : OneOrMany UnitArg → PyObj
  | .one _ => .other
  | .many l => .tuple l.length

/-- The arguments passed to `_input_checking`, quadcoil.py 299-307. Constraints are given as tuples and an array. -/
def checked : CheckedArgs where
  plasmaCoilDistanceGiven := a.plasmaCoilDistance.isSome
  windingDofsGiven := a.windingDofs.isSome
  objectiveName := namesObj a.opts.objectiveName
  objectiveWeight := weightsObj a.opts.objectiveWeight
  objectiveUnit := unitsObj a.opts.objectiveUnit
  constraintName := .tuple a.opts.constraintName.length
  constraintType := .tuple a.opts.constraintType.length
  constraintUnit := .tuple a.opts.constraintUnit.length
  constraintValue := .array [a.opts.constraintValue.length]

/-- The plasma surface. -/
def plasmaShape : SurfaceShape := ⟨a.nfp, a.plasmaStellsym, a.plasmaMpol, a.plasmaNtor⟩

/-- `plasma_surface.gamma()`, surfacerzfourier_jax.py 181-182, in `y_to_qp`, quadcoil.py 430. -/
noncomputable def plasmaGamma : List (List V3) :=
  a.pPhi.map fun p => a.pTheta.map fun t => a.plasmaShape.gamma a.plasmaDofs p t

/-- The symmetry and the coefficients of the winding surface, quadcoil.py 418-444: a given surface has `winding_stellsym`, a generated
one `stellsym`, but is generated with the symmetry of the plasma surface. -/
noncomputable def windingData : Bool × List ℝ :=
  match a.plasmaCoilDistance with
  | none => (a.windingStellsym, a.windingDofs.getD [])
  | some d => (a.stellsym, a.generator a.plasmaGamma d a.nfp a.plasmaStellsym a.windingMpol a.windingNtor)

/-- The winding surface. -/
noncomputable def windingShape : SurfaceShape := ⟨a.nfp, a.windingData.1, a.windingMpol, a.windingNtor⟩

/-- `Bnormal_plasma_temp`, quadcoil.py 445-451. -/
noncomputable def bnormalArr : List (List ℝ) := a.bnormalPlasma.getD (a.pPhi.map fun _ => a.pTheta.map fun _ => 0)

/-- `y_to_qp`, quadcoil.py 408-465. -/
noncomputable def paramsObj : Except PyErr ParamsObj := do
  let p ← SurfaceObj.init a.nfp a.plasmaStellsym a.plasmaMpol a.plasmaNtor (.arr1 a.pPhi) (.arr1 a.pTheta) (.arr1 a.plasmaDofs)
  let w ← SurfaceObj.init a.nfp a.windingData.1 a.windingMpol a.windingNtor (.arr1 a.wPhi) (.arr1 a.wTheta) (.arr1 a.windingData.2)
  ParamsObj.init (.surf p) (.surf w) (.num a.netPoloidal) (.num a.netToroidal) (.arr2 a.bnormalArr) a.mpol a.ntor
    (.arr1 a.ePhi) (.arr1 a.eTheta) (some a.stellsym)

end CallArgs

/-- A child that is a number. -/
def Child.toNum : Child → ℝ
  | .num x => x
  | _ => 0

/-- The entries of a child that is an array, row by row. -/
def Child.toFlat : Child → List ℝ
  | .arr1 l => l
  | .arr2 l => l.flatten
  | _ => []

/-- The shape attributes of a surface object. -/
def SurfaceObj.shape (s : SurfaceObj) : SurfaceShape := ⟨s.nfp, s.stellsym, s.mpol, s.ntor⟩

/-- The attributes of a parameter object read by the quantities. -/
noncomputable def ParamsObj.toField (o : ParamsObj) : FieldProblem where
  cp := { surf := o.base.windingSurface.shape, wdofs := o.base.windingSurface.dofs, G := o.base.netPoloidal.toNum,
          I := o.base.netToroidal.toNum, mpol := o.mpol, ntor := o.ntor, stellsym := o.base.stellsym }
  wPhis := o.base.windingSurface.quadpointsPhi
  wThetas := o.base.windingSurface.quadpointsTheta
  ePhis := o.base.evalSurface.quadpointsPhi
  eThetas := o.base.evalSurface.quadpointsTheta
  plasma := ⟨o.base.plasmaSurface.shape, o.base.plasmaSurface.dofs, o.base.plasmaSurface.quadpointsPhi,
    o.base.plasmaSurface.quadpointsTheta⟩
  bPlasma := o.base.bnormalPlasma.toFlat

/-- The number of columns of the operator of a surface, surfacerzfourier_jax.py 392-472: evaluating a surface with another number of
coefficients raises `TypeError`. -/
noncomputable def SurfaceShape.columns (S : SurfaceShape) : ℕ := (S.rOperatorPadded 0 0 0 0).length

/-- Raise `TypeError` unless the condition holds. -/
noncomputable def requireShape (ok : Prop) [Decidable ok] : Except PyErr Unit := if ok then .ok () else .error .typeError

namespace CallArgs

variable (a : CallArgs)

/-- `phi_init`, quadcoil.py 538-539. -/
def phiInit : List ℝ := a.opts.phiInit.getD (List.replicate (cpNdofs a.stellsym a.mpol a.ntor).1 0)

/-- `phi_unit`, quadcoil.py 546-559. -/
noncomputable def unit (Q : FieldProblem) : ℝ :=
  a.phiUnit.getD (phiUnitAuto (Q.bnormal a.phiInit) a.plasmaCoilDistance a.plasmaNtor a.plasmaDofs a.windingNtor (a.windingDofs.getD []))

/-- The sizes needed to generate the winding surface, quadcoil.py 429-436: the plasma surface is evaluated. -/
noncomputable def generatorShapes : Except PyErr Unit :=
  if a.plasmaCoilDistance.isSome then requireShape (a.plasmaDofs.length = a.plasmaShape.columns) else .ok ()

/-- The sizes needed for the automatic unit of the potential, quadcoil.py 546-550: the normal field is evaluated, hence both surfaces. -/
noncomputable def unitShapes : Except PyErr Unit :=
  if a.phiUnit.isNone then do
    requireShape (a.plasmaDofs.length = a.plasmaShape.columns)
    requireShape (a.windingData.2.length = a.windingShape.columns)
    requireShape (a.bnormalArr.map List.length = a.pPhi.map fun _ => a.pTheta.length)
  else .ok ()

/-- quadcoil.py 268-624: everything up to the solver. With `nfp = 0` the default grids divide by zero, and so does the test in
`QuadcoilParams` if they are given. An initial potential of the wrong size does not fit the operators of any
quantity. Not modelled: a `Bnormal_plasma` of another shape that JAX broadcasts, and surfaces with wrong sizes that are evaluated
by the objective, a constraint or a metric only. -/
noncomputable def setup (reg : Registry FieldProblem) : Except PyErr (FieldProblem × Setup) := do
  if a.nfp = 0 then .error .zeroDivisionError else
  quadcoilChecks a.checked
  a.generatorShapes
  let o ← a.paramsObj
  let Q := o.toField
  let _ ← fghFromY reg Q a.opts
  requireShape (a.phiInit.length = o.ndofs)
  a.unitShapes
  let S ← quadcoilSetup reg Q a.opts (a.unit Q)
  .ok (Q, S)

/-- `metric_name` as a tuple, quadcoil.py 291-292. -/
def metrics : List String :=
  match a.metricName with
  | .one s => [s]
  | .many l => l

/-- What decides the keys of the gradients. -/
def yArgs : YArgs where
  objectiveIsString := match a.opts.objectiveName with
    | .one _ => true
    | .many _ => false
  nConstraints := a.opts.constraintName.length
  bnormalPlasmaGiven := a.bnormalPlasma.isSome
  plasmaCoilDistanceGiven := a.plasmaCoilDistance.isSome

end CallArgs

/-- `get_quantity(metric_name_i)(qp, dofs_opt)`, quadcoil.py 750, 947. -/
noncomputable def metricValue (reg : Registry FieldProblem) (Q : FieldProblem) (d : Dofs) (name : String) : Except PyErr Val := do
  let q ← getQuantity reg name
  .ok (q.call Q d)

/-- The output dictionary, quadcoil.py 744-756, 941-1008. -/
noncomputable def CallArgs.outDict (a : CallArgs) (reg : Registry FieldProblem) (Q : FieldProblem) (p : Fgh FieldProblem) (d : Dofs) :
    Except PyErr (List (String × MetricOut Val)) :=
  if a.valueOnly then valueOnlyOut (metricValue reg Q d) a.metrics
  else gradientOut (p.f d) (metricValue reg Q d) a.yArgs a.metrics

/-- The results of `quadcoil`. -/
structure CallOut where
  out : List (String × MetricOut Val)
  qp : FieldProblem
  dofs : Dofs
  results : SolveResults

/-- `quadcoil`, quadcoil.py 63-1008. `none` if the solver does not stop. -/
noncomputable def quadcoilCall (opt : Optimizer ℝ) (gradOp : (List ℝ → ℝ) → List ℝ → List ℝ) (reg : Registry FieldProblem)
    (a : CallArgs) : Except PyErr (Option CallOut) := do
  let (Q, S) ← a.setup reg
  let p ← fghFromY reg Q a.opts
  match quadcoilSolve opt gradOp S with
  | none => .ok none
  | some (r, d) =>
    let out ← a.outDict reg Q p d
    .ok (some ⟨out, Q, d, r⟩)

end Verif
