import Verif.Model.Wrapper
import Verif.Model.Api
import Verif.Model.Solver

/-!
# The function `quadcoil` from the parsed arguments to the solution: `/repo/src/quadcoil/quadcoil.py` 466-742

The argument checks (287-307), the construction of the problem (`y_to_qp`, 400-465) and the output dictionary (744-1008) are
modelled elsewhere (`Api.lean`, `Params.lean`, `Problem.lean`, `ImplicitDiff.lean`); printing is not modelled. Real arithmetic.
-/

namespace Verif

variable {P : Type}

/-- The arguments of `quadcoil` that define objective, constraints and solver settings (quadcoil.py 102-150). -/
structure QuadcoilArgs where
  objectiveName : OneOrMany String
  objectiveUnit : OneOrMany UnitArg
  objectiveWeight : OneOrMany ℝ
  constraintName : List String
  constraintType : List String
  constraintUnit : List UnitArg
  constraintValue : List ℝ
  smoothing : Option String
  sp : SmoothingParams
  mergeConstraints : Bool
  phiInit : Option (List ℝ)
  cInit : ℝ
  cGrowth : ℝ
  xstopOuter : ℝ
  ctolOuter : ℝ
  fstopInner : ℝ
  xstopInner : ℝ
  gtolInner : ℝ
  fstopInnerLast : ℝ
  xstopInnerLast : ℝ
  gtolInnerLast : ℝ
  maxiterTot : ℕ
  maxiterInner : ℕ

/-- The six results of `f_g_ineq_h_eq_from_y`. -/
structure Fgh (P : Type) where
  f : Dofs → Val
  g : Dofs → Except PyErr (List ℝ)
  h : Dofs → Except PyErr (List ℝ)
  nG : ℕ
  nH : ℕ
  slack : List (String × (P → Dofs → Val))

/-- `f_g_ineq_h_eq_from_y`, quadcoil.py 473-528, at one parameter object. A string objective has no weight (313, 486), and without
constraints the list of values is empty (315, 490). -/
noncomputable def fghFromY [HasQp P] (reg : Registry P) (qp : P) (a : QuadcoilArgs) : Except PyErr (Fgh P) := do
  let weight : OneOrMany ℝ := match a.objectiveName with
    | .one _ => .one 1
    | .many _ => a.objectiveWeight
  let value : List ℝ := if a.constraintName.length > 0 then a.constraintValue else []
  let o ← parseObjectives reg a.objectiveName a.objectiveUnit weight a.smoothing a.sp
  let c ← parseConstraints reg a.constraintName a.constraintType a.constraintUnit value a.smoothing a.sp
  let j := joinParsed o c
  .ok {
    f := fun x => j.f qp x
    g := fun x => mergeCallables (j.g.map some) a.mergeConstraints a.smoothing a.sp qp x
    h := fun x => mergeCallables (j.h.map some) false none a.sp qp x
    nG := if a.mergeConstraints then 1 else j.g.length
    nH := j.h.length
    slack := j.slack }

/-- The order in which JAX lists the leaves of a dictionary: sorted keys. -/
def sortKeys {β : Type} (d : List (String × β)) : List (String × β) := d.mergeSort fun a b => decide (a.1 ≤ b.1)

/-- `x_dict` in the order of its leaves, quadcoil.py 572-601. -/
noncomputable def xTemplate (qp : P) (phiInit : List ℝ) (phiUnit : ℝ) (slack : List (String × (P → Dofs → Val))) :
    List (String × Val) :=
  sortKeys (("phi_scaled", Val.array (phiInit.map fun t => t / phiUnit)) ::
    slack.map fun kv => (kv.1, kv.2 qp (phiOnly (Val.array phiInit))))

/-- A dictionary as a map. Other keys hold an arbitrary value. -/
def toDofs (d : List (String × Val)) : Dofs := fun k => (d.lookup k).getD (Val.scalar 0)

/-- `unravel_unscale_x` as a map, quadcoil.py 608-614. -/
noncomputable def dofsOf (template : List (String × Val)) (phiUnit : ℝ) (x : List ℝ) : Dofs :=
  toDofs ((unravelUnscale template phiUnit x).getD [])

/-- The value of a list-valued function that does not raise. -/
def okList : Except PyErr (List ℝ) → List ℝ
  | .ok l => l
  | .error _ => []

/-- What is passed to the solver. -/
structure Setup where
  template : List (String × Val)
  phiUnit : ℝ
  unconstrained : Bool
  x0 : List ℝ
  problem : Problem ℝ

/-- quadcoil.py 530-624: initial vector, `f_scaled`, `g_scaled`, `h_scaled`, `mu_init`, `lam_init`. `phiUnit` is the scale of the
potential, given or automatic (`phiUnitAuto`). `eval_shape` raises the errors of the constraint functions; an objective that is
not a number makes `jax.grad` raise `TypeError`. -/
noncomputable def quadcoilSetup [HasQp P] (reg : Registry P) (qp : P) (a : QuadcoilArgs) (phiUnit : ℝ) : Except PyErr Setup := do
  let p ← fghFromY reg qp a
  let phiInit := a.phiInit.getD (List.replicate (HasQp.ndofs qp) 0)
  let template := xTemplate qp phiInit phiUnit p.slack
  let x0 := ravel template
  let g0 ← p.g (dofsOf template phiUnit x0)
  let h0 ← p.h (dofsOf template phiUnit x0)
  if (p.f (dofsOf template phiUnit x0)).isScalar = false then .error .typeError
  else .ok {
    template := template
    phiUnit := phiUnit
    unconstrained := p.nG == 0 && p.nH == 0
    x0 := x0
    problem := {
      f := fun x => (p.f (dofsOf template phiUnit x)).entries.headD 0
      g := fun x => okList (p.g (dofsOf template phiUnit x))
      h := fun x => okList (p.h (dofsOf template phiUnit x))
      cInit := a.cInit
      cGrowth := a.cGrowth
      lamInit := List.replicate h0.length 0
      muInit := List.replicate g0.length 0
      xstopOuter := a.xstopOuter
      ctolOuter := a.ctolOuter
      fstopInner := a.fstopInner
      xstopInner := a.xstopInner
      gtolInner := a.gtolInner
      fstopInnerLast := a.fstopInnerLast
      xstopInnerLast := a.xstopInnerLast
      gtolInnerLast := a.gtolInnerLast
      maxiterTot := a.maxiterTot
      maxiterInner := a.maxiterInner
      cSafe := 1e15 } }

/-- `solve_results`: of the unconstrained or of the constrained path. -/
inductive SolveResults where
  | inner (r : InnerResult ℝ)
  | outer (s : Status ℝ)

/-- `x_flat_opt`. -/
def SolveResults.x : SolveResults → List ℝ
  | .inner r => r.x
  | .outer s => s.finX

/-- quadcoil.py 643-742: the unconstrained path minimises directly (with `gtol_inner`, 653), the other one calls
`solve_constrained` with the default mask. `none` if the solver does not stop. Second result: `dofs_opt`. -/
noncomputable def quadcoilSolve (opt : Optimizer ℝ) (gradOp : (List ℝ → ℝ) → List ℝ → List ℝ) (s : Setup) :
    Option (SolveResults × Dofs) :=
  (if s.unconstrained then
    (runOpt opt gradOp s.problem.f s.x0 ⟨s.problem.maxiterTot, s.problem.fstopInnerLast, s.problem.xstopInnerLast,
      s.problem.gtolInner⟩).map SolveResults.inner
  else
    (solveConstrained opt gradOp s.problem gplusHard s.x0).map SolveResults.outer).map
  fun r => (r, dofsOf s.template s.phiUnit r.x)

end Verif
