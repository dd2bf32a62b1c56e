import Verif.Model.Num
import Verif.Model.While

/-!
# Model of `/repo/src/quadcoil/solver.py`

Vectors are lists. Printing (`verbose`) is not modelled. JAX's `jit` is the identity.
-/

namespace Verif

variable {α : Type} [Num α]

/-- An optax gradient transformation (`opt.init`, `opt.update`) with the state entries that
solver.py reads through `otu.tree_get` / `value_and_grad_from_state`: `count`, `value` and `grad`.
The transformation itself (optax.lbfgs with a zoom line search, solver.py lines 73-78) is external code. -/
structure Optimizer (α : Type) where
  State : Type
  init : List α → State
  /-- `update grad state params value value_fn` returns the updates and the new state. -/
  update : List α → State → List α → α → (List α → α) → List α × State
  count : State → ℕ
  value : State → α
  /-- The stored value is neither infinite nor NaN (optax stores `inf` before the first update). -/
  valueFinite : State → Bool
  grad : State → List α

/-- Contract of optax's iteration counter: starts at 0 and each `update` adds 1. -/
structure Optimizer.CountContract (opt : Optimizer α) : Prop where
  init_count : ∀ p, opt.count (opt.init p) = 0
  update_count : ∀ g s p v f, opt.count (opt.update g s p v f).2 = opt.count s + 1

/-- Contract of the value stored by optax's zoom line search: at initialisation it is not finite
(it is `inf`), after an update it is the objective at the updated parameters. -/
structure Optimizer.ValueContract (opt : Optimizer α) : Prop where
  init_value : ∀ p, opt.valueFinite (opt.init p) = false
  update_value : ∀ g s p v f,
    opt.value (opt.update g s p v f).2 = f (Num.vadd p (opt.update g s p v f).1)

/-- Carry of the inner loop (solver.py lines 125-135, 142). -/
structure Carry (opt : Optimizer α) where
  params : List α
  updates : List α
  value : α
  valRec : List α
  dx : List α
  du : List α
  df : α
  state : opt.State

/-- Tolerances and budget of one call of the inner minimiser (solver.py line 83). -/
structure InnerTol (α : Type) where
  maxiter : ℕ
  fstop : α
  xstop : α
  gtol : α

/-- What `run_opt_optax` returns (solver.py lines 218-226). -/
structure InnerResult (α : Type) where
  x : List α
  value : α
  grad : List α
  count : ℕ
  dx : α
  du : α
  df : α

/-- The initial value record, solver.py line 129: `linspace(1000*fstop, 0, n_history) + init_val*2`. -/
def initValRec (fstop initVal : α) (nHistory : ℕ) : List α :=
  (Num.linspace (Num.mul (Num.ofNat 1000) fstop) (Num.ofNat 0) nHistory).map fun t =>
    Num.add t (Num.mul initVal (Num.ofNat 2))

/-- The initial carry, solver.py lines 124-135. -/
def initCarry (opt : Optimizer α) (f : List α → α) (x0 : List α) (fstop : α) (nHistory : ℕ) : Carry opt where
  params := x0
  updates := x0.map fun _ => Num.ofNat 0
  value := f x0
  valRec := initValRec fstop (f x0) nHistory
  dx := x0.map fun _ => Num.ofNat 0
  du := x0.map fun _ => Num.ofNat 0
  df := Num.ofNat 0
  state := opt.init x0

/-- `optax.value_and_grad_from_state(fun)` (solver.py lines 139, 145): reuse the stored value and gradient
if the stored value is finite, otherwise evaluate. `gradOp` is `jax.grad`. -/
def valueAndGradFromState (opt : Optimizer α) (gradOp : (List α → α) → List α → List α) (f : List α → α)
    (p : List α) (s : opt.State) : α × List α :=
  if opt.valueFinite s then (opt.value s, opt.grad s) else (f p, gradOp f p)

/-- One iteration, solver.py lines 143-160. -/
def innerStep (opt : Optimizer α) (gradOp : (List α → α) → List α → List α) (f : List α → α)
    (c : Carry opt) : Carry opt :=
  let vg := valueAndGradFromState opt gradOp f c.params c.state
  let us := opt.update vg.2 c.state c.params vg.1 f
  let params2 := Num.vadd c.params us.1
  { params := params2
    updates := us.1
    value := vg.1
    valRec := c.valRec.tail ++ [vg.1]
    dx := Num.vabs (Num.vsub params2 c.params)
    du := Num.vabs (Num.vsub us.1 c.updates)
    df := Num.abs (Num.sub vg.1 c.value)
    state := us.2 }

/-- `jnp.average(val_rec[:-1] - val_rec[1:])`, solver.py line 173. -/
def avgImprovement (valRec : List α) : α := Num.average (Num.vsub valRec.dropLast valRec.tail)

/-- The loop guard, solver.py lines 162-214. -/
def innerContinue (opt : Optimizer α) (tol : InnerTol α) (c : Carry opt) : Bool :=
  (opt.count c.state == 0) ||
    (decide (opt.count c.state < tol.maxiter)
      && Num.lt tol.gtol (Num.norm (opt.grad c.state))
      && Num.lt tol.fstop (avgImprovement c.valRec)
      && (Num.lt tol.xstop (Num.norm c.dx) || Num.lt tol.xstop (Num.norm c.du) || Num.lt tol.fstop c.df))

/-- The final carry of `run_opt_optax`, solver.py lines 124-217 (`n_history = 10`, the default, which is what
`run_opt_lbfgs` uses). -/
noncomputable def runOptCarry (opt : Optimizer α) (gradOp : (List α → α) → List α → List α) (f : List α → α)
    (x0 : List α) (tol : InnerTol α) : Option (Carry opt) :=
  whileLoop (innerContinue opt tol) (fun c => some (innerStep opt gradOp f c)) (initCarry opt f x0 tol.fstop 10)

/-- The returned tuple, solver.py lines 218-226. -/
def Carry.result {opt : Optimizer α} (c : Carry opt) : InnerResult α where
  x := c.params
  value := c.value
  grad := opt.grad c.state
  count := opt.count c.state
  dx := Num.norm c.dx
  du := Num.norm c.du
  df := c.df

/-- `run_opt_lbfgs` / `run_opt_optax`, solver.py lines 25-226. -/
noncomputable def runOpt (opt : Optimizer α) (gradOp : (List α → α) → List α → List α) (f : List α → α)
    (x0 : List α) (tol : InnerTol α) : Option (InnerResult α) :=
  (runOptCarry opt gradOp f x0 tol).map Carry.result

/-- `gplus_hard`, solver.py line 231, as a function of `g_ineq(x)`, `mu` and `c`:
`jnp.maximum(g_ineq(x), -mu/c)`. -/
def gplusHard (g mu : List α) (c : α) : List α :=
  List.zipWith (fun gi mi => Num.max gi (Num.div (Num.neg mi) c)) g mu

/-- A constrained problem and its solver settings (arguments of `solve_constrained`, solver.py lines 245-278). -/
structure Problem (α : Type) where
  f : List α → α
  g : List α → List α
  h : List α → List α
  cInit : α
  cGrowth : α
  lamInit : List α
  muInit : List α
  xstopOuter : α
  ctolOuter : α
  fstopInner : α
  xstopInner : α
  gtolInner : α
  fstopInnerLast : α
  xstopInnerLast : α
  gtolInnerLast : α
  maxiterTot : ℕ
  maxiterInner : ℕ
  cSafe : α

/-- The status dictionary, solver.py lines 576-597 and 599-620. -/
structure Status (α : Type) where
  totNiter : ℕ
  outerDx : α
  outerDf : α
  outerDg : α
  outerDh : α
  finF : α
  finG : List α
  finH : List α
  finX : List α
  finLAug : α
  finGradLAug : α
  finC : α
  finLam : List α
  finMu : List α
  finNiter : ℕ
  finDxScaled : α
  finDu : α
  finDl : α
  xUnit : α

/-- The augmented Lagrangian as a function of the unscaled point `y = x*x_unit`, solver.py lines 476-484.
`gplus` is the mask (`gplus_mask`), applied to the value of `g`. -/
def augLag (p : Problem α) (gplus : List α → List α → α → List α) (lam mu : List α) (c : α) (y : List α) : α :=
  Num.add
    (Num.add (Num.add (p.f y) (Num.dot lam (p.h y))) (Num.dot mu (gplus (p.g y) mu c)))
    (Num.mul (Num.div c (Num.ofNat 2))
      (Num.add (Num.sum ((p.h y).map fun t => Num.mul t t))
        (Num.sum ((gplus (p.g y) mu c).map fun t => Num.mul t t))))

/-- `l_k(x) = augLag(x*x_unit)`, solver.py lines 476-484. -/
def innerObjective (p : Problem α) (gplus : List α → List α → α → List α) (s : Status α) (x : List α) : α :=
  augLag p gplus s.finLam s.finMu s.finC (Num.vscale x s.xUnit)

/-- `outer_convergence_criterion` (true: continue), solver.py lines 404-452. -/
def outerContinue (p : Problem α) (s : Status α) : Bool :=
  (s.totNiter == 0) ||
    (decide (s.totNiter < p.maxiterTot) &&
      (Num.le p.xstopOuter s.outerDx ||
        ((s.finG.any (fun gi => Num.le p.ctolOuter gi) || s.finH.any (fun hi => Num.le p.ctolOuter (Num.abs hi)))
          && Num.le s.finC p.cSafe)))

/-- `update_multiplier`, solver.py lines 505-513. -/
def updateMultiplier (p : Problem α) (g h : List α) (c : α) (niterInner : ℕ) : Bool :=
  (g.all (fun gi => Num.lt gi p.ctolOuter) && h.all (fun hi => Num.lt (Num.abs hi) p.ctolOuter))
    || Num.le p.cSafe c || decide (p.maxiterInner ≤ niterInner)

/-- The part of `body_fun_augmented_lagrangian` after the inner solve, solver.py lines 492-598. `jnp.linalg.norm`
of the scalar `f_km1 - f_k` is its absolute value. -/
def outerUpdate (p : Problem α) (gplus : List α → List α → α → List α) (s : Status α) (r : InnerResult α) :
    Status α :=
  let xk := Num.vscale r.x s.xUnit
  let xnorm := Num.norm xk
  let fk := p.f xk
  let gk := p.g xk
  let hk := p.h xk
  let gpk := gplus gk s.finMu s.finC
  { totNiter := s.totNiter + r.count
    outerDx := Num.norm (Num.vsub xk s.finX)
    outerDf := Num.abs (Num.sub s.finF fk)
    outerDg := Num.norm (Num.vsub s.finG gk)
    outerDh := Num.norm (Num.vsub s.finH hk)
    finF := fk
    finG := gk
    finH := hk
    finX := xk
    finLAug := r.value
    finGradLAug := Num.norm r.grad
    finC := if updateMultiplier p gk hk s.finC r.count then s.finC else Num.mul s.finC p.cGrowth
    finLam := Num.vadd s.finLam (hk.map fun t => Num.mul s.finC t)
    finMu := Num.vadd s.finMu (gpk.map fun t => Num.mul s.finC t)
    finNiter := r.count
    finDxScaled := r.dx
    finDu := r.du
    finDl := r.df
    xUnit := if Num.eq xnorm (Num.ofNat 0) then Num.ofNat 1 else xnorm }

/-- `body_fun_augmented_lagrangian`, solver.py lines 456-598. `none` if the inner solve diverges. -/
noncomputable def outerBody (opt : Optimizer α) (gradOp : (List α → α) → List α → List α) (p : Problem α)
    (gplus : List α → List α → α → List α) (tol : InnerTol α) (s : Status α) : Option (Status α) :=
  (runOpt opt gradOp (innerObjective p gplus s) (Num.vdivs s.finX s.xUnit) tol).map (outerUpdate p gplus s)

/-- `init_dict`, solver.py lines 599-620. -/
def initStatus (p : Problem α) (x0 : List α) : Status α where
  totNiter := 0
  outerDx := Num.ofNat 0
  outerDf := Num.ofNat 0
  outerDg := Num.ofNat 0
  outerDh := Num.ofNat 0
  finF := p.f x0
  finG := p.g x0
  finH := p.h x0
  finX := x0
  finLAug := Num.ofNat 0
  finGradLAug := Num.ofNat 0
  finC := p.cInit
  finLam := p.lamInit
  finMu := p.muInit
  finNiter := 0
  finDxScaled := Num.ofNat 0
  finDu := Num.ofNat 0
  finDl := Num.ofNat 0
  xUnit := Num.ofNat 1

/-- Tolerances of the repeated inner solves, solver.py lines 456-461 (defaults), 486-491. -/
def Problem.innerTol (p : Problem α) : InnerTol α :=
  ⟨p.maxiterInner, p.fstopInner, p.xstopInner, p.gtolInner⟩

/-- Tolerances of the last inner solve, solver.py lines 628-633. -/
def Problem.lastTol (p : Problem α) : InnerTol α :=
  ⟨p.maxiterInner, p.fstopInnerLast, p.xstopInnerLast, p.gtolInnerLast⟩

/-- The loop of `solve_constrained`, solver.py lines 622-626. -/
noncomputable def outerLoop (opt : Optimizer α) (gradOp : (List α → α) → List α → List α) (p : Problem α)
    (gplus : List α → List α → α → List α) (x0 : List α) : Option (Status α) :=
  whileLoop (outerContinue p) (outerBody opt gradOp p gplus p.innerTol) (initStatus p x0)

/-- `solve_constrained`, solver.py lines 245-634: the loop, then one more body call with tight tolerances. -/
noncomputable def solveConstrained (opt : Optimizer α) (gradOp : (List α → α) → List α → List α) (p : Problem α)
    (gplus : List α → List α → α → List α) (x0 : List α) : Option (Status α) :=
  (outerLoop opt gradOp p gplus x0).bind (outerBody opt gradOp p gplus p.lastTol)

/-- `gplus_elu` for one component, solver.py lines 233-239 (reals). -/
noncomputable def gplusElu (g mu c scale : ℝ) : ℝ :=
  if g + mu / c < 0 then (Real.exp (scale * (g + mu / c)) - 1) / scale - mu / c else (g + mu / c) - mu / c

/-- `gplus_softplus` for one component, solver.py lines 241-243 (reals). -/
noncomputable def gplusSoftplus (g mu c scale : ℝ) : ℝ :=
  Real.log (1 + Real.exp (scale * (g + mu / c))) / scale - mu / c

/-- `gplus_hard` for one component, solver.py line 231 (reals). -/
noncomputable def gplusHard1 (g mu c : ℝ) : ℝ := max g (-mu / c)

/-- `delta_normalized` for one component, solver.py lines 20-23 (reals). -/
noncomputable def deltaNormalized (x1 x2 : ℝ) : ℝ :=
  if 0 < max |x1| |x2| then |x1 - x2| / max |x1| |x2| else max |x1| |x2|

end Verif
