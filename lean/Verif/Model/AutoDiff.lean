import Mathlib.Analysis.SpecialFunctions.ExpDeriv
import Mathlib.Analysis.SpecialFunctions.Log.Deriv
import Mathlib.Analysis.SpecialFunctions.Sqrt
import Verif.Model.Solver

/-!
# Reverse mode differentiation with infinities and NaN

The code differentiates with JAX. On regular points this is the derivative (`Props/AutoDiff.lean`); here are the rules with which JAX
computes it, in an arithmetic with infinities and NaN, so that irregular points can be treated. They are part of the trusted base: the
rules of `jax.lax` for `add`, `mul`, `div`, `neg`, `exp`, `log`, `sqrt`, `max` and `select`, applied from the result backwards.

Simplifications: no rounding; numbers overflow in `exp` only, beyond the argument `L` (709.8 for 64 bits, 88.7 for 32 bits); zero has no
sign and counts as positive in a denominator.
-/

namespace Verif

/-- Real numbers, infinities and NaN. -/
inductive XR where
  | fin (r : ℝ)
  | pinf
  | ninf
  | nan

namespace XR

noncomputable section
open Classical

/-- An infinity with the sign of a real number. -/
def signed (r : ℝ) : XR := if r = 0 then nan else if 0 < r then pinf else ninf

def neg : XR → XR
  | fin r => fin (-r)
  | pinf => ninf
  | ninf => pinf
  | nan => nan

def add : XR → XR → XR
  | fin a, fin b => fin (a + b)
  | nan, _ | _, nan => nan
  | pinf, ninf | ninf, pinf => nan
  | pinf, _ | _, pinf => pinf
  | ninf, _ | _, ninf => ninf

def mul : XR → XR → XR
  | fin a, fin b => fin (a * b)
  | nan, _ | _, nan => nan
  | fin a, pinf | pinf, fin a => signed a
  | fin a, ninf | ninf, fin a => (signed a).neg
  | pinf, pinf | ninf, ninf => pinf
  | pinf, ninf | ninf, pinf => ninf

def div : XR → XR → XR
  | fin a, fin b => if b = 0 then signed a else fin (a / b)
  | nan, _ | _, nan => nan
  | fin _, _ => fin 0
  | pinf, fin b => if b < 0 then ninf else pinf
  | ninf, fin b => if b < 0 then pinf else ninf
  | _, _ => nan

/-- `exp` with overflow beyond `L`. -/
def exp (L : ℝ) : XR → XR
  | fin x => if L < x then pinf else fin (Real.exp x)
  | pinf => pinf
  | ninf => fin 0
  | nan => nan

def log : XR → XR
  | fin x => if 0 < x then fin (Real.log x) else if x = 0 then ninf else nan
  | pinf => pinf
  | _ => nan

def sqrt : XR → XR
  | fin x => if 0 ≤ x then fin (Real.sqrt x) else nan
  | pinf => pinf
  | _ => nan

/-- A comparison with NaN is false. -/
def lt : XR → XR → Prop
  | fin a, fin b => a < b
  | ninf, fin _ | ninf, pinf | fin _, pinf => True
  | _, _ => False

def max : XR → XR → XR
  | nan, _ | _, nan => nan
  | a, b => if lt a b then b else a

/-- `_balanced_eq` of `jax.lax`: the part of the derivative of `max` that belongs to `a`, where `m` is the maximum of `a` and `b`. -/
def balanced (a m b : XR) : XR := div (if a = m ∧ a ≠ nan then fin 1 else fin 0) (if b = m ∧ b ≠ nan then fin 2 else fin 1)

end

end XR

/-- The expressions that are differentiated, in one unknown. `whereLt u v a b` is `jnp.where(u < v, a, b)`, `whereNe u v a b` is
`jnp.where(u != v, a, b)`; `mask m a b` is `jnp.where(m, a, b)` for a mask that does not depend on the unknown. -/
inductive Ex where
  | var
  | const (r : ℝ)
  | add (a b : Ex)
  | mul (a b : Ex)
  | div (a b : Ex)
  | neg (a : Ex)
  | exp (a : Ex)
  | log (a : Ex)
  | sqrt (a : Ex)
  | max (a b : Ex)
  | whereLt (u v a b : Ex)
  | whereNe (u v a b : Ex)
  | mask (m : Bool) (a b : Ex)

namespace Ex

noncomputable section
open Classical

/-- The value of an expression. -/
def eval (L : ℝ) : Ex → XR → XR
  | var, x => x
  | const r, _ => .fin r
  | add a b, x => (a.eval L x).add (b.eval L x)
  | mul a b, x => (a.eval L x).mul (b.eval L x)
  | div a b, x => (a.eval L x).div (b.eval L x)
  | neg a, x => (a.eval L x).neg
  | exp a, x => (a.eval L x).exp L
  | log a, x => (a.eval L x).log
  | sqrt a, x => (a.eval L x).sqrt
  | max a b, x => (a.eval L x).max (b.eval L x)
  | whereLt u v a b, x => if (u.eval L x).lt (v.eval L x) then a.eval L x else b.eval L x
  | whereNe u v a b, x => if u.eval L x = v.eval L x ∧ u.eval L x ≠ .nan then b.eval L x else a.eval L x
  | mask m a b, x => if m then a.eval L x else b.eval L x

/-- What an expression adds to the derivative, given the derivative `ct` of the result with respect to the expression. In
`jnp.where` the branch that is not selected gets the derivative 0, and the rules of its parts are applied to this 0. -/
def bwd (L : ℝ) : Ex → XR → XR → XR
  | var, _, ct => ct
  | const _, _, _ => .fin 0
  | add a b, x, ct => (a.bwd L x ct).add (b.bwd L x ct)
  | mul a b, x, ct => (a.bwd L x (ct.mul (b.eval L x))).add (b.bwd L x ((a.eval L x).mul ct))
  | div a b, x, ct => (a.bwd L x (ct.div (b.eval L x))).add
      (b.bwd L x ((ct.neg.mul (a.eval L x)).mul ((XR.fin 1).div ((b.eval L x).mul (b.eval L x)))))
  | neg a, x, ct => a.bwd L x ct.neg
  | exp a, x, ct => a.bwd L x (ct.mul ((a.eval L x).exp L))
  | log a, x, ct => a.bwd L x (ct.div (a.eval L x))
  | sqrt a, x, ct => a.bwd L x (ct.mul ((XR.fin (1 / 2)).div (a.eval L x).sqrt))
  | max a b, x, ct => (a.bwd L x (ct.mul (XR.balanced (a.eval L x) ((a.eval L x).max (b.eval L x)) (b.eval L x)))).add
      (b.bwd L x (ct.mul (XR.balanced (b.eval L x) ((a.eval L x).max (b.eval L x)) (a.eval L x))))
  | whereLt u v a b, x, ct =>
      (a.bwd L x (if (u.eval L x).lt (v.eval L x) then ct else .fin 0)).add
        (b.bwd L x (if (u.eval L x).lt (v.eval L x) then .fin 0 else ct))
  | whereNe u v a b, x, ct =>
      (a.bwd L x (if u.eval L x = v.eval L x ∧ u.eval L x ≠ .nan then .fin 0 else ct)).add
        (b.bwd L x (if u.eval L x = v.eval L x ∧ u.eval L x ≠ .nan then ct else .fin 0))
  | mask m a b, x, ct => (a.bwd L x (if m then ct else .fin 0)).add (b.bwd L x (if m then .fin 0 else ct))

/-- `jax.grad` of an expression at a number. -/
def grad (L : ℝ) (e : Ex) (x : ℝ) : XR := e.bwd L (.fin x) (.fin 1)

/-- The function that an expression denotes, on the real numbers. -/
def real : Ex → ℝ → ℝ
  | var, x => x
  | const r, _ => r
  | add a b, x => a.real x + b.real x
  | mul a b, x => a.real x * b.real x
  | div a b, x => a.real x / b.real x
  | neg a, x => -a.real x
  | exp a, x => Real.exp (a.real x)
  | log a, x => Real.log (a.real x)
  | sqrt a, x => Real.sqrt (a.real x)
  | max a b, x => Max.max (a.real x) (b.real x)
  | whereLt u v a b, x => if u.real x < v.real x then a.real x else b.real x
  | whereNe u v a b, x => if u.real x = v.real x then b.real x else a.real x
  | mask m a b, x => if m then a.real x else b.real x

def sub (a b : Ex) : Ex := add a (neg b)

/-- `jnp.sum` of a list. -/
def sum : List Ex → Ex
  | [] => const 0
  | e :: l => add e (sum l)

end

end Ex

/-! ## The expressions of the code -/

/-- `g_ineq(x) + mu/c` as an expression in the value of the constraint, solver.py 234, 242. `mu` and `c` are numbers here: the final values
of the solver (quadcoil.py 799-818). -/
noncomputable def shiftedEx (mu c : ℝ) : Ex := .add .var (.const (mu / c))

/-- `gplus_hard`, solver.py 231. -/
noncomputable def hardEx (mu c : ℝ) : Ex := .max .var (.const (-mu / c))

/-- `gplus_elu`, solver.py 233-239. -/
noncomputable def eluEx (mu c scale : ℝ) : Ex :=
  .whereLt (shiftedEx mu c) (.const 0)
    (.sub (.div (.sub (.exp (.mul (.const scale) (shiftedEx mu c))) (.const 1)) (.const scale)) (.const (mu / c)))
    (.sub (shiftedEx mu c) (.const (mu / c)))

/-- `gplus_softplus`, solver.py 241-243. -/
noncomputable def softplusEx (mu c scale : ℝ) : Ex :=
  .sub (.div (.log (.add (.const 1) (.exp (.mul (.const scale) (shiftedEx mu c))))) (.const scale)) (.const (mu / c))

/-- The terms of `l_k` that belong to one inequality constraint, quadcoil.py 809-818, as an expression in its value. -/
noncomputable def lkConstraintEx (m : Ex) (mu c : ℝ) : Ex := .add (.mul (.const mu) m) (.mul (.const (c / 2)) (.mul m m))

/-- The entry `a + b t` of a field that is affine in the unknown. -/
noncomputable def affineEx (ab : ℝ × ℝ) : Ex := .add (.const ab.1) (.mul (.const ab.2) .var)

/-- `jnp.linalg.norm(field, axis=-1)` at one point, quantity.py 479: the root of the sum of `x * x`. -/
noncomputable def normEx (v : List (ℝ × ℝ)) : Ex := .sqrt (.sum (v.map fun ab => .mul (affineEx ab) (affineEx ab)))

/-- `_raw_f_impl` of `generate_huber`, quantity.py 470-481, for a field that is affine in one unknown: area element and field per point. -/
noncomputable def huberEx (nfp : ℝ) (pts : List (ℝ × List (ℝ × ℝ))) : Ex :=
  .mul (.sum (pts.map fun p => .mul (.const p.1) (normEx p.2))) (.const nfp)

/-- `dist`, force.py 215: with `self_mask` a small number is added below the root. `diff` holds the components. -/
noncomputable def distEx (selfMask : Bool) (diff : List Ex) : Ex :=
  .sqrt (.add (.sum (diff.map fun d => .mul d d)) (.const (if selfMask then 1 / 10 ^ 10 else 0)))

/-- `single_kernel_da`, force.py 224-228. -/
noncomputable def singleKernelEx (selfMask : Bool) (da : ℝ) (diff : List Ex) : Ex :=
  .mask selfMask (.const 0) (.div (.const da) (distEx selfMask diff))

/-- `single_layer_kernel` of the earlier routine, force.py 420, 425. -/
noncomputable def legacyKernelEx (diff : List Ex) : Ex :=
  .whereNe (.sqrt (.sum (diff.map fun d => .mul d d))) (.const 0) (.div (.const 1) (.sqrt (.sum (diff.map fun d => .mul d d)))) (.const 0)

end Verif
