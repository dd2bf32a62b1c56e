import Mathlib.Order.Basic
import Mathlib.Data.Nat.Find
import Mathlib.Data.Nat.Basic

/-!
# `jax.lax.while_loop`

`while_loop cond body init` repeats `body` while `cond` holds. The model returns `some` of the first
state whose guard is false, or `none` if there is no such state (the loop runs for ever) or if the body itself
diverges before one is reached.
-/

namespace Verif

variable {σ : Type}

/-- The state after `n` executions of the loop body; `none` if a body execution diverged. -/
def iterM (body : σ → Option σ) : ℕ → σ → Option σ
  | 0, s => some s
  | n + 1, s => (body s).bind (iterM body n)

/-- The loop guard is false after exactly `n` executions of the body. -/
def HaltsAt (cond : σ → Bool) (body : σ → Option σ) (s : σ) (n : ℕ) : Prop :=
  ∃ t, iterM body n s = some t ∧ cond t = false

open Classical in
/-- Models `jax.lax.while_loop(cond, body, s)` as used in solver.py lines 215-217 and 622-626. -/
noncomputable def whileLoop (cond : σ → Bool) (body : σ → Option σ) (s : σ) : Option σ :=
  if h : ∃ n, HaltsAt cond body s n then iterM body (Nat.find h) s else none

end Verif
