import Mathlib.Analysis.SpecialFunctions.Log.Basic
import Mathlib.Analysis.SpecialFunctions.Pow.Real

/-!
# Number structures

The solver (`/repo/src/quadcoil/solver.py`) is modelled over an arbitrary number structure.
Nothing is assumed about the operations or the comparisons, so a theorem proved for every `Num α`
also holds for IEEE float64 with rounding, infinities and NaN (where `<`, `<=`, `==` with a NaN are all
`False`). Theorems about values use the instance for the real numbers below.
-/

namespace Verif

/-- The numeric operations used by `solver.py`: `+ - * /`, unary minus, `jnp.abs`, `jnp.sqrt`
(inside `jnp.linalg.norm`), `jnp.maximum`, integer literals and comparisons.
Python `a > b` is `lt b a` and `a >= b` is `le b a`. -/
class Num (α : Type) where
  add : α → α → α
  sub : α → α → α
  mul : α → α → α
  div : α → α → α
  neg : α → α
  abs : α → α
  sqrt : α → α
  max : α → α → α
  ofNat : ℕ → α
  lt : α → α → Bool
  le : α → α → Bool
  eq : α → α → Bool

namespace Num

variable {α : Type} [Num α]

/-- `jnp.sum` of a vector. (The summation order is immaterial for the theorems.) -/
def sum (v : List α) : α := v.foldr Num.add (Num.ofNat 0)

/-- `jnp.linalg.norm` of a vector: the Euclidean norm. -/
def norm (v : List α) : α := Num.sqrt (sum (v.map fun a => Num.mul a a))

/-- Inner product `a @ b` of two vectors. -/
def dot (a b : List α) : α := sum (List.zipWith Num.mul a b)

/-- Elementwise `a + b`. -/
def vadd (a b : List α) : List α := List.zipWith Num.add a b
/-- Elementwise `a - b`. -/
def vsub (a b : List α) : List α := List.zipWith Num.sub a b
/-- `v * s` for a scalar `s`. -/
def vscale (v : List α) (s : α) : List α := v.map fun a => Num.mul a s
/-- `v / s` for a scalar `s`. -/
def vdivs (v : List α) (s : α) : List α := v.map fun a => Num.div a s
/-- Elementwise `jnp.abs`. -/
def vabs (v : List α) : List α := v.map Num.abs

/-- `jnp.average` of a vector: sum divided by length. -/
def average (v : List α) : α := Num.div (sum v) (Num.ofNat v.length)

/-- `jnp.linspace(start, stop, n)` (end point included): entry `i` is
`start + i * (stop - start) / (n - 1)`. -/
def linspace (start stop : α) (n : ℕ) : List α :=
  (List.range n).map fun i =>
    Num.add start (Num.div (Num.mul (Num.ofNat i) (Num.sub stop start)) (Num.ofNat (n - 1)))

end Num

/-- Exact real arithmetic. -/
noncomputable instance instNumReal : Num ℝ where
  add a b := a + b
  sub a b := a - b
  mul a b := a * b
  div a b := a / b
  neg a := -a
  abs a := |a|
  sqrt a := Real.sqrt a
  max a b := Max.max a b
  ofNat n := (n : ℝ)
  lt a b := @decide (a < b) (Classical.propDecidable _)
  le a b := @decide (a ≤ b) (Classical.propDecidable _)
  eq a b := @decide (a = b) (Classical.propDecidable _)

end Verif
