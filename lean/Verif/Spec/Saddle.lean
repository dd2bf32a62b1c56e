import Mathlib.Data.Real.Basic
import Mathlib.Algebra.BigOperators.Group.List.Basic

/-! # Saddle points of constrained problems, stated independently of the code -/

namespace Verif

/-- The sum of the products of the entries. -/
def listDot (a b : List ℝ) : ℝ := (List.zipWith (· * ·) a b).sum

/-- The squared distance of two lists. -/
def sqDist (a b : List ℝ) : ℝ := (List.zipWith (fun s t => (s - t) ^ 2) a b).sum

/-- The sum of squares. -/
def sumSq (a : List ℝ) : ℝ := (a.map fun t => t ^ 2).sum

/-- The squared violation of `g <= 0` and `h = 0`. -/
noncomputable def sqViolation (g h : List ℝ) : ℝ := sumSq (g.map fun t => max t 0) + sumSq h

/-- `x` with multipliers `mu`, `lam` is a saddle point of the Lagrangian for unknowns of length `N`. -/
structure IsSaddle (N : ℕ) (f : List ℝ → ℝ) (g h : List ℝ → List ℝ) (x lam mu : List ℝ) : Prop where
  length : x.length = N
  lam_length : lam.length = (h x).length
  mu_length : mu.length = (g x).length
  mu_nonneg : ∀ m ∈ mu, 0 ≤ m
  ineq : ∀ t ∈ g x, t ≤ 0
  eq : ∀ t ∈ h x, t = 0
  lagrangian : ∀ y : List ℝ, y.length = N → f x ≤ f y + listDot lam (h y) + listDot mu (g y)

end Verif
