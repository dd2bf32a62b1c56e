import Mathlib.Data.Real.Basic

/-! # Affine combinations of coefficient vectors, convexity -/

namespace Verif

/-- `s c + t d`, entry by entry. -/
def comb (s t : ℝ) (c d : List ℝ) : List ℝ := List.zipWith (fun x y => s * x + t * y) c d

/-- `f` is convex on the vectors of length `n`. -/
def ConvexOnVectors (n : ℕ) (f : List ℝ → ℝ) : Prop :=
  ∀ c d : List ℝ, c.length = n → d.length = n → ∀ a : ℝ, 0 ≤ a → a ≤ 1 →
    f (comb a (1 - a) c d) ≤ a * f c + (1 - a) * f d

end Verif
