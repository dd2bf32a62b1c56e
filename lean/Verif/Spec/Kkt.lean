import Mathlib.Analysis.Calculus.FDeriv.Basic
import Mathlib.Analysis.Normed.Module.Basic
import Mathlib.Algebra.BigOperators.Ring.Finset

/-!
# Solutions of a constrained problem that depend on parameters

Written without reference to the model.
-/

namespace Verif

open Filter Topology

/-- Near `y0`, the points `xs y` with multipliers `lams y`, `mus y` satisfy the first order (Karush-Kuhn-Tucker) conditions of
`min f(x, y)` subject to `h(x, y) = 0` and `g(x, y) <= 0`. At `y0` complementarity is strict. -/
structure KktPath {X Y : Type} [NormedAddCommGroup X] [NormedSpace ℝ X] [NormedAddCommGroup Y] [NormedSpace ℝ Y] {m p : ℕ}
    (f : X → Y → ℝ) (g : X → Y → Fin p → ℝ) (h : X → Y → Fin m → ℝ) (y0 : Y)
    (xs : Y → X) (lams : Y → Fin m → ℝ) (mus : Y → Fin p → ℝ) : Prop where
  stationary : ∀ᶠ y in 𝓝 y0, ∀ w, fderiv ℝ (fun x => f x y) (xs y) w
      + ∑ i, lams y i * fderiv ℝ (fun x => h x y i) (xs y) w
      + ∑ j, mus y j * fderiv ℝ (fun x => g x y j) (xs y) w = 0
  equality : ∀ᶠ y in 𝓝 y0, ∀ i, h (xs y) y i = 0
  inequality : ∀ᶠ y in 𝓝 y0, ∀ j, g (xs y) y j ≤ 0
  complementary : ∀ᶠ y in 𝓝 y0, ∀ j, mus y j * g (xs y) y j = 0
  strict : ∀ j, g (xs y0) y0 j = 0 → 0 < mus y0 j

end Verif
