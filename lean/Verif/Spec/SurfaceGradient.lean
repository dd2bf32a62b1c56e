import Verif.Model.V3
import Mathlib.Analysis.Calculus.Deriv.Basic

/-! # Surface gradient and divergence, stated independently of the code

`x : ℝ → ℝ → V3` parametrises a surface, `f` is a function and `v` a vector field on it.
-/

namespace Verif

/-- `g` is the surface gradient of `f` at `(p, t)`: it is tangent to the surface, and its projection on every coordinate
tangent vector is the derivative of `f` in that direction. `e1`, `e2` are the tangent vectors. -/
structure IsSurfaceGradient (e1 e2 : V3) (f : ℝ → ℝ → ℝ) (p t : ℝ) (g : V3) : Prop where
  tangent : V3.dot g (V3.cross e1 e2) = 0
  along1 : HasDerivAt (fun s => f s t) (V3.dot g e1) p
  along2 : HasDerivAt (fun s => f p s) (V3.dot g e2) t

/-- `e1`, `e2` and `r1`, `r2` are reciprocal to each other. -/
structure IsReciprocal (e1 e2 r1 r2 : V3) : Prop where
  r11 : V3.dot r1 e1 = 1
  r12 : V3.dot r1 e2 = 0
  r21 : V3.dot r2 e1 = 0
  r22 : V3.dot r2 e2 = 1
  tangent1 : V3.dot r1 (V3.cross e1 e2) = 0
  tangent2 : V3.dot r2 (V3.cross e1 e2) = 0

end Verif
