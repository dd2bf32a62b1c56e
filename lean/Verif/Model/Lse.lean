import Mathlib.Analysis.SpecialFunctions.Log.Basic
import Mathlib.Data.List.MinMax

/-!
# `max_lse`, `abs_lse`, `linf_lse` (`/repo/src/quadcoil/math_utils.py`, lines 153-165)

Arrays are flattened lists of reals. `jnn.logsumexp` is the mathematical `log (Σ exp)`; its internal shift for
numerical stability is not modelled.
-/

namespace Verif

/-- `jnp.max` of a non-empty array (JAX raises for an empty one; the value here for `[]` is irrelevant). -/
noncomputable def jmax : List ℝ → ℝ
  | [] => 0
  | x :: xs => xs.foldr max x

/-- `max_lse(x, epsilon)`, math_utils.py 153-155: `epsilon * logsumexp(x / epsilon)`. -/
noncomputable def maxLse (xs : List ℝ) (eps : ℝ) : ℝ :=
  eps * Real.log ((xs.map fun x => Real.exp (x / eps)).sum)

/-- `abs_lse(x, epsilon)` for one entry, math_utils.py 157-161: `max_lse` of the stacked pair `(x, -x)` over the new
last axis. -/
noncomputable def absLse (x eps : ℝ) : ℝ := maxLse [x, -x] eps

/-- `linf_lse(x, epsilon)`, math_utils.py 163-165: `max_lse` of the entrywise `abs_lse`. -/
noncomputable def linfLse (xs : List ℝ) (eps : ℝ) : ℝ := maxLse (xs.map fun x => absLse x eps) eps

end Verif
