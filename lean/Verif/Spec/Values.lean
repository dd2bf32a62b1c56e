import Mathlib.Data.Real.Basic
import Mathlib.Algebra.BigOperators.Intervals
import Mathlib.Analysis.Real.Sqrt

/-! # Values of norms, written with finite sums and orders only -/

namespace Verif

open Finset

/-- `m` is the largest absolute value of the entries. -/
def IsMaxAbs (m : ℝ) (l : List ℝ) : Prop := (∃ x ∈ l, |x| = m) ∧ ∀ x ∈ l, |x| ≤ m

/-- The surface integral of a field given at the grid points: `nfp * sum_i da_i f_i`. -/
noncomputable def gridIntegral (nfp : ℝ) (da f : List ℝ) : ℝ :=
  nfp * ∑ i ∈ range (min da.length f.length), da.getD i 0 * f.getD i 0

end Verif
