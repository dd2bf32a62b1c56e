import Verif.Model.Io
import Verif.Model.Api

/-!
# What `verbose` adds to the output: `/repo/src/quadcoil/quadcoil.py` 758-1061, `/repo/src/quadcoil/io/jax.py` 89-162

The printing itself has no effect on the values. With `verbose > 0` the gradient mode adds entries to the output.
-/

namespace Verif

/-- What one pass of the metric loop computes for one metric, quadcoil.py 948-1006. -/
structure MetricResult where
  value : ℝ
  grad : List (String × List ℝ)
  vihp : List ℝ

/-- The information on the Hessian in constrained problems, quadcoil.py 914-917 and 992-993. -/
structure HessianInfo where
  rank : ℝ
  oRank : ℝ
  cond : ℝ
  oCond : ℝ
  err : String → ℝ
  oErr : String → ℝ

/-- A value of `out_dict`: an array (only `hess_cond`, quadcoil.py 791) or the dictionary of a metric (1048-1060): `'value'`, `'grad'`
and the further entries, which are numbers or arrays. -/
inductive OutEntry where
  | array (a : List ℝ)
  | metric (value : ℝ) (grad : List (String × List ℝ)) (more : List (String × List ℝ))

/-- The entries added to the dictionary of a metric, quadcoil.py 1052-1060. -/
def verboseEntries (verbose : ℕ) (unconstrained : Bool) (H : HessianInfo) (name : String) (r : MetricResult) : List (String × List ℝ) :=
  if verbose > 0 then
    ("vihp", r.vihp) ::
      (if unconstrained then []
      else [("hess_rank", [H.rank]), ("Ohess_rank", [H.oRank]), ("hess_cond", [H.cond]), ("Ohess_cond", [H.oCond]),
        ("hess_err", [H.err name]), ("Ohess_err", [H.oErr name])])
  else []

/-- One pass of the loop over the metrics, quadcoil.py 948-1060. `evalMetric` raises for unknown names. -/
def verboseStep (verbose : ℕ) (unconstrained : Bool) (H : HessianInfo) (evalMetric : String → Except PyErr MetricResult)
    (out : List (String × OutEntry)) (name : String) : Except PyErr (List (String × OutEntry)) := do
  let r ← evalMetric name
  .ok (dictSet out name (.metric r.value r.grad (verboseEntries verbose unconstrained H name r)))

/-- `out_dict` before the loop: empty (quadcoil.py 759), with `verbose > 0` and without constraints the condition number (788-792). -/
def verboseStart (verbose : ℕ) (unconstrained : Bool) (H : HessianInfo) : List (String × OutEntry) :=
  if verbose > 0 ∧ unconstrained = true then dictSet [] "hess_cond" (.array [H.cond]) else []

/-- The output dictionary in gradient mode, quadcoil.py 758-1061. -/
def verboseOut (verbose : ℕ) (unconstrained : Bool) (H : HessianInfo) (evalMetric : String → Except PyErr MetricResult)
    (names : List String) : Except PyErr (List (String × OutEntry)) :=
  names.foldlM (verboseStep verbose unconstrained H evalMetric) (verboseStart verbose unconstrained H)

/-- `out_dict_full[key_i]['value']` and `['grad']`, io/jax.py 131-139. An array cannot be indexed with a string: JAX raises
`TypeError`. -/
def OutEntry.fields : OutEntry → Except PyErr (ℝ × List (String × List ℝ))
  | .array _ => .error .typeError
  | .metric v g _ => .ok (v, g)

/-- The loop over the keys in `quadcoil_for_diff_jvp`, io/jax.py 130-154: per key the value and the tangent. -/
noncomputable def jvpRule (out : List (String × OutEntry)) (T : Tangents) : Except PyErr (List (String × ℝ × ℝ)) :=
  out.mapM fun kv => do
    let e ← kv.2.fields
    let j ← jvpMetric e.2 T
    .ok (kv.1, e.1, j)

end Verif
