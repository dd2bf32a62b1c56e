import Verif.Spec.Reversal
import Verif.Spec.Listing
import Verif.Spec.SignFree

/-!
# The same call with all currents reversed
-/

namespace Verif

/-- Both net currents, the plasma field and the initial potential change sign. (The constraints are reversed separately, by `Request.reversed`.) -/
noncomputable def CallArgs.reversed (a : CallArgs) : CallArgs :=
  { a with
    netPoloidal := -a.netPoloidal
    netToroidal := -a.netToroidal
    bnormalPlasma := a.bnormalPlasma.map fun b => b.map fun r => r.map fun x => -x
    opts := { a.opts with phiInit := a.opts.phiInit.map fun c => c.map fun x => -x } }

/-- The outputs with the signs that they take if all currents are reversed. -/
noncomputable def reversedOut (out : List (String × MetricOut Val)) : List (String × MetricOut Val) :=
  out.map fun e => (e.1, { e.2 with value := reversedValue e.1 e.2.value })

/-- Both calls fail, or both do not stop, or the first returns the reversed solution and outputs of the second. The results of the solver are the
same up to the signs of the unknowns and the order of the constraints. -/
inductive ReversedResults : Except PyErr (Option CallOut) → Except PyErr (Option CallOut) → Prop
  | error (e' e : PyErr) : ReversedResults (.error e') (.error e)
  | none : ReversedResults (.ok none) (.ok none)
  | some {out : List (String × MetricOut Val)} {qp : FieldProblem} {d : Dofs} {s : List ℝ} {r' t r : SolveResults} (hs : IsSigns s)
      (hl : s.length = t.x.length) (h1 : r'.SameUpToSigns s t) (h2 : t.SameUpToOrder r) :
      ReversedResults (.ok (some ⟨reversedOut out, qp.reversed, reversedDofs d, r'⟩)) (.ok (some ⟨out, qp, d, r⟩))

end Verif
