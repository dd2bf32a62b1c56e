import Verif.Model.Call

/-!
# Changing the signs of some unknowns
-/

namespace Verif

/-- One sign for each unknown. -/
def IsSigns (s : List ℝ) : Prop := ∀ e ∈ s, e = 1 ∨ e = -1

/-- The vector with these signs changed. -/
def flipWith (s x : List ℝ) : List ℝ := List.zipWith (fun e t => e * t) s x

/-- Contract of an optimiser that does not prefer a sign of an unknown: on the function with changed signs, from the point with changed signs,
it makes the step with changed signs. (L-BFGS in exact arithmetic, like every method built from inner products and linear combinations of
gradients and steps.) -/
structure Optimizer.SignContract (opt : Optimizer ℝ) (gradOp : (List ℝ → ℝ) → List ℝ → List ℝ) : Prop where
  grad : ∀ (s : List ℝ), IsSigns s → ∀ (f : List ℝ → ℝ) (x : List ℝ), x.length = s.length →
    gradOp (fun y => f (flipWith s y)) (flipWith s x) = flipWith s (gradOp f x)
  init_grad : ∀ x : List ℝ, (opt.grad (opt.init x)).length ≤ x.length
  state : ∀ (s : List ℝ), IsSigns s → ∃ F : opt.State → opt.State,
    (∀ x, x.length = s.length → opt.init (flipWith s x) = F (opt.init x)) ∧
    (∀ t, opt.count (F t) = opt.count t) ∧ (∀ t, opt.value (F t) = opt.value t) ∧ (∀ t, opt.valueFinite (F t) = opt.valueFinite t) ∧
    (∀ t, opt.grad (F t) = flipWith s (opt.grad t)) ∧
    ∀ (g : List ℝ) (t : opt.State) (x : List ℝ) (v : ℝ) (f : List ℝ → ℝ), g.length = s.length → x.length = s.length →
      opt.update (flipWith s g) (F t) (flipWith s x) v (fun y => f (flipWith s y)) =
        (flipWith s (opt.update g t x v f).1, F (opt.update g t x v f).2)

/-- The results of the solver are the same up to the signs of the unknowns and of the gradient. -/
inductive SolveResults.SameUpToSigns (s : List ℝ) : SolveResults → SolveResults → Prop
  | inner (r : InnerResult ℝ) : SameUpToSigns s (.inner { r with x := flipWith s r.x, grad := flipWith s r.grad }) (.inner r)
  | outer (r : Status ℝ) : SameUpToSigns s (.outer { r with finX := flipWith s r.finX }) (.outer r)

/-- Both calls fail in the same way, or both do not stop, or they return the same outputs and solution, and the same solver results up to the
signs of some unknowns. -/
inductive SameCallUpToSigns : Except PyErr (Option CallOut) → Except PyErr (Option CallOut) → Prop
  | error (e : PyErr) : SameCallUpToSigns (.error e) (.error e)
  | none : SameCallUpToSigns (.ok none) (.ok none)
  | some {out : List (String × MetricOut Val)} {qp : FieldProblem} {d : Dofs} {s : List ℝ} {r' r : SolveResults} (hs : IsSigns s)
      (hl : s.length = r.x.length) (h : r'.SameUpToSigns s r) : SameCallUpToSigns (.ok (some ⟨out, qp, d, r'⟩)) (.ok (some ⟨out, qp, d, r⟩))

end Verif
