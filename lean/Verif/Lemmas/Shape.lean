import Verif.Lemmas.Outer
import Verif.Spec.Toy

/-! The solver keeps the length of the vector of unknowns. -/

namespace Verif

variable {α : Type} [Num α]

/-- Contract of the shapes: the gradient and the update have the length of the parameters, and nothing is stored at first. -/
structure Optimizer.ShapeContract (opt : Optimizer α) (gradOp : (List α → α) → List α → List α) : Prop where
  grad_length : ∀ f p, (gradOp f p).length = p.length
  init_value : ∀ p, opt.valueFinite (opt.init p) = false
  update_length : ∀ g s p v f, g.length = p.length → (opt.update g s p v f).1.length = p.length ∧
    (opt.grad (opt.update g s p v f).2).length = p.length

variable {opt : Optimizer α} {gradOp : (List α → α) → List α → List α}

theorem runOpt_length (hs : opt.ShapeContract gradOp) {f : List α → α} {x0 : List α} {tol : InnerTol α} {r : InnerResult α}
    (h : runOpt opt gradOp f x0 tol = some r) : r.x.length = x0.length := by
  unfold runOpt at h
  cases hc : runOptCarry opt gradOp f x0 tol with
  | none => simp [hc] at h
  | some c =>
    simp only [hc, Option.map_some, Option.some.injEq] at h
    subst h
    have := whileLoop_invariant (fun c : Carry opt => c.params.length = x0.length ∧
      (opt.valueFinite c.state = true → (opt.grad c.state).length = c.params.length)) hc
      ⟨rfl, by simp [initCarry, hs.init_value]⟩ (by
        rintro s t ⟨h1, h2⟩ - ht
        cases ht
        have hg : (valueAndGradFromState opt gradOp f s.params s.state).2.length = s.params.length := by
          unfold valueAndGradFromState
          split
          · rename_i hv
            exact h2 hv
          · exact hs.grad_length _ _
        have hu := hs.update_length _ s.state s.params (valueAndGradFromState opt gradOp f s.params s.state).1 f hg
        have hp : (innerStep opt gradOp f s).params.length = s.params.length := by
          simp only [innerStep, Num.vadd, List.length_zipWith, hu.1, min_self]
        refine ⟨hp.trans h1, fun _ => ?_⟩
        rw [hp]
        exact hu.2)
    exact this.1

theorem outerBody_length (hs : opt.ShapeContract gradOp) {p : Problem α} {gplus : List α → List α → α → List α} {tol : InnerTol α}
    {s t : Status α} (h : outerBody opt gradOp p gplus tol s = some t) : t.finX.length = s.finX.length := by
  unfold outerBody at h
  rw [Option.map_eq_some_iff] at h
  obtain ⟨r, hr, rfl⟩ := h
  have := runOpt_length hs hr
  simpa [outerUpdate, Num.vscale, Num.vdivs] using this

/-- The returned vector has the length of the initial one. -/
theorem solve_length (hs : opt.ShapeContract gradOp) {p : Problem α} {gplus : List α → List α → α → List α} {x0 : List α}
    {r : Status α} (h : solveConstrained opt gradOp p gplus x0 = some r) : r.finX.length = x0.length := by
  unfold solveConstrained at h
  cases hl : outerLoop opt gradOp p gplus x0 with
  | none => simp [hl] at h
  | some s =>
    simp only [hl, Option.bind_some] at h
    rw [outerBody_length hs h]
    exact outerLoop_invariant (fun s => s.finX.length = x0.length) hl rfl
      fun s t h0 _ ht => (outerBody_length hs ht).trans h0

theorem gradientDescent_shape (gradOp : (List α → α) → List α → List α) (hg : ∀ f p, (gradOp f p).length = p.length) (step : α) :
    (gradientDescent gradOp step).ShapeContract gradOp where
  grad_length := hg
  init_value _ := rfl
  update_length g s p v f h := by
    have h1 : ((gradientDescent gradOp step).update g s p v f).1.length = p.length := by simpa [gradientDescent] using h
    refine ⟨h1, ?_⟩
    have : (gradientDescent gradOp step).grad ((gradientDescent gradOp step).update g s p v f).2 =
        gradOp f (Num.vadd p ((gradientDescent gradOp step).update g s p v f).1) := rfl
    rw [this, hg, Num.vadd, List.length_zipWith, h1, min_self]

example : (gradientDescent realGrad (1 / 4)).ShapeContract realGrad :=
  gradientDescent_shape _ (by simp [realGrad]) _

end Verif
