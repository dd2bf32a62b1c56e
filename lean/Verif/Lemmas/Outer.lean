import Verif.Lemmas.Solver

/-! Helper lemmas about the outer loop. -/

namespace Verif

section any
variable {α : Type} [Num α]
variable {opt : Optimizer α} {gradOp : (List α → α) → List α → List α} {p : Problem α}
  {gplus : List α → List α → α → List α} {x0 : List α}

theorem outerBody_some (hc : opt.CountContract) (tol : InnerTol α) (s : Status α) :
    ∃ r, outerBody opt gradOp p gplus tol s = some (outerUpdate p gplus s r) ∧
      runOpt opt gradOp (innerObjective p gplus s) (Num.vdivs s.finX s.xUnit) tol = some r ∧
      1 ≤ r.count ∧ r.count ≤ max 1 tol.maxiter := by
  obtain ⟨r, hr, h1, h2⟩ := runOpt_terminates (opt := opt) (gradOp := gradOp) (f := innerObjective p gplus s)
    (x0 := Num.vdivs s.finX s.xUnit) (tol := tol) hc
  exact ⟨r, by simp [outerBody, hr], hr, h1, h2⟩

theorem outerBody_spec (hc : opt.CountContract) {tol : InnerTol α} {s t : Status α}
    (h : outerBody opt gradOp p gplus tol s = some t) :
    ∃ r, t = outerUpdate p gplus s r ∧
      runOpt opt gradOp (innerObjective p gplus s) (Num.vdivs s.finX s.xUnit) tol = some r ∧
      1 ≤ r.count ∧ r.count ≤ max 1 tol.maxiter := by
  obtain ⟨r, hr, hrun, h1, h2⟩ := outerBody_some (opt := opt) (gradOp := gradOp) (p := p) (gplus := gplus) hc tol s
  rw [h] at hr
  exact ⟨r, Option.some.inj hr, hrun, h1, h2⟩

theorem outerLoop_terminates (hc : opt.CountContract) : ∃ s, outerLoop opt gradOp p gplus x0 = some s := by
  unfold outerLoop
  refine whileLoop_terminates (fun _ => True) (fun s => (p.maxiterTot + 1) - s.totNiter) trivial ?_
  intro s _ hs
  obtain ⟨r, hr, -, h1, -⟩ := outerBody_some (opt := opt) (gradOp := gradOp) (p := p) (gplus := gplus) hc p.innerTol s
  refine ⟨_, hr, trivial, ?_⟩
  simp only [outerUpdate]
  simp only [outerContinue, Bool.or_eq_true, Bool.and_eq_true, beq_iff_eq, decide_eq_true_eq] at hs
  rcases hs with h | h <;> omega

/-- Any property preserved by the body holds at loop exit. -/
theorem outerLoop_invariant (P : Status α → Prop) {s : Status α} (h : outerLoop opt gradOp p gplus x0 = some s)
    (h0 : P (initStatus p x0))
    (hstep : ∀ s t, P s → outerContinue p s = true → outerBody opt gradOp p gplus p.innerTol s = some t → P t) :
    P s :=
  whileLoop_invariant P h h0 hstep

theorem outerIter_invariant (P : Status α → Prop) {tol : InnerTol α} (h0 : P (initStatus p x0))
    (hstep : ∀ s t, P s → outerBody opt gradOp p gplus tol s = some t → P t) (n : ℕ) (s : Status α)
    (h : iterM (outerBody opt gradOp p gplus tol) n (initStatus p x0) = some s) : P s := by
  induction n generalizing s with
  | zero => simp [iterM] at h; subst h; exact h0
  | succ n ih =>
    rw [iterM_succ'] at h
    cases hn : iterM (outerBody opt gradOp p gplus tol) n (initStatus p x0) with
    | none => simp [hn] at h
    | some u => simp only [hn, Option.bind_some] at h; exact hstep u s (ih u hn) h

end any

end Verif
