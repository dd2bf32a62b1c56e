import Verif.Lemmas.Outer
import Verif.Spec.Toy
import Mathlib.Tactic.NormNum

/-!
# Properties C04, C05, C08, C10: the outer (augmented Lagrangian) loop, for any arithmetic
-/

namespace Verif

section any
variable {α : Type} [Num α]

/-- The run of the outer loop and the last solve. -/
theorem outer_run (opt : Optimizer α) (hc : opt.CountContract)
    (gradOp : (List α → α) → List α → List α) (p : Problem α) (gplus : List α → List α → α → List α)
    (x0 : List α) :
    ∃ n s r, outerLoop opt gradOp p gplus x0 = some s ∧ n ≤ max 1 p.maxiterTot ∧
      iterM (outerBody opt gradOp p gplus p.innerTol) n (initStatus p x0) = some s ∧
      outerBody opt gradOp p gplus p.lastTol s = some r ∧
      solveConstrained opt gradOp p gplus x0 = some r ∧
      2 ≤ r.totNiter ∧ r.totNiter ≤ (p.maxiterTot - 1) + 2 * max 1 p.maxiterInner := by
  obtain ⟨s, hs⟩ := outerLoop_terminates (opt := opt) (gradOp := gradOp) (p := p) (gplus := gplus) (x0 := x0) hc
  obtain ⟨r, hr, -, h1, h2⟩ :=
    outerBody_some (opt := opt) (gradOp := gradOp) (p := p) (gplus := gplus) hc p.lastTol s
  obtain ⟨hstop, n, hn, hm⟩ := whileLoop_spec (σ := Status α) hs
  have hlast : p.lastTol.maxiter = p.maxiterInner := rfl
  -- after k ≤ n steps at least k inner iterations were made
  have hcount : ∀ k s', iterM (outerBody opt gradOp p gplus p.innerTol) k (initStatus p x0) = some s' →
      k ≤ s'.totNiter := by
    intro k
    induction k with
    | zero => intro s' _; omega
    | succ k ih =>
      intro s' hk
      rw [iterM_succ'] at hk
      cases hu : iterM (outerBody opt gradOp p gplus p.innerTol) k (initStatus p x0) with
      | none => simp [hu] at hk
      | some u =>
        simp only [hu, Option.bind_some] at hk
        obtain ⟨r', rfl, -, h1', -⟩ := outerBody_spec hc hk
        have := ih u hu
        simp only [outerUpdate]
        omega
  have hn1 : 1 ≤ n := by
    by_contra h0
    have : n = 0 := by omega
    subst this
    simp only [iterM, Option.some.injEq] at hn
    rw [← hn] at hstop
    simp [outerContinue, initStatus] at hstop
  -- the state before the last loop step
  obtain ⟨u, hu, hgo⟩ := hm (n - 1) (by omega)
  have hstep : outerBody opt gradOp p gplus p.innerTol u = some s := by
    have : n = (n - 1) + 1 := by omega
    rw [this, iterM_succ', hu, Option.bind_some] at hn
    exact hn
  obtain ⟨r', hr', -, h1', h2'⟩ := outerBody_spec hc hstep
  have hin : p.innerTol.maxiter = p.maxiterInner := rfl
  have hu_lt : u.totNiter = 0 ∨ u.totNiter < p.maxiterTot := by
    simp only [outerContinue, Bool.or_eq_true, Bool.and_eq_true, beq_iff_eq, decide_eq_true_eq] at hgo
    rcases hgo with h | h
    · exact Or.inl h
    · exact Or.inr h.1
  have hk := hcount (n - 1) u hu
  have hs_tot : s.totNiter = u.totNiter + r'.count := by rw [hr']; rfl
  refine ⟨n, s, outerUpdate p gplus s r, hs, ?_, hn, hr, ?_, ?_, ?_⟩
  · rcases hu_lt with h | h
    · have : n ≤ 1 := by omega
      exact le_trans this (le_max_left _ _)
    · exact le_trans (by omega) (le_max_right _ _)
  · simp [solveConstrained, hs, hr]
  · simp only [outerUpdate]; omega
  · simp only [outerUpdate]
    rw [hlast] at h2
    rw [hin] at h2'
    omega

/-- **C04.** `solve_constrained` terminates for every problem, optimiser and arithmetic. The loop runs its body
`n ≤ max 1 maxiter_tot` times, the body is run once more, and the reported total number of inner iterations is
at least 2 and at most `(maxiter_tot - 1) + 2 max(1, maxiter_inner)`. -/
theorem C04_outer_terminates (opt : Optimizer α) (hc : opt.CountContract)
    (gradOp : (List α → α) → List α → List α) (p : Problem α) (gplus : List α → List α → α → List α)
    (x0 : List α) :
    ∃ n s r, n ≤ max 1 p.maxiterTot ∧
      iterM (outerBody opt gradOp p gplus p.innerTol) n (initStatus p x0) = some s ∧
      outerBody opt gradOp p gplus p.lastTol s = some r ∧
      solveConstrained opt gradOp p gplus x0 = some r ∧
      2 ≤ r.totNiter ∧ r.totNiter ≤ (p.maxiterTot - 1) + 2 * max 1 p.maxiterInner := by
  obtain ⟨n, s, r, -, h⟩ := outer_run opt hc gradOp p gplus x0
  exact ⟨n, s, r, h⟩

/-- C04 applies to gradient descent. -/
example (gradOp : (List α → α) → List α → List α) (p : Problem α) (x0 : List α) :
    ∃ r, solveConstrained (gradientDescent gradOp p.cInit) gradOp p gplusHard x0 = some r := by
  obtain ⟨_, _, r, _, _, _, h, _⟩ := C04_outer_terminates (gradientDescent gradOp p.cInit)
    (gradientDescent_count _ _) gradOp p gplusHard x0
  exact ⟨r, h⟩

/-- **C05** is false of the code, for every problem: whenever the loop stops because the iteration budget is used up,
the returned total number of iterations exceeds `maxiter_tot`. -/
theorem C05_budget_exceeded_partial (opt : Optimizer α) (hc : opt.CountContract)
    (gradOp : (List α → α) → List α → List α) (p : Problem α) (gplus : List α → List α → α → List α)
    (x0 : List α) (s r : Status α) (hs : outerLoop opt gradOp p gplus x0 = some s)
    (hr : solveConstrained opt gradOp p gplus x0 = some r) (hbudget : p.maxiterTot ≤ s.totNiter) :
    p.maxiterTot < r.totNiter := by
  simp only [solveConstrained, hs, Option.bind_some] at hr
  obtain ⟨r', rfl, -, h1, -⟩ := outerBody_spec hc hr
  simp only [outerUpdate]
  omega

/-- **C08.** In the returned status the objective and constraint values are those at the returned point, and
`outer_dx` is the distance to the point of the loop's last state. Any arithmetic, any problem. -/
theorem C08_status_consistent (opt : Optimizer α) (hc : opt.CountContract)
    (gradOp : (List α → α) → List α → List α) (p : Problem α) (gplus : List α → List α → α → List α)
    (x0 : List α) (r : Status α) (hr : solveConstrained opt gradOp p gplus x0 = some r) :
    r.finF = p.f r.finX ∧ r.finG = p.g r.finX ∧ r.finH = p.h r.finX ∧
      ∃ s, outerLoop opt gradOp p gplus x0 = some s ∧ r.outerDx = Num.norm (Num.vsub r.finX s.finX) ∧
        s.finF = p.f s.finX ∧ s.finG = p.g s.finX ∧ s.finH = p.h s.finX := by
  obtain ⟨s, hs⟩ := outerLoop_terminates (opt := opt) (gradOp := gradOp) (p := p) (gplus := gplus) (x0 := x0) hc
  simp only [solveConstrained, hs, Option.bind_some] at hr
  obtain ⟨r', rfl, -, h1, -⟩ := outerBody_spec hc hr
  refine ⟨rfl, rfl, rfl, s, hs, rfl, ?_⟩
  refine outerLoop_invariant (fun s => s.finF = p.f s.finX ∧ s.finG = p.g s.finX ∧ s.finH = p.h s.finX) hs
    ⟨rfl, rfl, rfl⟩ ?_
  intro s t _ _ hst
  obtain ⟨r'', rfl, -⟩ := outerBody_spec hc hst
  exact ⟨rfl, rfl, rfl⟩

/-- **C10** (any arithmetic). If the loop ends with budget left, then the last outer step is not `>= xstop_outer`, and
either no constraint is `>= ctol` or the penalty is not `<= c_k_safe`. (With NaN values "not >=" is weaker
than "<".) -/
theorem C10_loop_exit_any (opt : Optimizer α) (gradOp : (List α → α) → List α → List α) (p : Problem α)
    (gplus : List α → List α → α → List α) (x0 : List α) (s : Status α)
    (hs : outerLoop opt gradOp p gplus x0 = some s) (hbudget : s.totNiter < p.maxiterTot) :
    Num.le p.xstopOuter s.outerDx = false ∧
      (((∀ g ∈ s.finG, Num.le p.ctolOuter g = false) ∧ (∀ h ∈ s.finH, Num.le p.ctolOuter (Num.abs h) = false))
        ∨ Num.le s.finC p.cSafe = false) := by
  obtain ⟨hstop, -⟩ := whileLoop_spec (σ := Status α) hs
  simp only [outerContinue, Bool.or_eq_false_iff, beq_eq_false_iff_ne, hbudget, decide_true, Bool.true_and,
    Bool.and_eq_false_iff] at hstop
  obtain ⟨-, h1, h2⟩ := hstop
  refine ⟨h1, ?_⟩
  rcases h2 with ⟨hg, hh⟩ | h2
  · left
    constructor
    · intro g hgm
      by_contra hne
      have : s.finG.any (fun gi => Num.le p.ctolOuter gi) = true :=
        List.any_eq_true.2 ⟨g, hgm, by simpa using hne⟩
      rw [this] at hg
      exact absurd hg (by simp)
    · intro h hhm
      by_contra hne
      have : s.finH.any (fun hi => Num.le p.ctolOuter (Num.abs hi)) = true :=
        List.any_eq_true.2 ⟨h, hhm, by simpa using hne⟩
      rw [this] at hh
      exact absurd hh (by simp)
  · exact Or.inr h2

end any

/-- **C10** (reals): if the loop ends with iterations left and the penalty within its safe limit, the last outer step is
below `xstop_outer` and all constraints hold to `ctol` at the point of the loop's last iteration. -/
theorem C10_loop_exit_converged (opt : Optimizer ℝ) (hc : opt.CountContract)
    (gradOp : (List ℝ → ℝ) → List ℝ → List ℝ) (p : Problem ℝ) (gplus : List ℝ → List ℝ → ℝ → List ℝ)
    (x0 : List ℝ) (s : Status ℝ) (hs : outerLoop opt gradOp p gplus x0 = some s)
    (hbudget : s.totNiter < p.maxiterTot) (hsafe : s.finC ≤ p.cSafe) :
    s.outerDx < p.xstopOuter ∧ (∀ g ∈ p.g s.finX, g < p.ctolOuter) ∧ (∀ h ∈ p.h s.finX, |h| < p.ctolOuter) := by
  obtain ⟨h1, h2⟩ := C10_loop_exit_any opt gradOp p gplus x0 s hs hbudget
  obtain ⟨r, hr⟩ : ∃ r, solveConstrained opt gradOp p gplus x0 = some r := by
    obtain ⟨_, _, r, _, _, _, h, _⟩ := C04_outer_terminates opt hc gradOp p gplus x0
    exact ⟨r, h⟩
  obtain ⟨-, -, -, s', hs', -, -, hg, hh⟩ := C08_status_consistent opt hc gradOp p gplus x0 r hr
  rw [hs] at hs'
  cases hs'
  rw [num_le_false] at h1
  refine ⟨h1, ?_⟩
  rcases h2 with ⟨ha, hb⟩ | h2
  · rw [hg] at ha
    rw [hh] at hb
    exact ⟨fun g hgm => (num_le_false _ _).1 (ha g hgm), fun h hhm => (num_le_false _ _).1 (hb h hhm)⟩
  · rw [num_le_false] at h2
    exact absurd hsafe (not_le.2 h2)

/-- **C05** is false of the code for every budget: with `maxiter_inner = 1` and `xstop_outer = 0` the total number of
iterations is exactly `maxiter_tot + 1`, whatever the objective and constraints. -/
theorem C05_total_exceeds_violated_partial (opt : Optimizer ℝ) (hc : opt.CountContract)
    (gradOp : (List ℝ → ℝ) → List ℝ → List ℝ) (p : Problem ℝ) (gplus : List ℝ → List ℝ → ℝ → List ℝ)
    (x0 : List ℝ) (hinner : p.maxiterInner = 1) (hx : p.xstopOuter = 0) (htot : 1 ≤ p.maxiterTot) :
    ∃ r, solveConstrained opt gradOp p gplus x0 = some r ∧ r.totNiter = p.maxiterTot + 1 := by
  obtain ⟨n, s, r, hn, hiter, hlast, hr, h2, hle⟩ := C04_outer_terminates opt hc gradOp p gplus x0
  refine ⟨r, hr, ?_⟩
  rw [hinner] at hle
  have hs : ∃ s', outerLoop opt gradOp p gplus x0 = some s' := outerLoop_terminates hc
  obtain ⟨s', hs'⟩ := hs
  have hge : p.maxiterTot ≤ s'.totNiter := by
    by_contra hlt
    push Not at hlt
    obtain ⟨h1, -⟩ := C10_loop_exit_any opt gradOp p gplus x0 s' hs' hlt
    rw [num_le_false, hx] at h1
    have hnn : 0 ≤ s'.outerDx := by
      refine outerLoop_invariant (fun s => 0 ≤ s.outerDx) hs' (by simp [initStatus]) ?_
      intro s t _ _ hst
      obtain ⟨r'', rfl, -⟩ := outerBody_spec hc hst
      exact num_norm_nonneg _
    linarith
  have := C05_budget_exceeded_partial opt hc gradOp p gplus x0 s' r hs' hr hge
  simp at hle
  omega

/-- A concrete problem meeting the hypotheses of the previous theorem: total 101 for a documented cap of 100. -/
example : ∃ r, solveConstrained (gradientDescent realGrad (1 / 4)) realGrad
    { f := fun x => x.sum, g := fun x => x, h := fun _ => [], cInit := 1, cGrowth := 2, lamInit := [], muInit := [0],
      xstopOuter := 0, ctolOuter := 1, fstopInner := 0, xstopInner := 0, gtolInner := 0, fstopInnerLast := 0,
      xstopInnerLast := 0, gtolInnerLast := 0, maxiterTot := 100, maxiterInner := 1, cSafe := 1000 }
    gplusHard [1] = some r ∧ r.totNiter = 101 :=
  C05_total_exceeds_violated_partial _ (gradientDescent_count _ _) _ _ _ _ rfl rfl (by norm_num)

end Verif
