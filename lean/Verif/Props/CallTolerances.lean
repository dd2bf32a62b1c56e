import Verif.Props.InnerProblemExamples

/-!
# C139: the limits and tolerances of the caller govern the run
-/

namespace Verif

/-- The value that the last value of a run is compared with: the value ten iterations before, or a placeholder that the solver records at the
start, 1000 times `fstop` times a fraction plus twice the initial value. -/
noncomputable def referenceValue (fstop : ℝ) (f : List ℝ → ℝ) (xs : ℕ → List ℝ) (n : ℕ) : ℝ :=
  if n < 10 then 1000 * fstop * (1 - n / 9) + 2 * f (xs 0) else f (xs (n - 10))

/-- The stopping rule after `n` iterations of a run with the points `xs` and the steps `us`: the gradient, the average decrease, or all of
the last step, the change of the step and the last decrease are within the tolerances. -/
def StopRule (f : List ℝ → ℝ) (xs us : ℕ → List ℝ) (fstop xstop gtol : ℝ) (n : ℕ) : Prop :=
  Num.norm (realGrad f (xs n)) ≤ gtol ∨ (referenceValue fstop f xs n - f (xs (n - 1))) / 9 ≤ fstop ∨
    (Num.norm (Num.vabs (Num.vsub (xs n) (xs (n - 1)))) ≤ xstop ∧
      Num.norm (Num.vabs (Num.vsub (us (n - 1)) (if n = 1 then (xs 0).map fun _ => 0 else us (n - 2)))) ≤ xstop ∧
      |f (xs (n - 1)) - f (xs (n - 2))| ≤ fstop)

/-- The run of the optimiser from `x0` ends with `r`: after at least one iteration, as soon as `maxiter` iterations are done or the stopping
rule holds. -/
def StopsBy (opt : Optimizer ℝ) (f : List ℝ → ℝ) (x0 : List ℝ) (maxiter : ℕ) (fstop xstop gtol : ℝ) (r : InnerResult ℝ) : Prop :=
  ∃ (xs us : ℕ → List ℝ) (ss : ℕ → opt.State), OptRun opt realGrad f x0 r.count xs us ss ∧ r.x = xs r.count ∧ 1 ≤ r.count ∧
    (maxiter ≤ r.count ∨ StopRule f xs us fstop xstop gtol r.count) ∧
    ∀ n, 1 ≤ n → n < r.count → n < maxiter ∧ ¬ StopRule f xs us fstop xstop gtol n

theorem avgImprovement_reference {opt : Optimizer ℝ} (hv : opt.ValueContract) (gradOp : (List ℝ → ℝ) → List ℝ → List ℝ)
    (f : List ℝ → ℝ) (x0 : List ℝ) (fstop : ℝ) {n : ℕ} (hn : 1 ≤ n) :
    avgImprovement (innerIter opt gradOp f x0 fstop n).valRec =
      (referenceValue fstop f (fun k => (innerIter opt gradOp f x0 fstop k).params) n - f (innerIter opt gradOp f x0 fstop (n - 1)).params) / 9 := by
  rw [C02_average_improvement _ (innerIter_valRec_length _ _)]
  have hrec := innerIter_valRec (gradOp := gradOp) (f := f) (x0 := x0) hv fstop n
  have hlen : ((initValRec fstop (f x0) 10 ++ (List.range n).map fun k => f (innerIter opt gradOp f x0 fstop k).params).drop n).length = 10 := by
    rw [initValRec_real]
    simp
  simp only [hrec]
  have g9 : ((initValRec fstop (f x0) 10 ++ (List.range n).map fun k => f (innerIter opt gradOp f x0 fstop k).params).drop n)[9]'(by omega) =
      f (innerIter opt gradOp f x0 fstop (n - 1)).params := by
    simp only [List.getElem_drop]
    rw [List.getElem_append_right (by rw [initValRec_real]; simp; omega)]
    simp only [List.getElem_map, List.getElem_range]
    have : n + 9 - (initValRec fstop (f x0) 10).length = n - 1 := by
      rw [initValRec_real]
      simp
    rw [this]
  have g0 : ((initValRec fstop (f x0) 10 ++ (List.range n).map fun k => f (innerIter opt gradOp f x0 fstop k).params).drop n)[0]'(by omega) =
      referenceValue fstop f (fun k => (innerIter opt gradOp f x0 fstop k).params) n := by
    simp only [List.getElem_drop, referenceValue]
    split
    · rename_i hn
      rw [List.getElem_append_left (by rw [initValRec_real]; simpa using hn)]
      simp only [initValRec_real, List.getElem_map, List.getElem_range, add_zero, innerIter_zero, initCarry]
      ring
    · rename_i hn
      rw [List.getElem_append_right (by rw [initValRec_real]; simp; omega)]
      simp only [List.getElem_map, List.getElem_range]
      have : n + 0 - (initValRec fstop (f x0) 10).length = n - 10 := by
        rw [initValRec_real]
        simp
      rw [this]
  rw [g9, g0]

/-- The guard of the loop is the negation of the stopping rule. -/
theorem innerContinue_iff {opt : Optimizer ℝ} (hc : opt.CountContract) (hv : opt.ValueContract) (hg : opt.GradContract realGrad)
    (f : List ℝ → ℝ) (x0 : List ℝ) (tol : InnerTol ℝ) {n : ℕ} (hn : 1 ≤ n) :
    innerContinue opt tol (innerIter opt realGrad f x0 tol.fstop n) = true ↔ n < tol.maxiter ∧
      ¬ StopRule f (fun k => (innerIter opt realGrad f x0 tol.fstop k).params)
        (fun k => (innerIter opt realGrad f x0 tol.fstop (k + 1)).updates) tol.fstop tol.xstop tol.gtol n := by
  obtain ⟨m, rfl⟩ : ∃ m, n = m + 1 := ⟨n - 1, by omega⟩
  have hgrad : opt.grad (innerIter opt realGrad f x0 tol.fstop (m + 1)).state = realGrad f (innerIter opt realGrad f x0 tol.fstop (m + 1)).params := by
    simp only [innerIter_succ, innerStep]
    exact hg _ _ _ _ _
  have hval := fun k => valueAndGrad_value (opt := opt) (gradOp := realGrad) (f := f) (x0 := x0) hv tol.fstop k
  have hdx : (innerIter opt realGrad f x0 tol.fstop (m + 1)).dx =
      Num.vabs (Num.vsub (innerIter opt realGrad f x0 tol.fstop (m + 1)).params (innerIter opt realGrad f x0 tol.fstop m).params) := by
    simp only [innerIter_succ, innerStep]
  have hdu : (innerIter opt realGrad f x0 tol.fstop (m + 1)).du = Num.vabs (Num.vsub (innerIter opt realGrad f x0 tol.fstop (m + 1)).updates
      (if m + 1 = 1 then x0.map fun _ => 0 else (innerIter opt realGrad f x0 tol.fstop (m + 1 - 2 + 1)).updates)) := by
    cases m with
    | zero =>
      simp only [zero_add, if_true, innerIter_succ, innerStep, innerIter_zero, initCarry, Num.ofNat, Nat.cast_zero]
    | succ m =>
      rw [if_neg (by omega), innerIter_succ]
      rfl
  have hdf : (innerIter opt realGrad f x0 tol.fstop (m + 1)).df =
      |f (innerIter opt realGrad f x0 tol.fstop m).params - f (innerIter opt realGrad f x0 tol.fstop (m + 1 - 2)).params| := by
    cases m with
    | zero =>
      simp only [innerIter_succ, innerStep]
      rw [hval 0, num_abs]
      rfl
    | succ m =>
      rw [innerIter_succ]
      simp only [innerStep]
      rw [hval (m + 1), innerIter_value hv, num_abs]
      rfl
  have havg := avgImprovement_reference hv realGrad f x0 tol.fstop hn
  simp only [Nat.add_sub_cancel] at havg
  unfold innerContinue StopRule
  rw [hgrad, hdx, hdu, hdf, havg, innerIter_count hc]
  simp only [Bool.or_eq_true, Bool.and_eq_true, beq_iff_eq, decide_eq_true_eq, num_lt, Nat.add_sub_cancel, not_or, not_and_or, not_le]
  simp only [innerIter_zero, initCarry]
  have : m + 1 ≠ 0 := by omega
  simp only [this, false_or]
  constructor
  · rintro ⟨⟨⟨h1, h2⟩, h3⟩, h4⟩
    exact ⟨h1, h2, h3, or_assoc.1 h4⟩
  · rintro ⟨h1, h2, h3, h4⟩
    exact ⟨⟨⟨h1, h2⟩, h3⟩, or_assoc.2 h4⟩

/-- **C02 (exact rule).** The inner run stops after the first iteration at which the stopping rule holds or the limit is reached. -/
theorem C02_stopping_rule {opt : Optimizer ℝ} (hc : opt.CountContract) (hv : opt.ValueContract) (hg : opt.GradContract realGrad)
    {f : List ℝ → ℝ} {x0 : List ℝ} {maxiter : ℕ} {fstop xstop gtol : ℝ} {r : InnerResult ℝ}
    (h : runOpt opt realGrad f x0 ⟨maxiter, fstop, xstop, gtol⟩ = some r) : StopsBy opt f x0 maxiter fstop xstop gtol r := by
  unfold runOpt at h
  cases hcarry : runOptCarry opt realGrad f x0 ⟨maxiter, fstop, xstop, gtol⟩ with
  | none => simp [hcarry] at h
  | some c =>
    simp only [hcarry, Option.map_some, Option.some.injEq] at h
    obtain ⟨n, hcn, hstop, hgo, h1, -⟩ := runOptCarry_spec hc hcarry
    have hcount : r.count = n := by
      rw [← h]; simp only [Carry.result]; rw [hcn]; exact innerIter_count hc _ _
    have hval := fun k => valueAndGrad_value (opt := opt) (gradOp := realGrad) (f := f) (x0 := x0) hv fstop k
    have hgrad := fun k => innerIter_grad (opt := opt) (gradOp := realGrad) (f := f) (x0 := x0) hg hv fstop k
    refine ⟨fun k => (innerIter opt realGrad f x0 fstop k).params, fun k => (innerIter opt realGrad f x0 fstop (k + 1)).updates,
      fun k => (innerIter opt realGrad f x0 fstop k).state, ⟨rfl, rfl, ?_, ?_⟩, ?_, by omega, ?_, ?_⟩
    · intro k _
      simp only [innerIter_succ, innerStep]
      rw [hval k, hgrad k]
    · intro k _
      rw [innerIter_succ]; rfl
    · rw [hcount, ← h, hcn]; rfl
    · have := innerContinue_iff hc hv hg f x0 ⟨maxiter, fstop, xstop, gtol⟩ h1
      rw [hcn] at hstop
      rw [hstop] at this
      simp only [Bool.false_eq_true, false_iff, not_and, not_not] at this
      rw [hcount]
      by_cases hm : n < maxiter
      · exact .inr (this hm)
      · exact .inl (by omega)
    · intro k hk1 hk2
      exact (innerContinue_iff hc hv hg f x0 ⟨maxiter, fstop, xstop, gtol⟩ hk1).1 (hgo k (by omega))

theorem setup_tolerances {P : Type} [HasQp P] {reg : Registry P} {qp : P} {a : QuadcoilArgs} {phiUnit : ℝ} {S : Setup}
    (h : quadcoilSetup reg qp a phiUnit = .ok S) :
    S.problem.xstopOuter = a.xstopOuter ∧ S.problem.ctolOuter = a.ctolOuter ∧ S.problem.cSafe = 1e15 ∧ S.problem.maxiterTot = a.maxiterTot ∧
      S.problem.innerTol = ⟨a.maxiterInner, a.fstopInner, a.xstopInner, a.gtolInner⟩ ∧
      S.problem.lastTol = ⟨a.maxiterInner, a.fstopInnerLast, a.xstopInnerLast, a.gtolInnerLast⟩ := by
  unfold quadcoilSetup at h
  simp only [bind, Except.bind] at h
  split at h
  · cases h
  split at h
  · cases h
  split at h
  · cases h
  split at h
  · cases h
  cases h
  exact ⟨rfl, rfl, rfl, rfl, rfl, rfl⟩

/-- **C139.** Why a call stops. Without constraints: after at most `maxiter_tot` iterations, and earlier only by `gtol_inner`,
`fstop_inner_last` or `xstop_inner_last`. With constraints: the loop ends with budget left only if the step is below `xstop_outer` and the
constraints are below `ctol_outer` or the penalty exceeds 1e15; its inner runs obey `maxiter_inner`, `gtol_inner`, `fstop_inner` and
`xstop_inner`, and the last run obeys `maxiter_inner`, `gtol_inner_last`, `fstop_inner_last` and `xstop_inner_last`. -/
theorem C139_why_a_call_stops {P : Type} [HasQp P] {reg : Registry P} {qp : P} {a : QuadcoilArgs} {phiUnit : ℝ} {S : Setup}
    (hs : quadcoilSetup reg qp a phiUnit = .ok S) {opt : Optimizer ℝ} (hc : opt.CountContract) (hv : opt.ValueContract)
    (hg : opt.GradContract realGrad) :
    ∃ r d, quadcoilSolve opt realGrad S = some (r, d) ∧
      ((S.unconstrained = true ∧ ∃ i, r = .inner i ∧ d = dofsOf S.template phiUnit i.x ∧
        StopsBy opt S.problem.f S.x0 a.maxiterTot a.fstopInnerLast a.xstopInnerLast a.gtolInner i) ∨
      (S.unconstrained = false ∧ ∃ n s t, r = .outer t ∧ d = dofsOf S.template phiUnit t.finX ∧ n ≤ max 1 a.maxiterTot ∧
        iterM (outerBody opt realGrad S.problem gplusHard ⟨a.maxiterInner, a.fstopInner, a.xstopInner, a.gtolInner⟩) n
          (initStatus S.problem S.x0) = some s ∧
        (s.totNiter < a.maxiterTot → s.outerDx < a.xstopOuter ∧ (1e15 < s.finC ∨
          (∀ v ∈ S.problem.g s.finX, v < a.ctolOuter) ∧ ∀ v ∈ S.problem.h s.finX, |v| < a.ctolOuter)) ∧
        t.totNiter ≤ (a.maxiterTot - 1) + 2 * max 1 a.maxiterInner ∧
        ∃ i, t = outerUpdate S.problem gplusHard s i ∧
          StopsBy opt (innerObjective S.problem gplusHard s) (Num.vdivs s.finX s.xUnit) a.maxiterInner a.fstopInnerLast a.xstopInnerLast
            a.gtolInnerLast i)) := by
  obtain ⟨hx, hct, hcs, hmt, hit, hlt⟩ := setup_tolerances hs
  have hSu : S.phiUnit = phiUnit := by
    obtain ⟨_, _, _, _, h, -⟩ := quadcoilSetup_ok hs
    exact h
  cases hun : S.unconstrained with
  | true =>
    obtain ⟨i, hi, -⟩ := C01_inner_terminates opt hc realGrad S.problem.f S.x0
      ⟨S.problem.maxiterTot, S.problem.fstopInnerLast, S.problem.xstopInnerLast, S.problem.gtolInner⟩
    refine ⟨.inner i, dofsOf S.template S.phiUnit i.x, ?_, .inl ⟨rfl, i, rfl, by rw [hSu], ?_⟩⟩
    · unfold quadcoilSolve
      rw [if_pos hun, hi]
      rfl
    · have e1 : S.problem.fstopInnerLast = a.fstopInnerLast := congrArg InnerTol.fstop hlt
      have e2 : S.problem.xstopInnerLast = a.xstopInnerLast := congrArg InnerTol.xstop hlt
      have e3 : S.problem.gtolInner = a.gtolInner := congrArg InnerTol.gtol hit
      rw [hmt, e1, e2, e3] at hi
      exact C02_stopping_rule hc hv hg hi
  | false =>
    obtain ⟨n, s, t, hloop, hn, hiter, hlast, ht, -, htot⟩ := outer_run opt hc realGrad S.problem gplusHard S.x0
    have e4 : S.problem.maxiterInner = a.maxiterInner := congrArg InnerTol.maxiter hit
    refine ⟨.outer t, dofsOf S.template S.phiUnit t.finX, ?_, .inr ⟨rfl, n, s, t, rfl, by rw [hSu], by rwa [← hmt], by rwa [← hit], ?_,
      by rwa [← hmt, ← e4], ?_⟩⟩
    · unfold quadcoilSolve
      rw [if_neg (by rw [hun]; simp), ht]
      rfl
    · intro hlt'
      rw [← hmt] at hlt'
      obtain ⟨h1, h2⟩ := C10_loop_exit_any opt realGrad S.problem gplusHard S.x0 s hloop hlt'
      obtain ⟨-, -, -, s', hs', -, -, hsg, hsh⟩ := C08_status_consistent opt hc realGrad S.problem gplusHard S.x0 t ht
      rw [hloop] at hs'
      cases hs'
      rw [num_le_false, hx] at h1
      refine ⟨h1, ?_⟩
      rcases h2 with ⟨h2, h3⟩ | h2
      · refine .inr ⟨fun g hgm => ?_, fun h hhm => ?_⟩
        · have := h2 g (by rw [hsg]; exact hgm)
          rwa [num_le_false, hct] at this
        · have := h3 h (by rw [hsh]; exact hhm)
          rwa [num_le_false, hct, num_abs] at this
      · rw [num_le_false, hcs] at h2
        exact .inl h2
    · obtain ⟨i, hti, hrun, -⟩ := outerBody_spec hc hlast
      rw [hlt] at hrun
      exact ⟨i, hti, C02_stopping_rule hc hv hg hrun⟩

/-- **C139, a tolerance without effect.** Without constraints the call ignores `gtol_inner_last`, though `fstop_inner_last` and
`xstop_inner_last` are used: whatever its value, the run and the result are the same. -/
theorem C139_gtol_last_ignored_violated_partial {P : Type} [HasQp P] {reg : Registry P} {qp : P} {a : QuadcoilArgs} {phiUnit gtol : ℝ} {S S' : Setup}
    (hs : quadcoilSetup reg qp a phiUnit = .ok S) (hs' : quadcoilSetup reg qp { a with gtolInnerLast := gtol } phiUnit = .ok S')
    (hun : S.unconstrained = true) (opt : Optimizer ℝ) (gradOp : (List ℝ → ℝ) → List ℝ → List ℝ) :
    quadcoilSolve opt gradOp S' = quadcoilSolve opt gradOp S := by
  unfold quadcoilSetup at hs hs'
  change (fghFromY reg qp a >>= _) = _ at hs'
  simp only [bind, Except.bind] at hs hs'
  split at hs
  · cases hs
  rename_i p hp
  simp only [hp] at hs'
  split at hs
  · cases hs
  rename_i g0 hg0
  simp only [hg0] at hs'
  split at hs
  · cases hs
  rename_i h0 hh0
  simp only [hh0] at hs'
  split at hs
  · cases hs
  rename_i hf
  rw [if_neg hf] at hs'
  cases hs
  cases hs'
  unfold quadcoilSolve
  rw [if_pos hun, if_pos hun]

/-- The call without constraints on the torus, with gradient descent. -/
example : ∃ S, quadcoilSetup (shippedRegistry FieldProblem.fns []) resolvedTorus freeArgs 7 = .ok S ∧ ∃ i d,
    quadcoilSolve (gradientDescent realGrad (1 / 4)) realGrad S = some (.inner i, d) ∧
    StopsBy (gradientDescent realGrad (1 / 4)) S.problem.f S.x0 5 1 1 1 i := by
  obtain ⟨S, hS⟩ := freeArgs_ok
  obtain ⟨r, d, hr, h⟩ := C139_why_a_call_stops hS (gradientDescent_count realGrad (1 / 4)) (gradientDescent_value _ _) (fun _ _ _ _ _ => rfl)
  have hun := ((setup_plain hS (by simp [freeArgs, smoothArgs])).2 freeArgs_requests rfl).1
  rcases h with ⟨-, i, rfl, -, hi⟩ | ⟨h, -⟩
  · exact ⟨S, hS, i, d, hr, hi⟩
  · rw [hun] at h
    cases h

/-- On the torus `gtol_inner_last` has no effect. -/
example (gtol : ℝ) : ∃ S S', quadcoilSetup (shippedRegistry FieldProblem.fns []) resolvedTorus freeArgs 7 = .ok S ∧
    quadcoilSetup (shippedRegistry FieldProblem.fns []) resolvedTorus { freeArgs with gtolInnerLast := gtol } 7 = .ok S' ∧
    ∀ opt : Optimizer ℝ, quadcoilSolve opt realGrad S' = quadcoilSolve opt realGrad S := by
  obtain ⟨S, hS⟩ := freeArgs_ok
  obtain ⟨S', hS'⟩ : ∃ S', quadcoilSetup (shippedRegistry FieldProblem.fns []) resolvedTorus { freeArgs with gtolInnerLast := gtol } 7 = .ok S' :=
    (C131_setup_succeeds_iff_legal [] resolvedTorus { freeArgs with gtolInnerLast := gtol } 7).2
      ((C131_setup_succeeds_iff_legal [] resolvedTorus freeArgs 7).1 ⟨S, hS⟩)
  exact ⟨S, S', hS, hS', fun opt => C139_gtol_last_ignored_violated_partial hS hS'
    ((setup_plain hS (by simp [freeArgs, smoothArgs])).2 freeArgs_requests rfl).1 opt realGrad⟩

end Verif
