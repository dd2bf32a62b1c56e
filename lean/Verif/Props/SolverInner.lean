import Verif.Lemmas.Solver
import Verif.Spec.Toy
import Mathlib.Tactic.NormNum
import Mathlib.Analysis.Calculus.Deriv.Pow
import Mathlib.Analysis.Calculus.Deriv.Add

/-!
# Properties C01, C02, C03, C09: the inner minimiser
-/

namespace Verif

section any
variable {α : Type} [Num α]

/-- **C01.** The inner minimiser terminates for every objective, start, tolerance and arithmetic, and the
reported iteration count is between 1 and `max 1 maxiter`. -/
theorem C01_inner_terminates (opt : Optimizer α) (hc : opt.CountContract)
    (gradOp : (List α → α) → List α → List α) (f : List α → α) (x0 : List α) (tol : InnerTol α) :
    ∃ r, runOpt opt gradOp f x0 tol = some r ∧ 1 ≤ r.count ∧ r.count ≤ max 1 tol.maxiter :=
  runOpt_terminates hc

/-- The hypothesis of C01 is met by gradient descent. -/
example (gradOp : (List α → α) → List α → List α) (f : List α → α) (x0 : List α) (tol : InnerTol α) :
    ∃ r, runOpt (gradientDescent gradOp tol.xstop) gradOp f x0 tol = some r ∧
      1 ≤ r.count ∧ r.count ≤ max 1 tol.maxiter :=
  C01_inner_terminates _ (gradientDescent_count _ _) _ _ _ _

/-- The sequence of points visited by the inner minimiser: every update and every state is the one of the optimiser, given the value of the
objective and the gradient (of the state if the optimiser keeps one) at the current point. Consecutive points differ by an update, `count` is
the number of updates and the returned point is the last one. The optimiser and the start determine the sequence. -/
structure InnerTrace (opt : Optimizer α) (gradOp : (List α → α) → List α → List α) (f : List α → α) (x0 : List α) (r : InnerResult α)
    (xs us : ℕ → List α) (ss : ℕ → opt.State) : Prop where
  start : xs 0 = x0
  startState : ss 0 = opt.init x0
  update : ∀ k < r.count, opt.update (if opt.valueFinite (ss k) then opt.grad (ss k) else gradOp f (xs k)) (ss k) (xs k) (f (xs k)) f =
    (us k, ss (k + 1))
  step : ∀ k < r.count, xs (k + 1) = Num.vadd (xs k) (us k)
  final : xs r.count = r.x

/-- **C02.** If the inner minimiser stops with fewer than `maxiter` iterations then a stopping tolerance was
met: the gradient norm is not above `gtol`; or the average improvement of the last ten recorded values is not above
`fstop`; or the last step, the last change of the update and the last change of the value are all not
above their tolerances. The record consists of the last ten entries of the initial record followed by the
objective values at the visited points (so from ten iterations on, only of objective values).
Any arithmetic. -/
theorem C02_inner_early_stop (opt : Optimizer α) (hc : opt.CountContract) (hv : opt.ValueContract)
    (gradOp : (List α → α) → List α → List α) (f : List α → α) (x0 : List α) (tol : InnerTol α)
    (r : InnerResult α) (h : runOpt opt gradOp f x0 tol = some r) (hlt : r.count < tol.maxiter) :
    ∃ (xs us : ℕ → List α) (ss : ℕ → opt.State), InnerTrace opt gradOp f x0 r xs us ss ∧
      (Num.lt tol.gtol (Num.norm r.grad) = false ∨
        Num.lt tol.fstop (Num.average
          (let rec_ := (initValRec tol.fstop (f x0) 10 ++ (List.range r.count).map fun k => f (xs k)).drop r.count
           List.zipWith Num.sub rec_.dropLast rec_.tail)) = false ∨
        (Num.lt tol.xstop r.dx = false ∧ Num.lt tol.xstop r.du = false ∧ Num.lt tol.fstop r.df = false)) := by
  unfold runOpt at h
  cases hcarry : runOptCarry opt gradOp f x0 tol with
  | none => simp [hcarry] at h
  | some c =>
    simp only [hcarry, Option.map_some, Option.some.injEq] at h
    obtain ⟨n, hcn, hstop, hgo, h1, h2⟩ := runOptCarry_spec hc hcarry
    have hcount : r.count = n := by
      rw [← h]; simp only [Carry.result]; rw [hcn]; exact innerIter_count hc _ _
    refine ⟨fun k => (innerIter opt gradOp f x0 tol.fstop k).params,
      fun k => (innerIter opt gradOp f x0 tol.fstop (k + 1)).updates,
      fun k => (innerIter opt gradOp f x0 tol.fstop k).state, ⟨rfl, rfl, ?_, ?_, ?_⟩, ?_⟩
    · intro k _
      have hval := valueAndGrad_value (opt := opt) (gradOp := gradOp) (f := f) (x0 := x0) hv tol.fstop k
      simp only [innerIter_succ, innerStep]
      rw [hval]
      congr 1
      unfold valueAndGradFromState
      split <;> rename_i hfin <;> simp [hfin]
    · intro k _
      rw [innerIter_succ]
      rfl
    · rw [hcount, ← h, ← hcn]; rfl
    · have hne : opt.count c.state ≠ 0 := by
        rw [hcn, innerIter_count hc]; omega
      have hlt' : opt.count c.state < tol.maxiter := by
        rw [← h] at hlt; exact hlt
      have hrec : c.valRec = (initValRec tol.fstop (f x0) 10 ++
          (List.range r.count).map fun k => f (innerIter opt gradOp f x0 tol.fstop k).params).drop r.count := by
        rw [hcount, hcn]; exact innerIter_valRec hv _ _
      simp only [innerContinue, Bool.or_eq_false_iff, beq_eq_false_iff_ne, ne_eq, hne, not_false_eq_true,
        true_and, hlt', decide_true, Bool.true_and, Bool.and_eq_false_iff] at hstop
      have hgr : r.grad = opt.grad c.state := by rw [← h]; rfl
      have hdx : r.dx = Num.norm c.dx := by rw [← h]; rfl
      have hdu : r.du = Num.norm c.du := by rw [← h]; rfl
      have hdf : r.df = c.df := by rw [← h]; rfl
      rw [hgr, hdx, hdu, hdf]
      simp only
      rw [← hrec]
      rcases hstop with (hs | hs) | hs
      · exact Or.inl hs
      · exact Or.inr (Or.inl hs)
      · exact Or.inr (Or.inr ⟨hs.1.1, hs.1.2, hs.2⟩)

/-- **C09** (true part, any arithmetic): the returned value is the objective at the point *before* the last update,
the returned point is the one after it; both are points of the run of the optimiser from the start point. -/
theorem C09_value_is_previous_partial (opt : Optimizer α) (hc : opt.CountContract) (hv : opt.ValueContract)
    (gradOp : (List α → α) → List α → List α) (f : List α → α) (x0 : List α) (tol : InnerTol α)
    (r : InnerResult α) (h : runOpt opt gradOp f x0 tol = some r) :
    ∃ (xs us : ℕ → List α) (ss : ℕ → opt.State) (n : ℕ), InnerTrace opt gradOp f x0 r xs us ss ∧ r.count = n + 1 ∧
      r.x = Num.vadd (xs n) (us n) ∧ r.value = f (xs n) := by
  unfold runOpt at h
  cases hcarry : runOptCarry opt gradOp f x0 tol with
  | none => simp [hcarry] at h
  | some c =>
    simp only [hcarry, Option.map_some, Option.some.injEq] at h
    obtain ⟨n, hcn, hstop, hgo, h1, h2⟩ := runOptCarry_spec hc hcarry
    have hcount : r.count = n := by
      rw [← h]; simp only [Carry.result]; rw [hcn]; exact innerIter_count hc _ _
    obtain ⟨k, rfl⟩ : ∃ k, n = k + 1 := ⟨n - 1, by omega⟩
    refine ⟨fun k => (innerIter opt gradOp f x0 tol.fstop k).params,
      fun k => (innerIter opt gradOp f x0 tol.fstop (k + 1)).updates,
      fun k => (innerIter opt gradOp f x0 tol.fstop k).state, k, ⟨rfl, rfl, ?_, ?_, ?_⟩, hcount, ?_, ?_⟩
    · intro k _
      have hval := valueAndGrad_value (opt := opt) (gradOp := gradOp) (f := f) (x0 := x0) hv tol.fstop k
      simp only [innerIter_succ, innerStep]
      rw [hval]
      congr 1
      unfold valueAndGradFromState
      split <;> rename_i hfin <;> simp [hfin]
    · intro k _
      rw [innerIter_succ]
      rfl
    · rw [hcount, ← h, ← hcn]; rfl
    · rw [← h, hcn]
      simp only [Carry.result]
      rw [innerIter_succ]
      rfl
    · rw [← h, hcn]
      exact innerIter_value hv _ _

end any

/-- **C02** (average improvement, reals): the average of consecutive differences of a record of ten values is
(oldest - newest)/9. -/
theorem C02_average_improvement (rec_ : List ℝ) (hlen : rec_.length = 10) :
    avgImprovement rec_ = (rec_[0]'(by omega) - rec_[9]'(by omega)) / 9 := by
  match rec_, hlen with
  | a :: l, hl =>
    have hl9 : l.length = 9 := by simpa using hl
    have hd : (List.zipWith (fun x y : ℝ => x - y) (a :: l).dropLast (a :: l).tail).length = 9 := by
      simp [hl9]
    unfold avgImprovement Num.average Num.vsub
    have hsub : (Num.sub : ℝ → ℝ → ℝ) = fun x y => x - y := rfl
    rw [hsub, num_sum, sum_consecutive_sub, hd, List.getLast_eq_getElem]
    simp [hl9]

example : avgImprovement ([10, 9, 8, 7, 6, 5, 4, 3, 2, 1] : List ℝ) = 1 := by
  rw [C02_average_improvement _ rfl]; norm_num

theorem initValRec_real (fstop v : ℝ) : initValRec fstop v 10 =
    (List.range 10).map fun i : ℕ => 1000 * fstop + (i : ℝ) * (0 - 1000 * fstop) / 9 + v * 2 := by
  simp [initValRec, Num.linspace]

/-- The improvement measured after the first iteration is `(f(x0) + 8000/9 fstop)/9`, whatever the step does. -/
theorem avgImprovement_after_first (opt : Optimizer ℝ) (hv : opt.ValueContract)
    (gradOp : (List ℝ → ℝ) → List ℝ → List ℝ) (f : List ℝ → ℝ) (x0 : List ℝ) (fstop : ℝ) :
    avgImprovement (innerIter opt gradOp f x0 fstop 1).valRec = (f x0 + 8000 / 9 * fstop) / 9 := by
  rw [C02_average_improvement _ (innerIter_valRec_length _ _)]
  have hrec := innerIter_valRec (gradOp := gradOp) (f := f) (x0 := x0) hv fstop 1
  simp only [hrec, initValRec_real]
  simp [List.range_succ, innerIter_zero, initCarry]
  ring

/-- **C03** (exact stopping rule of the first iteration): if the objective at the start is at most
`-(7919/9)*fstop`, the inner minimiser performs exactly one iteration, for every objective, optimiser and tolerance:
a negative start value stops the minimisation. -/
theorem C03_negative_start_stops_partial (opt : Optimizer ℝ) (hc : opt.CountContract) (hv : opt.ValueContract)
    (gradOp : (List ℝ → ℝ) → List ℝ → List ℝ) (f : List ℝ → ℝ) (x0 : List ℝ) (tol : InnerTol ℝ)
    (hneg : f x0 ≤ -(7919 / 9) * tol.fstop) :
    ∃ r, runOpt opt gradOp f x0 tol = some r ∧ r.count = 1 := by
  have hcond0 : innerContinue opt tol (innerIter opt gradOp f x0 tol.fstop 0) = true := by
    simp [innerContinue, innerIter_count hc]
  have havg : Num.lt tol.fstop (avgImprovement (innerIter opt gradOp f x0 tol.fstop 1).valRec) = false := by
    rw [avgImprovement_after_first opt hv, num_lt_false]
    linarith
  have hcond1 : innerContinue opt tol (innerIter opt gradOp f x0 tol.fstop 1) = false := by
    simp [innerContinue, innerIter_count hc, havg]
  have hrun : runOptCarry opt gradOp f x0 tol = some (innerIter opt gradOp f x0 tol.fstop 1) := by
    refine whileLoop_eq_of (n := 1) (iterM_some _ _ _) hcond1 ?_
    intro m hm
    have : m = 0 := by omega
    subst this
    exact ⟨_, rfl, hcond0⟩
  refine ⟨(innerIter opt gradOp f x0 tol.fstop 1).result, by simp [runOpt, hrun], ?_⟩
  exact innerIter_count hc _ _

/-- The quadratic objective `x ↦ x²` of one variable. -/
noncomputable def quadObj (x : List ℝ) : ℝ := (x.headD 0) ^ 2

theorem realGrad_quadObj (s : ℝ) (t : ℝ) : realGrad (fun x => quadObj x + s) [t] = [2 * t] := by
  have hd : deriv (fun u : ℝ => u ^ 2 + s) t = 2 * t := by
    simp
  have : (fun u : ℝ => quadObj (([t] : List ℝ).set 0 u) + s) = fun u => u ^ 2 + s := by
    funext u; simp [quadObj]
  simp only [realGrad, List.length_singleton, List.range_one, List.map_cons, List.map_nil]
  rw [this]
  simp only [List.getD_cons_zero, hd]

theorem innerIter_quad_one (s : ℝ) :
    let c := innerIter (gradientDescent realGrad (1 / 4)) realGrad (fun x => quadObj x + s) [1] 0 1
    c.params = [1 / 2] ∧ c.dx = [1 / 2] ∧
      (gradientDescent realGrad (1 / 4)).grad c.state = [1] := by
  have hg := realGrad_quadObj s
  have h1 : Num.vadd ([1] : List ℝ) (List.map (fun t => Num.neg (Num.mul (1 / 4 : ℝ) t)) [2 * 1]) = [1 / 2] := by
    simp [Num.vadd]; norm_num
  have hst : (innerIter (gradientDescent realGrad (1 / 4)) realGrad (fun x => quadObj x + s) [1] 0 0).params = [1] := rfl
  rw [innerIter_succ]
  refine ⟨?_, ?_, ?_⟩
  · simp only [innerStep, innerIter_zero, initCarry, valueAndGradFromState, gradientDescent, hg]
    simpa using h1
  · simp only [innerStep, innerIter_zero, initCarry, valueAndGradFromState, gradientDescent, hg]
    simp only [Option.isSome_none, Bool.false_eq_true, if_false]
    rw [h1]
    simp [Num.vabs, Num.vsub]
    norm_num [abs_of_nonpos]
  · simp only [innerStep, innerIter_zero, initCarry, valueAndGradFromState, gradientDescent, hg]
    simp only [Option.isSome_none, Bool.false_eq_true, if_false]
    rw [h1, hg]
    norm_num

/-- **C03** is false of the code: with the true gradient, gradient descent, the same start and the same tolerances,
`x²` is iterated at least twice, while `x² - 2`, which has the same minimiser and gradients, is abandoned after
one iteration. -/
theorem C03_shift_dependence_violated_partial :
    ∃ (opt : Optimizer ℝ) (tol : InnerTol ℝ) (f : List ℝ → ℝ) (s : ℝ) (x0 : List ℝ) (r r' : InnerResult ℝ),
      opt.CountContract ∧ opt.ValueContract ∧
      runOpt opt realGrad f x0 tol = some r ∧ runOpt opt realGrad (fun x => f x + s) x0 tol = some r' ∧
      2 ≤ r.count ∧ r'.count = 1 := by
  have hc := gradientDescent_count realGrad (1 / 4 : ℝ)
  have hv := gradientDescent_value realGrad (1 / 4 : ℝ)
  obtain ⟨r', hr', hr'1⟩ := C03_negative_start_stops_partial (gradientDescent realGrad (1 / 4)) hc hv realGrad
    (fun x => quadObj x + 0 + -2) [1] ⟨5, 0, 0, 0⟩ (by norm_num [quadObj])
  obtain ⟨c, hcar⟩ := runOptCarry_terminates (opt := gradientDescent realGrad (1 / 4)) (gradOp := realGrad)
    (f := fun x => quadObj x + 0) (x0 := [1]) (tol := ⟨5, 0, 0, 0⟩) hc
  obtain ⟨n, hcn, hstop, hgo, h1, h2⟩ := runOptCarry_spec hc hcar
  refine ⟨gradientDescent realGrad (1 / 4), ⟨5, 0, 0, 0⟩, fun x => quadObj x + 0, -2, [1], c.result, r', hc, hv,
    by rw [runOpt, hcar]; rfl, hr', ?_, hr'1⟩
  have hcount : c.result.count = n := by
    rw [hcn]; exact innerIter_count hc _ _
  rw [hcount]
  by_contra hlt
  have hn1 : n = 1 := by omega
  subst hn1
  obtain ⟨-, hdx, hgr⟩ := innerIter_quad_one 0
  have havg := avgImprovement_after_first (gradientDescent realGrad (1 / 4)) hv realGrad
    (fun x => quadObj x + 0) [1] 0
  rw [hcn] at hstop
  simp only [innerContinue, innerIter_count hc, hdx, hgr, havg] at hstop
  simp [quadObj, num_norm] at hstop
  norm_num at hstop

/-- The hypotheses of C02 and C09 are met by a concrete run: `x² - 2` from 1 stops after 1 of 5 iterations. -/
example : ∃ r, runOpt (gradientDescent realGrad (1 / 4 : ℝ)) realGrad (fun x => quadObj x + -2) [1] ⟨5, 0, 0, 0⟩ = some r
    ∧ r.count < 5 := by
  obtain ⟨r, h, h1⟩ := C03_negative_start_stops_partial _ (gradientDescent_count realGrad (1 / 4 : ℝ))
    (gradientDescent_value realGrad (1 / 4 : ℝ)) realGrad (fun x => quadObj x + -2) [1] ⟨5, 0, 0, 0⟩
    (by norm_num [quadObj])
  exact ⟨r, h, by omega⟩

/-- **C09** is false of the code: a run whose reported value differs from the objective at the reported point
(gradient descent on `x² - 2` from 1 reports the value -1 at the point 1/2, where the objective is -7/4). -/
theorem C09_stale_value_violated_partial :
    ∃ (opt : Optimizer ℝ) (tol : InnerTol ℝ) (f : List ℝ → ℝ) (x0 : List ℝ) (r : InnerResult ℝ),
      opt.CountContract ∧ opt.ValueContract ∧ runOpt opt realGrad f x0 tol = some r ∧ r.value ≠ f r.x := by
  have hc := gradientDescent_count realGrad (1 / 4 : ℝ)
  have hv := gradientDescent_value realGrad (1 / 4 : ℝ)
  obtain ⟨c, hcar⟩ := runOptCarry_terminates (opt := gradientDescent realGrad (1 / 4)) (gradOp := realGrad)
    (f := fun x => quadObj x + -2) (x0 := [1]) (tol := ⟨5, 0, 0, 0⟩) hc
  obtain ⟨r', hr', hr'1⟩ := C03_negative_start_stops_partial (gradientDescent realGrad (1 / 4)) hc hv realGrad
    (fun x => quadObj x + -2) [1] ⟨5, 0, 0, 0⟩ (by norm_num [quadObj])
  obtain ⟨n, hcn, hstop, hgo, h1, h2⟩ := runOptCarry_spec hc hcar
  have hr'c : r' = c.result := by
    simp only [runOpt, hcar, Option.map_some, Option.some.injEq] at hr'
    exact hr'.symm
  have hcount : c.result.count = n := by
    rw [hcn]; exact innerIter_count hc _ _
  have hn : n = 1 := by rw [← hcount, ← hr'c]; exact hr'1
  subst hn
  refine ⟨gradientDescent realGrad (1 / 4), ⟨5, 0, 0, 0⟩, fun x => quadObj x + -2, [1], c.result, hc, hv,
    by rw [runOpt, hcar]; rfl, ?_⟩
  obtain ⟨hp, -, -⟩ := innerIter_quad_one (-2)
  have hval : c.value = quadObj [1] + -2 := by
    rw [hcn]; exact innerIter_value hv _ _
  simp only [Carry.result]
  rw [hval, hcn, hp]
  norm_num [quadObj]

end Verif
