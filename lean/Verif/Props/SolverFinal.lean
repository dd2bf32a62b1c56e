import Verif.Props.SolverOuter
import Verif.Props.Multipliers

/-!
# Property C60: feasibility of the returned status (false of the code), and examples for C08, C10, C12, C13
-/

namespace Verif

/-- If the gradient after the first iteration is within `gtol`, the inner minimiser returns after that iteration. -/
theorem runOpt_one_step (opt : Optimizer ℝ) (hc : opt.CountContract) (gradOp : (List ℝ → ℝ) → List ℝ → List ℝ)
    (f : List ℝ → ℝ) (x0 : List ℝ) (tol : InnerTol ℝ)
    (hg : Num.norm (opt.grad (innerIter opt gradOp f x0 tol.fstop 1).state) ≤ tol.gtol) :
    runOpt opt gradOp f x0 tol = some (innerIter opt gradOp f x0 tol.fstop 1).result := by
  have hcond0 : innerContinue opt tol (innerIter opt gradOp f x0 tol.fstop 0) = true := by
    simp [innerContinue, innerIter_count hc]
  have hgf : Num.lt tol.gtol (Num.norm (opt.grad (innerIter opt gradOp f x0 tol.fstop 1).state)) = false :=
    (num_lt_false _ _).2 hg
  have hcond1 : innerContinue opt tol (innerIter opt gradOp f x0 tol.fstop 1) = false := by
    simp [innerContinue, innerIter_count hc, hgf]
  have hrun : runOptCarry opt gradOp f x0 tol = some (innerIter opt gradOp f x0 tol.fstop 1) := by
    refine whileLoop_eq_of (n := 1) (iterM_some _ _ _) hcond1 ?_
    intro m hm
    have : m = 0 := by omega
    subst this
    exact ⟨_, rfl, hcond0⟩
  rw [runOpt, hrun]
  rfl

/-- One gradient descent step on a function of one variable. -/
theorem gd_one_step (f : List ℝ → ℝ) (x d step fstop : ℝ) (hd : realGrad f [x] = [d]) :
    (innerIter (gradientDescent realGrad step) realGrad f [x] fstop 1).params = [x - step * d] ∧
    (gradientDescent realGrad step).grad (innerIter (gradientDescent realGrad step) realGrad f [x] fstop 1).state
      = realGrad f [x - step * d] := by
  have h1 : Num.vadd ([x] : List ℝ) (List.map (fun t => Num.neg (Num.mul step t)) [d]) = [x - step * d] := by
    simp [Num.vadd, sub_eq_add_neg]
  rw [innerIter_succ]
  constructor
  · simp only [innerStep, innerIter_zero, initCarry, valueAndGradFromState, gradientDescent]
    simp only [Option.isSome_none, Bool.false_eq_true, if_false]
    rw [hd, h1]
  · simp only [innerStep, innerIter_zero, initCarry, valueAndGradFromState, gradientDescent]
    simp only [Option.isSome_none, Bool.false_eq_true, if_false]
    rw [hd, h1]

/-- Minimise `(x-10)²/2` subject to `x ≤ 0`, with loose tolerances. -/
noncomputable def witness60 : Problem ℝ where
  f := fun x => (x.headD 0 - 10) ^ 2 / 2
  g := fun x => x
  h := fun _ => []
  cInit := 1
  cGrowth := 2
  lamInit := []
  muInit := [0]
  xstopOuter := 2
  ctolOuter := 3 / 2
  fstopInner := 0
  xstopInner := 0
  gtolInner := 100
  fstopInnerLast := 0
  xstopInnerLast := 0
  gtolInnerLast := 100
  maxiterTot := 100
  maxiterInner := 5
  cSafe := 1000

theorem witness60_grad (s : Status ℝ) (mu : ℝ) (hu : s.xUnit = 1) (hl : s.finLam = []) (hm : s.finMu = [mu])
    (hcc : s.finC = 1) (t : ℝ) :
    realGrad (innerObjective witness60 gplusHard s) [t] = [(t - 10) + max (mu + 1 * t) 0] := by
  have hobj : (fun u : ℝ => innerObjective witness60 gplusHard s (([t] : List ℝ).set 0 u)) = fun u =>
      (u - 10) ^ 2 / 2 + (mu * max u (-mu / 1) + 1 / 2 * (max u (-mu / 1) * max u (-mu / 1))) := by
    funext u
    simp [innerObjective, augLag, witness60, hu, hl, hm, hcc, Num.vscale, Num.dot, gplusHard]
    ring
  have h1 : HasDerivAt (fun u : ℝ => (u - 10) ^ 2 / 2) (t - 10) t := by
    have := (((hasDerivAt_id t).sub_const 10).pow 2).div_const 2
    refine this.congr_deriv ?_
    simp
  have h2 := h1.add (hasDerivAt_gplus_term (mu := mu) (c := 1) one_pos t)
  have h3 : deriv (fun u : ℝ => (u - 10) ^ 2 / 2 + (mu * max u (-mu / 1) + 1 / 2 * (max u (-mu / 1) * max u (-mu / 1)))) t
      = (t - 10) + max (mu + 1 * t) 0 := h2.deriv
  simp only [realGrad, List.length_singleton, List.range_one, List.map_cons, List.map_nil]
  rw [hobj]
  simp only [List.getD_cons_zero]
  rw [h3]

theorem witness60_body (s : Status ℝ) (x mu : ℝ) (hx : s.finX = [x]) (hu : s.xUnit = 1) (hl : s.finLam = [])
    (hm : s.finMu = [mu]) (hcc : s.finC = 1) (tol : InnerTol ℝ) (y : ℝ)
    (hy : y = x - 1 / 10 * ((x - 10) + max (mu + 1 * x) 0))
    (htol : |(y - 10) + max (mu + 1 * y) 0| ≤ tol.gtol) :
    ∃ r, outerBody (gradientDescent realGrad (1 / 10)) realGrad witness60 gplusHard tol s
        = some (outerUpdate witness60 gplusHard s r) ∧ r.x = [y] ∧ r.count = 1 := by
  have hc := gradientDescent_count realGrad (1 / 10 : ℝ)
  have hstart : Num.vdivs s.finX s.xUnit = [x] := by simp [hx, hu, Num.vdivs]
  have hg := witness60_grad s mu hu hl hm hcc
  obtain ⟨hp, hgr⟩ := gd_one_step (innerObjective witness60 gplusHard s) x _ (1 / 10) tol.fstop (hg x)
  rw [← hy] at hp hgr
  rw [hg y] at hgr
  have hnorm : Num.norm [(y - 10) + max (mu + 1 * y) 0] = |(y - 10) + max (mu + 1 * y) 0| := by
    rw [num_norm]; simp [Real.sqrt_mul_self_eq_abs]
  have hrun := runOpt_one_step (gradientDescent realGrad (1 / 10)) hc realGrad (innerObjective witness60 gplusHard s) [x] tol
    (by rw [hgr, hnorm]; exact htol)
  refine ⟨_, by rw [outerBody, hstart, hrun]; rfl, hp, ?_⟩
  exact innerIter_count hc _ _

/-- **C60** is false of the code: a run whose loop ends converged (budget left, penalty safe, constraint satisfied to
`ctol`), while the returned status, produced by one further unchecked solve, violates the constraint by more than
`ctol`. -/
theorem C60_returned_infeasible_violated_partial :
    ∃ (opt : Optimizer ℝ) (p : Problem ℝ) (x0 : List ℝ) (s r : Status ℝ),
      opt.CountContract ∧ opt.ValueContract ∧ outerLoop opt realGrad p gplusHard x0 = some s ∧
      s.totNiter < p.maxiterTot ∧ s.finC ≤ p.cSafe ∧ (∀ g ∈ p.g s.finX, g < p.ctolOuter) ∧
      solveConstrained opt realGrad p gplusHard x0 = some r ∧ r.finNiter < p.maxiterInner ∧
      ∃ g ∈ p.g r.finX, p.ctolOuter < g := by
  have hc := gradientDescent_count realGrad (1 / 10 : ℝ)
  have hv := gradientDescent_value realGrad (1 / 10 : ℝ)
  obtain ⟨r1, hb1, hr1, hr1c⟩ := witness60_body (initStatus witness60 [0]) 0 0 rfl (by simp [initStatus]) rfl rfl rfl
    witness60.innerTol 1 (by norm_num) (by norm_num [Problem.innerTol, witness60, abs_of_nonpos])
  have hs1x : (outerUpdate witness60 gplusHard (initStatus witness60 [0]) r1).finX = [1] := by
    simp [outerUpdate, hr1, initStatus, Num.vscale]
  have hs1u : (outerUpdate witness60 gplusHard (initStatus witness60 [0]) r1).xUnit = 1 := by
    simp [outerUpdate, hr1, initStatus, Num.vscale, num_norm]
  have hs1m : (outerUpdate witness60 gplusHard (initStatus witness60 [0]) r1).finMu = [1] := by
    simp [outerUpdate, hr1, initStatus, Num.vscale, witness60, gplusHard, Num.vadd]
  have hs1l : (outerUpdate witness60 gplusHard (initStatus witness60 [0]) r1).finLam = [] := by
    simp [outerUpdate, initStatus, witness60, Num.vadd]
  have hs1c : (outerUpdate witness60 gplusHard (initStatus witness60 [0]) r1).finC = 1 := by
    have : updateMultiplier witness60 (witness60.g [1]) (witness60.h [1]) 1 1 = true := by
      norm_num [updateMultiplier, witness60]
    simp only [outerUpdate, hr1, hr1c, initStatus, Num.vscale, List.map_cons, List.map_nil, num_mul, num_ofNat,
      Nat.cast_one, mul_one]
    have hcI : witness60.cInit = 1 := rfl
    rw [hcI, this]; rfl
  have hs1t : (outerUpdate witness60 gplusHard (initStatus witness60 [0]) r1).totNiter = 1 := by
    simp [outerUpdate, hr1c, initStatus]
  have hs1d : (outerUpdate witness60 gplusHard (initStatus witness60 [0]) r1).outerDx = 1 := by
    simp [outerUpdate, hr1, initStatus, Num.vscale, Num.vsub, num_norm]
  have hs1g : (outerUpdate witness60 gplusHard (initStatus witness60 [0]) r1).finG = [1] := by
    simp [outerUpdate, hr1, initStatus, Num.vscale, witness60]
  have hs1h : (outerUpdate witness60 gplusHard (initStatus witness60 [0]) r1).finH = [] := by
    simp [outerUpdate, witness60]
  generalize hs1 : outerUpdate witness60 gplusHard (initStatus witness60 [0]) r1 = s1 at *
  have hstop : outerContinue witness60 s1 = false := by
    simp only [outerContinue, hs1t, hs1d, hs1g, hs1h, hs1c]
    norm_num [witness60]
  have hloop : outerLoop (gradientDescent realGrad (1 / 10)) realGrad witness60 gplusHard [0] = some s1 := by
    refine whileLoop_eq_of (n := 1) (by simp only [iterM, hb1, Option.bind_some]) hstop ?_
    intro m hm
    have : m = 0 := by omega
    subst this
    exact ⟨_, rfl, by simp [outerContinue, initStatus]⟩
  obtain ⟨r2, hb2, hr2, hr2c⟩ := witness60_body s1 1 1 hs1x hs1u hs1l hs1m hs1c
    witness60.lastTol (17 / 10) (by norm_num) (by norm_num [Problem.lastTol, witness60, abs_of_nonpos])
  refine ⟨gradientDescent realGrad (1 / 10), witness60, [0], s1, outerUpdate witness60 gplusHard s1 r2, hc, hv, hloop, ?_,
    ?_, ?_, ?_, ?_, 17 / 10, ?_, ?_⟩
  · rw [hs1t]; norm_num [witness60]
  · rw [hs1c]; norm_num [witness60]
  · rw [hs1x]; norm_num [witness60]
  · simp only [solveConstrained, hloop, Option.bind_some, hb2]
  · simp [outerUpdate, hr2c, witness60]
  · simp [outerUpdate, hr2, hs1u, Num.vscale, witness60]
  · norm_num [witness60]

/-- C10's hypotheses (and those of C08) are met by the run of the previous theorem. -/
example : ∃ (opt : Optimizer ℝ) (p : Problem ℝ) (x0 : List ℝ) (s r : Status ℝ), opt.CountContract ∧
    outerLoop opt realGrad p gplusHard x0 = some s ∧ s.totNiter < p.maxiterTot ∧ s.finC ≤ p.cSafe ∧
    solveConstrained opt realGrad p gplusHard x0 = some r := by
  obtain ⟨opt, p, x0, s, r, h1, -, h2, h3, h4, -, h5, -⟩ := C60_returned_infeasible_violated_partial
  exact ⟨opt, p, x0, s, r, h1, h2, h3, h4, h5⟩

/-- The hypotheses of C85 are met by the same run. -/
example : ∃ (opt : Optimizer ℝ) (p : Problem ℝ) (x0 : List ℝ) (r : Status ℝ), opt.CountContract ∧ opt.ValueContract ∧
    solveConstrained opt realGrad p gplusHard x0 = some r ∧ r.finNiter < p.maxiterInner := by
  obtain ⟨opt, p, x0, s, r, h1, h0, h2, h3, h4, -, h5, h6, -⟩ := C60_returned_infeasible_violated_partial
  exact ⟨opt, p, x0, r, h1, h0, h5, h6⟩

/-- A state and step meeting the hypotheses of C12: `x = 0` with multiplier 3 for `g(x) = x`, no equality. -/
example : ∃ (s : Status ℝ) (r : InnerResult ℝ), 0 < s.finC ∧ s.finLam = List.ofFn (![] : Fin 0 → ℝ) ∧
    s.finMu = List.ofFn ![3] ∧ witness60.h (outerUpdate witness60 gplusHard s r).finX = List.ofFn (![] : Fin 0 → ℝ) ∧
    witness60.g (outerUpdate witness60 gplusHard s r).finX = List.ofFn (![0] : Fin 1 → ℝ) := by
  refine ⟨{ initStatus witness60 [0] with finMu := [3] }, ⟨[0], 0, [], 1, 0, 0, 0⟩, ?_, ?_, ?_, ?_, ?_⟩ <;>
    simp [initStatus, witness60, outerUpdate, Num.vscale]

end Verif
