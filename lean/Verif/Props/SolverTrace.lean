import Verif.Props.SolverInner
import Verif.Lemmas.Outer

/-!
# Properties C02, C08, C84, C85: what the reported numbers of the solver mean, for any arithmetic
-/

namespace Verif

variable {α : Type} [Num α]

/-- Contract of the gradient stored by optax's zoom line search: after an update it is the gradient at the updated
parameters. -/
def Optimizer.GradContract (opt : Optimizer α) (gradOp : (List α → α) → List α → List α) : Prop :=
  ∀ g s p v f, opt.grad (opt.update g s p v f).2 = gradOp f (Num.vadd p (opt.update g s p v f).1)

/-- `n` iterations of the optimiser on the objective `f` with gradient `gradOp f`: point `k+1` is point `k` plus the update
that the optimiser computes from the value and the gradient at point `k`. -/
structure OptRun (opt : Optimizer α) (gradOp : (List α → α) → List α → List α) (f : List α → α) (x0 : List α) (n : ℕ)
    (xs us : ℕ → List α) (ss : ℕ → opt.State) : Prop where
  start : xs 0 = x0
  startState : ss 0 = opt.init x0
  update : ∀ k < n, opt.update (gradOp f (xs k)) (ss k) (xs k) (f (xs k)) f = (us k, ss (k + 1))
  step : ∀ k < n, xs (k + 1) = Num.vadd (xs k) (us k)

theorem innerIter_grad {opt : Optimizer α} {gradOp : (List α → α) → List α → List α} {f : List α → α} {x0 : List α}
    (hg : opt.GradContract gradOp) (hv : opt.ValueContract) (fstop : α) (n : ℕ) :
    (valueAndGradFromState opt gradOp f (innerIter opt gradOp f x0 fstop n).params
      (innerIter opt gradOp f x0 fstop n).state).2 = gradOp f (innerIter opt gradOp f x0 fstop n).params := by
  unfold valueAndGradFromState
  split
  · rename_i hfin
    cases n with
    | zero => simp [innerIter_zero, initCarry, hv.init_value] at hfin
    | succ n =>
      rw [innerIter_succ]
      simp only [innerStep]
      rw [hg]
  · rfl

/-- **C84, C02.** A call of the inner minimiser is a run of the optimiser that evaluates the objective and its gradient at the
current point in every iteration. The reported point is the last one, the reported value is the value before the last update, the
reported gradient the gradient at the last point. The three reported changes are the norm of the last step, the norm of
the change of the last update (against a zero update in the first iteration) and the change of the last two recorded values. -/
theorem C84_inner_run (opt : Optimizer α) (hc : opt.CountContract) (hv : opt.ValueContract)
    (gradOp : (List α → α) → List α → List α) (hg : opt.GradContract gradOp) (f : List α → α) (x0 : List α)
    (tol : InnerTol α) (r : InnerResult α) (h : runOpt opt gradOp f x0 tol = some r) :
    ∃ (m : ℕ) (xs us : ℕ → List α) (ss : ℕ → opt.State), r.count = m + 1 ∧ OptRun opt gradOp f x0 (m + 1) xs us ss ∧
      r.x = xs (m + 1) ∧ r.value = f (xs m) ∧ r.grad = gradOp f (xs (m + 1)) ∧
      r.dx = Num.norm (Num.vabs (Num.vsub (xs (m + 1)) (xs m))) ∧
      r.du = Num.norm (Num.vabs (Num.vsub (us m) (if m = 0 then x0.map fun _ => Num.ofNat 0 else us (m - 1)))) ∧
      r.df = Num.abs (Num.sub (f (xs m)) (if m = 0 then f x0 else f (xs (m - 1)))) := by
  unfold runOpt at h
  cases hcarry : runOptCarry opt gradOp f x0 tol with
  | none => simp [hcarry] at h
  | some c =>
    simp only [hcarry, Option.map_some, Option.some.injEq] at h
    obtain ⟨n, hcn, hstop, hgo, h1, h2⟩ := runOptCarry_spec hc hcarry
    obtain ⟨m, rfl⟩ : ∃ k, n = k + 1 := ⟨n - 1, by omega⟩
    have hcount : r.count = m + 1 := by
      rw [← h]; simp only [Carry.result]; rw [hcn]; exact innerIter_count hc _ _
    have hval := fun k => valueAndGrad_value (opt := opt) (gradOp := gradOp) (f := f) (x0 := x0) hv tol.fstop k
    have hgrad := fun k => innerIter_grad (opt := opt) (gradOp := gradOp) (f := f) (x0 := x0) hg hv tol.fstop k
    refine ⟨m, fun k => (innerIter opt gradOp f x0 tol.fstop k).params,
      fun k => (innerIter opt gradOp f x0 tol.fstop (k + 1)).updates,
      fun k => (innerIter opt gradOp f x0 tol.fstop k).state, hcount, ⟨rfl, rfl, ?_, ?_⟩, ?_, ?_, ?_, ?_, ?_, ?_⟩
    · intro k _
      simp only [innerIter_succ, innerStep]
      rw [hval k, hgrad k]
    · intro k _
      rw [innerIter_succ]; rfl
    · rw [← h, hcn]; rfl
    · rw [← h, hcn]; exact innerIter_value hv _ _
    · rw [← h, hcn]
      simp only [Carry.result, innerIter_succ, innerStep]
      exact hg _ _ _ _ _
    · rw [← h, hcn]
      simp only [Carry.result, innerIter_succ, innerStep]
    · rw [← h, hcn]
      cases m with
      | zero => simp only [Carry.result, innerIter_succ, innerStep]; rfl
      | succ m => simp only [Carry.result]; rw [innerIter_succ]; rfl
    · rw [← h, hcn]
      cases m with
      | zero =>
        simp only [Carry.result, innerIter_succ, innerStep]
        rw [hval 0]; rfl
      | succ m =>
        simp only [Carry.result]
        rw [innerIter_succ]
        simp only [innerStep]
        rw [hval (m + 1), innerIter_value hv]
        rfl

/-- Gradient descent meets the contracts. -/
example (gradOp : (List α → α) → List α → List α) (f : List α → α) (x0 : List α) (tol : InnerTol α) (step : α)
    (r : InnerResult α) (h : runOpt (gradientDescent gradOp step) gradOp f x0 tol = some r) :
    ∃ (m : ℕ) (xs us : ℕ → List α) (ss : ℕ → (gradientDescent gradOp step).State), r.count = m + 1 ∧
      OptRun (gradientDescent gradOp step) gradOp f x0 (m + 1) xs us ss ∧ r.grad = gradOp f r.x := by
  obtain ⟨m, xs, us, ss, h1, h2, h3, -, h4, -⟩ := C84_inner_run _ (gradientDescent_count _ _)
    (gradientDescent_value _ _) gradOp (fun _ _ _ _ _ => rfl) f x0 tol r h
  exact ⟨m, xs, us, ss, h1, h2, by rw [h4, h3]⟩

/-- **C08.** The other reported numbers of the returned status, in terms of the last state `s` of the loop and the result `i` of
the last inner solve. -/
theorem C08_reported_changes (opt : Optimizer α) (hc : opt.CountContract)
    (gradOp : (List α → α) → List α → List α) (p : Problem α) (gplus : List α → List α → α → List α)
    (x0 : List α) (r : Status α) (hr : solveConstrained opt gradOp p gplus x0 = some r) :
    ∃ s i, outerLoop opt gradOp p gplus x0 = some s ∧
      runOpt opt gradOp (innerObjective p gplus s) (Num.vdivs s.finX s.xUnit) p.lastTol = some i ∧
      r.finX = Num.vscale i.x s.xUnit ∧
      r.outerDf = Num.abs (Num.sub s.finF r.finF) ∧
      r.outerDg = Num.norm (Num.vsub s.finG r.finG) ∧
      r.outerDh = Num.norm (Num.vsub s.finH r.finH) ∧
      r.finLAug = i.value ∧ r.finGradLAug = Num.norm i.grad ∧ r.finNiter = i.count ∧
      r.totNiter = s.totNiter + r.finNiter ∧
      r.finDxScaled = i.dx ∧ r.finDu = i.du ∧ r.finDl = i.df := by
  obtain ⟨s, hs⟩ := outerLoop_terminates (opt := opt) (gradOp := gradOp) (p := p) (gplus := gplus) (x0 := x0) hc
  simp only [solveConstrained, hs, Option.bind_some] at hr
  obtain ⟨i, rfl, hi, -⟩ := outerBody_spec hc hr
  exact ⟨s, i, hs, hi, rfl, rfl, rfl, rfl, rfl, rfl, rfl, rfl, rfl, rfl, rfl⟩

/-- **C85.** If the last solve stops before its budget `maxiter_inner`, one of the *tight* tolerances is met in the returned status:
the norm of the gradient of the augmented Lagrangian is not above `gtol_inner_last`, or the last step, update change and value
change are not above theirs, or the averaged improvement of the recorded values is not above `fstop_inner_last`. -/
theorem C85_last_solve_tight (opt : Optimizer α) (hc : opt.CountContract) (hv : opt.ValueContract)
    (gradOp : (List α → α) → List α → List α) (p : Problem α) (gplus : List α → List α → α → List α)
    (x0 : List α) (r : Status α) (hr : solveConstrained opt gradOp p gplus x0 = some r)
    (hlt : r.finNiter < p.maxiterInner) :
    Num.lt p.gtolInnerLast r.finGradLAug = false ∨
    (Num.lt p.xstopInnerLast r.finDxScaled = false ∧ Num.lt p.xstopInnerLast r.finDu = false ∧
      Num.lt p.fstopInnerLast r.finDl = false) ∨
    ∃ (s : Status α) (i : InnerResult α) (xs us : ℕ → List α) (ss : ℕ → opt.State), outerLoop opt gradOp p gplus x0 = some s ∧
      InnerTrace opt gradOp (innerObjective p gplus s) (Num.vdivs s.finX s.xUnit) i xs us ss ∧ r.finNiter = i.count ∧
      r.finX = Num.vscale (xs r.finNiter) s.xUnit ∧
      Num.lt p.fstopInnerLast (Num.average
        (let rec_ := (initValRec p.fstopInnerLast (innerObjective p gplus s (xs 0)) 10 ++
            (List.range r.finNiter).map fun k => innerObjective p gplus s (xs k)).drop r.finNiter
         List.zipWith Num.sub rec_.dropLast rec_.tail)) = false := by
  obtain ⟨s, i, hs, hi, h1, -, -, -, -, h2, h3, -, h4, h5, h6⟩ := C08_reported_changes opt hc gradOp p gplus x0 r hr
  rw [h3] at hlt
  obtain ⟨xs, us, ss, ht, h⟩ := C02_inner_early_stop opt hc hv gradOp _ _ _ i hi hlt
  rcases h with h | h | h
  · left; rw [h2]; exact h
  · right; right
    refine ⟨s, i, xs, us, ss, hs, ht, h3, ?_, ?_⟩
    · rw [h3, ht.final, h1]
    · rw [h3, ht.start]; exact h
  · right; left; rw [h4, h5, h6]; exact h

end Verif
