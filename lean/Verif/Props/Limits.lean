import Verif.Lemmas.Solver
import Verif.Lemmas.Outer
import Verif.Props.Call
import Verif.Props.RestCall

/-!
# C173: limits that are not reached do not matter
-/

namespace Verif

theorem whileLoop_back {σ : Type} {cond : σ → Bool} {body : σ → Option σ} {t : σ} {P : σ → Prop} (hend : cond t = false → P t)
    (hstep : ∀ s u, cond s = true → body s = some u → whileLoop cond body u = some t → P u → P s) {s : σ}
    (h : whileLoop cond body s = some t) : P s := by
  obtain ⟨hc, n, hn, hm⟩ := whileLoop_spec h
  induction n generalizing s with
  | zero =>
    cases hn
    exact hend hc
  | succ n ih =>
    have hcs : cond s = true := by
      obtain ⟨u, hu, hcu⟩ := hm 0 (Nat.succ_pos n)
      cases hu
      exact hcu
    have hw := h
    rw [whileLoop_unfold, if_pos hcs] at hw
    cases hb : body s with
    | none => simp [iterM, hb] at hn
    | some u =>
      rw [hb, Option.bind_some] at hw
      refine hstep s u hcs hb hw (ih hw ?_ fun m hmn => ?_)
      · simpa [iterM, hb] using hn
      · obtain ⟨v, hv, hcv⟩ := hm (m + 1) (by omega)
        exact ⟨v, by simpa [iterM, hb] using hv, hcv⟩

section

variable {α : Type} [Num α] {opt : Optimizer α} {gradOp : (List α → α) → List α → List α}

/-- **C173.** A minimisation that stops before its limit is the same with every limit that allows for its steps. -/
theorem C173_inner (hc : opt.CountContract) {f : List α → α} {x0 : List α} {tol : InnerTol α} {r : InnerResult α}
    (h : runOpt opt gradOp f x0 tol = some r) (hr : r.count < tol.maxiter) {N : ℕ} (hN : r.count ≤ N) :
    runOpt opt gradOp f x0 { tol with maxiter := N } = some r := by
  obtain ⟨c, hcar, rfl⟩ := Option.map_eq_some_iff.1 h
  obtain ⟨n, hcn, hstop, hm, h1, -⟩ := runOptCarry_spec hc hcar
  have hcount : opt.count c.state = n := by rw [hcn, innerIter_count hc]
  simp only [Carry.result, hcount] at hr hN
  unfold runOpt runOptCarry
  rw [whileLoop_eq_of (n := n) (r := c)]
  · rfl
  · rw [iterM_some, hcn]
    rfl
  · simp only [innerContinue, hcount, hr, decide_true, Bool.true_and] at hstop ⊢
    rw [Bool.or_eq_false_iff] at hstop ⊢
    refine ⟨hstop.1, ?_⟩
    simp only [Bool.and_assoc] at hstop ⊢
    rw [hstop.2, Bool.and_false]
  · intro m hmn
    refine ⟨_, iterM_some _ m _, ?_⟩
    have := hm m hmn
    have hcm : opt.count (innerIter opt gradOp f x0 tol.fstop m).state = m := innerIter_count hc _ _
    change innerContinue opt _ (innerIter opt gradOp f x0 tol.fstop m) = true
    have d1 : decide (m < N) = true := by simpa using lt_of_lt_of_le hmn hN
    have d2 : decide (m < tol.maxiter) = true := by simpa using lt_trans hmn hr
    simp only [innerContinue, hcm, d1, d2] at this ⊢
    exact this

/-- **C173.** With a smaller limit the minimisation is cut off: it returns the state after as many steps as the limit says (one, if it is zero). -/
theorem C173_inner_cut (hc : opt.CountContract) {f : List α → α} {x0 : List α} {tol : InnerTol α} {r : InnerResult α}
    (h : runOpt opt gradOp f x0 tol = some r) {N : ℕ} (hN : N ≤ r.count) :
    runOpt opt gradOp f x0 { tol with maxiter := N } = some (innerIter opt gradOp f x0 tol.fstop (max 1 N)).result := by
  obtain ⟨c, hcar, rfl⟩ := Option.map_eq_some_iff.1 h
  obtain ⟨n, hcn, hstop, hm, h1, h2⟩ := runOptCarry_spec hc hcar
  have hcount : opt.count c.state = n := by rw [hcn, innerIter_count hc]
  simp only [Carry.result, hcount] at hN
  unfold runOpt runOptCarry
  rw [whileLoop_eq_of (n := max 1 N) (r := innerIter opt gradOp f x0 tol.fstop (max 1 N))]
  · rfl
  · rw [iterM_some]
    rfl
  · have hk : opt.count (innerIter opt gradOp f x0 tol.fstop (max 1 N)).state = max 1 N := innerIter_count hc _ _
    have d1 : decide (max 1 N < N) = false := by simp
    have d2 : (max 1 N == 0) = false := by simp
    simp only [innerContinue, hk, d1, d2, Bool.false_and, Bool.or_self]
  · intro m hmn
    refine ⟨_, iterM_some _ m _, ?_⟩
    change innerContinue opt _ (innerIter opt gradOp f x0 tol.fstop m) = true
    have hcm : opt.count (innerIter opt gradOp f x0 tol.fstop m).state = m := innerIter_count hc _ _
    rcases Nat.eq_zero_or_pos m with rfl | hpos
    · simp [innerContinue, hcm]
    · have hmN : m < N := by omega
      have := hm m (by omega)
      have d0 : (m == 0) = false := by simpa using hpos.ne'
      have d1 : decide (m < N) = true := by simpa using hmN
      simp only [innerContinue, hcm, d0, d1, Bool.false_or, Bool.true_and] at this ⊢
      simp only [Bool.and_eq_true] at this ⊢
      exact ⟨⟨this.1.1.2, this.1.2⟩, this.2⟩

/-- The same problem with other limits. -/
def Problem.limits (p : Problem α) (tot inner : ℕ) : Problem α := { p with maxiterTot := tot, maxiterInner := inner }

/-- The states that the loop of the constrained solver goes through. -/
inductive Visited (opt : Optimizer α) (gradOp : (List α → α) → List α → List α) (p : Problem α) (gplus : List α → List α → α → List α)
    (x0 : List α) : Status α → Prop
  | start : Visited opt gradOp p gplus x0 (initStatus p x0)
  | next {s t : Status α} (hs : Visited opt gradOp p gplus x0 s) (hc : outerContinue p s = true)
      (h : outerBody opt gradOp p gplus p.innerTol s = some t) : Visited opt gradOp p gplus x0 t

variable {p : Problem α} {gplus : List α → List α → α → List α} {x0 : List α}

theorem updateMultiplier_limits {g h : List α} {c : α} {n tot inner : ℕ} (h1 : n < p.maxiterInner) (h2 : n < inner) :
    updateMultiplier (p.limits tot inner) g h c n = updateMultiplier p g h c n := by
  have d1 : decide (p.maxiterInner ≤ n) = false := by simpa using h1
  have d2 : decide (inner ≤ n) = false := by simpa using h2
  simp only [updateMultiplier, Problem.limits, d1]
  congr 1

theorem outerUpdate_limits {s : Status α} {r : InnerResult α} {tot inner : ℕ} (h1 : r.count < p.maxiterInner) (h2 : r.count < inner) :
    outerUpdate (p.limits tot inner) gplus s r = outerUpdate p gplus s r := by
  have := fun g h c => updateMultiplier_limits (p := p) (g := g) (h := h) (c := c) (tot := tot) h1 h2
  unfold outerUpdate
  simp only [this]
  rfl

theorem outerBody_limits (hc : opt.CountContract) {s t : Status α} {tol : InnerTol α} {tot inner : ℕ} (htol : tol.maxiter = p.maxiterInner)
    (h : outerBody opt gradOp p gplus tol s = some t) (h1 : t.finNiter < p.maxiterInner) (h2 : t.finNiter < inner) :
    outerBody opt gradOp (p.limits tot inner) gplus { tol with maxiter := inner } s = some t := by
  obtain ⟨r, rfl, hr, -, -⟩ := outerBody_spec hc h
  have h1' : r.count < p.maxiterInner := h1
  have h2' : r.count < inner := h2
  have hrun := C173_inner hc hr (htol ▸ h1') h2'.le
  unfold outerBody
  have e : innerObjective (p.limits tot inner) gplus s = innerObjective p gplus s := rfl
  rw [e, hrun, Option.map_some, outerUpdate_limits h1' h2']

theorem outerLoop_limits (hc : opt.CountContract) {t : Status α} (h : outerLoop opt gradOp p gplus x0 = some t) (ht : t.totNiter < p.maxiterTot)
    {tot inner : ℕ} (htot : t.totNiter ≤ tot)
    (hin : ∀ u, Visited opt gradOp p gplus x0 u → u.totNiter ≠ 0 → u.finNiter < p.maxiterInner ∧ u.finNiter < inner) :
    outerLoop opt gradOp (p.limits tot inner) gplus x0 = some t := by
  have key : Visited opt gradOp p gplus x0 (initStatus p x0) →
      whileLoop (outerContinue (p.limits tot inner)) (outerBody opt gradOp (p.limits tot inner) gplus (p.limits tot inner).innerTol)
        (initStatus p x0) = some t ∧ (initStatus p x0).totNiter ≤ t.totNiter := by
    refine whileLoop_back (P := fun s => Visited opt gradOp p gplus x0 s →
      whileLoop (outerContinue (p.limits tot inner)) (outerBody opt gradOp (p.limits tot inner) gplus (p.limits tot inner).innerTol) s = some t ∧
        s.totNiter ≤ t.totNiter) (fun hend _ => ⟨?_, le_rfl⟩) (fun s u hcs hb _ ih hv => ?_) h
    · rw [whileLoop_unfold, if_neg]
      have d : decide (t.totNiter < p.maxiterTot) = true := by simpa using ht
      simp only [outerContinue, d, Bool.true_and, Bool.or_eq_false_iff] at hend
      simp only [outerContinue, Problem.limits, Bool.not_eq_true, Bool.or_eq_false_iff]
      refine ⟨hend.1, ?_⟩
      rw [Bool.and_eq_false_iff]
      right
      rw [Bool.or_eq_false_iff]
      exact hend.2
    · have hvu := Visited.next hv hcs hb
      obtain ⟨hw, hle⟩ := ih hvu
      obtain ⟨r, rfl, -, h1, -⟩ := outerBody_spec hc hb
      have hadd : (outerUpdate p gplus s r).totNiter = s.totNiter + r.count := rfl
      obtain ⟨l1, l2⟩ := hin _ hvu (by rw [hadd]; omega)
      have hlt : s.totNiter < tot := by rw [hadd] at hle; omega
      refine ⟨?_, by rw [hadd] at hle; omega⟩
      have hcs' : outerContinue (p.limits tot inner) s = true := by
        have d : decide (s.totNiter < tot) = true := by simpa using hlt
        simp only [outerContinue, Problem.limits, Bool.or_eq_true, Bool.and_eq_true] at hcs ⊢
        rcases hcs with k | k
        · exact .inl k
        · exact .inr ⟨d, k.2⟩
      rw [whileLoop_unfold, if_pos hcs']
      have hb' := outerBody_limits (tot := tot) hc (tol := p.innerTol) rfl hb l1 l2
      have e : (p.limits tot inner).innerTol = { p.innerTol with maxiter := inner } := rfl
      rw [e, hb', Option.bind_some]
      exact hw
  exact (key .start).1

/-- **C173.** A constrained solution during which no limit was reached is the same with all limits that are not reached either. -/
theorem C173_constrained (hc : opt.CountContract) {t r : Status α} (hloop : outerLoop opt gradOp p gplus x0 = some t)
    (hlast : outerBody opt gradOp p gplus p.lastTol t = some r) (ht : t.totNiter < p.maxiterTot) {tot inner : ℕ} (htot : t.totNiter ≤ tot)
    (hin : ∀ u, Visited opt gradOp p gplus x0 u → u.totNiter ≠ 0 → u.finNiter < p.maxiterInner ∧ u.finNiter < inner)
    (hr : r.finNiter < p.maxiterInner ∧ r.finNiter < inner) :
    solveConstrained opt gradOp p gplus x0 = some r ∧ solveConstrained opt gradOp (p.limits tot inner) gplus x0 = some r := by
  unfold solveConstrained
  rw [hloop, outerLoop_limits hc hloop ht htot hin, Option.bind_some, Option.bind_some]
  exact ⟨hlast, outerBody_limits (tol := p.lastTol) hc rfl hlast hr.1 hr.2⟩

theorem totNiter_le (hc : opt.CountContract) {tol : InnerTol α} {s t : Status α}
    (h : whileLoop (outerContinue p) (outerBody opt gradOp p gplus tol) s = some t) : s.totNiter ≤ t.totNiter := by
  refine whileLoop_back (P := fun s => s.totNiter ≤ t.totNiter) (fun _ => le_rfl) (fun s u _ hb _ ih => ?_) h
  obtain ⟨r, rfl, -, -, -⟩ := outerBody_spec hc hb
  have hadd : (outerUpdate p gplus s r).totNiter = s.totNiter + r.count := rfl
  omega

theorem Visited.loop {s t : Status α} (hv : Visited opt gradOp p gplus x0 s) (h : outerLoop opt gradOp p gplus x0 = some t) :
    whileLoop (outerContinue p) (outerBody opt gradOp p gplus p.innerTol) s = some t := by
  induction hv with
  | start => exact h
  | next _ hcs hb ih =>
    rw [whileLoop_unfold, if_pos hcs, hb, Option.bind_some] at ih
    exact ih

theorem Visited.finNiter_le (hc : opt.CountContract) {s : Status α} (hv : Visited opt gradOp p gplus x0 s) : s.finNiter ≤ s.totNiter := by
  cases hv with
  | start => exact le_rfl
  | next _ _ hb =>
    obtain ⟨r, rfl, -, -, -⟩ := outerBody_spec hc hb
    exact Nat.le_add_left _ _

/-- **C173.** The same in terms of what is reported: if the total number of steps is below the limits, they may be any others above it. -/
theorem C173_constrained_total (hc : opt.CountContract) {r : Status α} (h : solveConstrained opt gradOp p gplus x0 = some r)
    (ht : r.totNiter ≤ p.maxiterTot) (hi : r.totNiter < p.maxiterInner) {tot inner : ℕ} (htot : r.totNiter ≤ tot) (hinner : r.totNiter < inner) :
    solveConstrained opt gradOp (p.limits tot inner) gplus x0 = some r := by
  have h' := h
  unfold solveConstrained at h'
  cases hl : outerLoop opt gradOp p gplus x0 with
  | none => simp [hl] at h'
  | some t =>
    rw [hl, Option.bind_some] at h'
    obtain ⟨i, hri, -, h1, -⟩ := outerBody_spec hc h'
    have hadd : r.totNiter = t.totNiter + i.count := by rw [hri]; rfl
    have hfin : r.finNiter = i.count := by rw [hri]; rfl
    refine (C173_constrained hc hl h' (by omega) (by omega) (fun u hv _ => ?_) (by omega)).2
    have k1 := hv.finNiter_le hc
    have k2 := totNiter_le hc (hv.loop hl)
    omega

end

/-! ## The call -/

/-- The call with other limits. -/
def CallArgs.limits (a : CallArgs) (tot inner : ℕ) : CallArgs := { a with opts := { a.opts with maxiterTot := tot, maxiterInner := inner } }

/-- The number of steps that the results report. -/
def SolveResults.steps : SolveResults → ℕ
  | .inner r => r.count
  | .outer s => s.totNiter

variable {opt : Optimizer ℝ} {gradOp : (List ℝ → ℝ) → List ℝ → List ℝ} {reg : Registry FieldProblem} {a : CallArgs}

theorem quadcoilSetup_limits {Q : FieldProblem} {o : QuadcoilArgs} {u : ℝ} {tot inner : ℕ} :
    quadcoilSetup reg Q { o with maxiterTot := tot, maxiterInner := inner } u =
      (quadcoilSetup reg Q o u).map fun S => { S with problem := S.problem.limits tot inner } := by
  unfold quadcoilSetup
  have e : fghFromY reg Q { o with maxiterTot := tot, maxiterInner := inner } = fghFromY reg Q o := rfl
  rw [e]
  cases fghFromY reg Q o with
  | error e => rfl
  | ok p =>
    simp only [bind, Except.bind]
    generalize p.g _ = g0
    generalize p.h _ = h0
    cases g0 with
    | error e => rfl
    | ok g0 =>
      cases h0 with
      | error e => rfl
      | ok h0 =>
        dsimp only
        split <;> rfl

theorem setup_limits {tot inner : ℕ} : (a.limits tot inner).setup reg =
    (a.setup reg).map fun r => (r.1, { r.2 with problem := r.2.problem.limits tot inner }) := by
  unfold CallArgs.setup
  have e0 : (a.limits tot inner).nfp = a.nfp := rfl
  have e1 : (a.limits tot inner).checked = a.checked := rfl
  have e2 : (a.limits tot inner).generatorShapes = a.generatorShapes := rfl
  have e3 : (a.limits tot inner).paramsObj = a.paramsObj := rfl
  have e4 : ∀ Q, fghFromY reg Q (a.limits tot inner).opts = fghFromY reg Q a.opts := fun _ => rfl
  have e5 : (a.limits tot inner).phiInit = a.phiInit := rfl
  have e6 : (a.limits tot inner).unitShapes = a.unitShapes := rfl
  have e7 : ∀ Q, (a.limits tot inner).unit Q = a.unit Q := fun _ => rfl
  have e8 : (a.limits tot inner).opts = { a.opts with maxiterTot := tot, maxiterInner := inner } := rfl
  rw [e0]
  split
  · rfl
  · rw [e1, e2, e3, e5, e6]
    simp only [e4, e7]
    simp only [bind, Except.bind]
    cases quadcoilChecks a.checked with
    | error e => rfl
    | ok _ =>
      cases a.generatorShapes with
      | error e => rfl
      | ok _ =>
        cases a.paramsObj with
        | error e => rfl
        | ok o =>
          dsimp only
          cases fghFromY reg o.toField a.opts with
          | error e => rfl
          | ok _ =>
            dsimp only
            cases requireShape (a.phiInit.length = o.ndofs) with
            | error e => rfl
            | ok _ =>
              cases a.unitShapes with
              | error e => rfl
              | ok _ =>
                dsimp only
                rw [e8, quadcoilSetup_limits]
                cases quadcoilSetup reg o.toField a.opts (a.unit o.toField) <;> rfl

/-- **C173.** A call that reports fewer steps than its limits allow returns exactly the same with any other limits above that number. Without
constraints the limit of the inner solver is not used at all. -/
theorem C173_call (hc : opt.CountContract) {R : CallOut} (h : quadcoilCall opt gradOp reg a = .ok (some R)) {tot inner : ℕ}
    (ht : R.results.steps < a.opts.maxiterTot) (htot : R.results.steps ≤ tot)
    (hi : (∃ i, R.results = .inner i) ∨ R.results.steps < a.opts.maxiterInner ∧ R.results.steps < inner) :
    quadcoilCall opt gradOp reg (a.limits tot inner) = .ok (some R) := by
  have hset : ∀ Q S, a.setup reg = .ok (Q, S) → S.problem.maxiterTot = a.opts.maxiterTot ∧ S.problem.maxiterInner = a.opts.maxiterInner := by
    intro Q S hS
    have := setup_limits (reg := reg) (a := a) (tot := a.opts.maxiterTot) (inner := a.opts.maxiterInner)
    have e : a.limits a.opts.maxiterTot a.opts.maxiterInner = a := rfl
    rw [e, hS] at this
    simp only [Except.map, Except.ok.injEq, Prod.mk.injEq, true_and] at this
    rw [this]
    exact ⟨rfl, rfl⟩
  unfold quadcoilCall at h ⊢
  rw [setup_limits]
  cases hs : a.setup reg with
  | error e => simp [hs, bind, Except.bind] at h
  | ok q =>
    obtain ⟨Q, S⟩ := q
    obtain ⟨m1, m2⟩ := hset Q S hs
    simp only [hs, bind, Except.bind, Except.map] at h ⊢
    have e : fghFromY reg Q (a.limits tot inner).opts = fghFromY reg Q a.opts := rfl
    rw [e]
    cases hp : fghFromY reg Q a.opts with
    | error e => simp [hp] at h
    | ok p =>
      simp only [hp] at h ⊢
      cases hq : quadcoilSolve opt gradOp S with
      | none => simp [hq] at h
      | some w =>
        obtain ⟨r, d⟩ := w
        simp only [hq] at h
        have hr : R.results = r := by
          cases ho : a.outDict reg Q p d with
          | error e => simp [ho] at h
          | ok out =>
            simp only [ho, Except.ok.injEq, Option.some.injEq] at h
            rw [← h]
        rw [hr] at ht htot hi
        have hq' : quadcoilSolve opt gradOp { S with problem := S.problem.limits tot inner } = some (r, d) := by
          unfold quadcoilSolve at hq ⊢
          dsimp only
          cases hu : S.unconstrained with
          | true =>
            rw [hu, if_pos rfl] at hq
            rw [if_pos rfl]
            cases hrun : runOpt opt gradOp S.problem.f S.x0 ⟨S.problem.maxiterTot, S.problem.fstopInnerLast, S.problem.xstopInnerLast,
                S.problem.gtolInner⟩ with
            | none => simp [hrun] at hq
            | some i =>
              simp only [hrun, Option.map_some, Option.some.injEq, Prod.mk.injEq] at hq
              obtain ⟨rfl, rfl⟩ := hq
              have := C173_inner hc hrun (by rw [m1]; exact ht) htot
              simp only [Problem.limits]
              rw [this]
              rfl
          | false =>
            rw [hu, if_neg (by simp)] at hq
            rw [if_neg (by simp)]
            cases hrun : solveConstrained opt gradOp S.problem gplusHard S.x0 with
            | none => simp [hrun] at hq
            | some s =>
              simp only [hrun, Option.map_some, Option.some.injEq, Prod.mk.injEq] at hq
              obtain ⟨rfl, rfl⟩ := hq
              rcases hi with ⟨i, hi⟩ | ⟨h1, h2⟩
              · simp at hi
              · rw [C173_constrained_total hc hrun (by rw [m1]; exact ht.le) (by rw [m2]; exact h1) htot h2]
                rfl
        rw [hq']
        exact h

/-! ## Examples -/

/-- A call without constraints that stops after one step: no limits but zero make a difference, whatever the limit of the inner solver. -/
example : ∃ b, ∀ w > 0, ∃ c R, ∀ tot inner, 1 ≤ tot →
    quadcoilCall (gradientDescent realGrad (1 / 4)) realGrad (shippedRegistry FieldProblem.fns [])
      ((({ torusCall b with phiUnit := some 2 } : CallArgs).startingAt w c).limits tot inner) = .ok (some R) := by
  obtain ⟨b, h⟩ := restTorus
  refine ⟨b, fun w hw => ?_⟩
  obtain ⟨c, R, i, -, hR, hi, -, hcount⟩ := h w hw
  have hs : R.results.steps = 1 := by rw [hi]; exact hcount
  refine ⟨c, R, fun tot inner ht => C173_call (gradientDescent_count _ _) hR ?_ (hs ▸ ht) (.inl ⟨i, hi⟩)⟩
  rw [hs]
  show 1 < defaultArgs.maxiterTot
  norm_num [defaultArgs]

/-- A call with a constraint that reports two steps. -/
example (b : ℝ) : ∃ c v R, ∀ tot inner, 2 ≤ tot → 2 < inner →
    quadcoilCall (gradientDescent realGrad (1 / 4)) realGrad (shippedRegistry FieldProblem.fns [])
      (({ torusCall b with phiUnit := some 2, opts := cappedArgs v c } : CallArgs).limits tot inner) = .ok (some R) := by
  obtain ⟨c, v, R, t, -, -, hR, ht, -, hn⟩ := restTorus_capped b
  have hs : R.results.steps = 2 := by rw [ht]; exact hn
  refine ⟨c, v, R, fun tot inner h1 h2 => C173_call (gradientDescent_count _ _) hR ?_ (hs ▸ h1) (.inr ⟨?_, hs ▸ h2⟩)⟩
  · rw [hs]
    show 2 < defaultArgs.maxiterTot
    norm_num [defaultArgs]
  · rw [hs]
    show 2 < defaultArgs.maxiterInner
    norm_num [defaultArgs]

end Verif
