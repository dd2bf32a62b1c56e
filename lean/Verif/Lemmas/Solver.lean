import Verif.Model.Solver
import Verif.Lemmas.While
import Verif.Lemmas.NumReal

/-! Helper lemmas about the solver model. -/

namespace Verif

section any
variable {α : Type} [Num α]
variable {opt : Optimizer α} {gradOp : (List α → α) → List α → List α} {f : List α → α} {x0 : List α}
  {tol : InnerTol α}

theorem iterM_some {σ : Type} (st : σ → σ) (n : ℕ) (s : σ) :
    iterM (fun c => some (st c)) n s = some (st^[n] s) := by
  induction n generalizing s with
  | zero => rfl
  | succ n ih => simp [iterM, ih]

/-- The state after `n` inner iterations. -/
def innerIter (opt : Optimizer α) (gradOp : (List α → α) → List α → List α) (f : List α → α) (x0 : List α)
    (fstop : α) (n : ℕ) : Carry opt :=
  (innerStep opt gradOp f)^[n] (initCarry opt f x0 fstop 10)

theorem innerIter_zero (fstop : α) :
    innerIter opt gradOp f x0 fstop 0 = initCarry opt f x0 fstop 10 := rfl

theorem innerIter_succ (fstop : α) (n : ℕ) :
    innerIter opt gradOp f x0 fstop (n + 1) = innerStep opt gradOp f (innerIter opt gradOp f x0 fstop n) := by
  simp only [innerIter, Function.iterate_succ_apply']

theorem innerIter_count (hc : opt.CountContract) (fstop : α) (n : ℕ) :
    opt.count (innerIter opt gradOp f x0 fstop n).state = n := by
  induction n with
  | zero => exact hc.init_count x0
  | succ n ih => rw [innerIter_succ]; simp only [innerStep]; rw [hc.update_count, ih]

theorem runOptCarry_spec (hc : opt.CountContract) {c : Carry opt}
    (h : runOptCarry opt gradOp f x0 tol = some c) :
    ∃ n, c = innerIter opt gradOp f x0 tol.fstop n ∧ innerContinue opt tol c = false ∧
      (∀ m < n, innerContinue opt tol (innerIter opt gradOp f x0 tol.fstop m) = true) ∧
      1 ≤ n ∧ n ≤ max 1 tol.maxiter := by
  obtain ⟨hcond, n, hn, hm⟩ := whileLoop_spec h
  rw [iterM_some] at hn
  have hcn : c = innerIter opt gradOp f x0 tol.fstop n := (Option.some.inj hn).symm
  have hm' : ∀ m < n, innerContinue opt tol (innerIter opt gradOp f x0 tol.fstop m) = true := by
    intro m hmn
    obtain ⟨t, ht, hct⟩ := hm m hmn
    rw [iterM_some] at ht
    rw [← Option.some.inj ht] at hct
    exact hct
  refine ⟨n, hcn, hcond, hm', ?_, ?_⟩
  · by_contra hlt
    have : n = 0 := by omega
    subst this
    rw [hcn] at hcond
    have hz := innerIter_count (gradOp := gradOp) (f := f) (x0 := x0) hc tol.fstop 0
    simp [innerContinue, hz] at hcond
  · by_contra hlt
    push Not at hlt
    have h1 : n - 1 < n := by omega
    have := hm' (n - 1) h1
    have hz := innerIter_count (gradOp := gradOp) (f := f) (x0 := x0) hc tol.fstop (n - 1)
    have hn2 : 1 < n := lt_of_le_of_lt (le_max_left _ _) hlt
    have hn3 : tol.maxiter < n := lt_of_le_of_lt (le_max_right _ _) hlt
    simp only [innerContinue, hz] at this
    simp only [Bool.or_eq_true, Bool.and_eq_true, beq_iff_eq, decide_eq_true_eq] at this
    rcases this with h | h
    · omega
    · omega

theorem runOptCarry_terminates (hc : opt.CountContract) :
    ∃ c, runOptCarry opt gradOp f x0 tol = some c := by
  unfold runOptCarry
  refine whileLoop_terminates (fun _ => True) (fun c => (tol.maxiter + 1) - opt.count c.state) trivial ?_
  intro s _ hs
  refine ⟨_, rfl, trivial, ?_⟩
  simp only [innerStep, hc.update_count]
  simp only [innerContinue, Bool.or_eq_true, Bool.and_eq_true, beq_iff_eq, decide_eq_true_eq] at hs
  rcases hs with h | h <;> omega

theorem runOpt_terminates (hc : opt.CountContract) :
    ∃ r, runOpt opt gradOp f x0 tol = some r ∧ 1 ≤ r.count ∧ r.count ≤ max 1 tol.maxiter := by
  obtain ⟨c, h⟩ := runOptCarry_terminates (opt := opt) (gradOp := gradOp) (f := f) (x0 := x0) (tol := tol) hc
  obtain ⟨n, hcn, -, -, h1, h2⟩ := runOptCarry_spec hc h
  refine ⟨c.result, by simp [runOpt, h], ?_, ?_⟩
  · simp only [Carry.result]; rw [hcn, innerIter_count hc]; exact h1
  · simp only [Carry.result]; rw [hcn, innerIter_count hc]; exact h2

theorem runOpt_count (hc : opt.CountContract) {r : InnerResult α} (h : runOpt opt gradOp f x0 tol = some r) :
    1 ≤ r.count ∧ r.count ≤ max 1 tol.maxiter := by
  obtain ⟨r', h', h1, h2⟩ := runOpt_terminates (opt := opt) (gradOp := gradOp) (f := f) (x0 := x0) (tol := tol) hc
  rw [h] at h'
  cases h'
  exact ⟨h1, h2⟩

/-- The value computed in a step is the objective at the parameters before the step. -/
theorem valueAndGrad_value (hv : opt.ValueContract) (fstop : α) (n : ℕ) :
    (valueAndGradFromState opt gradOp f (innerIter opt gradOp f x0 fstop n).params
      (innerIter opt gradOp f x0 fstop n).state).1 = f (innerIter opt gradOp f x0 fstop n).params := by
  unfold valueAndGradFromState
  split
  · rename_i hfin
    cases n with
    | zero => simp [innerIter_zero, initCarry, hv.init_value] at hfin
    | succ n =>
      rw [innerIter_succ]
      simp only [innerStep]
      rw [hv.update_value]
  · rfl

theorem innerIter_value (hv : opt.ValueContract) (fstop : α) (n : ℕ) :
    (innerIter opt gradOp f x0 fstop (n + 1)).value = f (innerIter opt gradOp f x0 fstop n).params := by
  rw [innerIter_succ]
  exact valueAndGrad_value hv fstop n

theorem innerIter_valRec_length (fstop : α) (n : ℕ) :
    (innerIter opt gradOp f x0 fstop n).valRec.length = 10 := by
  induction n with
  | zero => simp [innerIter_zero, initCarry, initValRec, Num.linspace]
  | succ n ih => rw [innerIter_succ]; simp [innerStep, ih]

/-- The value record holds the last ten entries of the initial record followed by the objective values at the
successive iterates. -/
theorem innerIter_valRec (hv : opt.ValueContract) (fstop : α) (n : ℕ) :
    (innerIter opt gradOp f x0 fstop n).valRec =
      (initValRec fstop (f x0) 10 ++
        (List.range n).map fun k => f (innerIter opt gradOp f x0 fstop k).params).drop n := by
  induction n with
  | zero => simp [innerIter_zero, initCarry]
  | succ n ih =>
    have hlen : (initValRec fstop (f x0) 10).length = 10 := by simp [initValRec, Num.linspace]
    rw [innerIter_succ]
    simp only [innerStep]
    rw [valueAndGrad_value hv, ih, List.range_succ, List.map_append, ← List.append_assoc, List.tail_drop]
    conv_rhs => rw [List.drop_append_of_le_length (by simp [hlen])]
    rfl

end any

end Verif
