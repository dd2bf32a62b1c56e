import Verif.Spec.Nan
import Verif.Lemmas.Shape

/-!
# C148: NaN in the solver

The solver has no test for NaN. Its two loops stop all the same, because the guards compare with `>` and `>=`. What can be
read off the result: an iterate or a multiplier that was NaN once is NaN at the end.
-/

namespace Verif

open NanNum

variable {α : Type} [Num α] [NanNum α]

namespace NanVec

theorem exists_of_at {v : List α} {i : ℕ} (h : NanAt v i) : ∃ a ∈ v, isNan a := by
  obtain ⟨a, ha, hn⟩ := h
  exact ⟨a, List.mem_of_getElem? ha, hn⟩

theorem sum_nan {v : List α} (h : ∃ a ∈ v, isNan a) : isNan (Num.sum v) := by
  induction v with
  | nil => obtain ⟨a, ha, -⟩ := h; simp at ha
  | cons b v ih =>
    obtain ⟨a, ha, hn⟩ := h
    rw [List.mem_cons] at ha
    change isNan (Num.add b (Num.sum v))
    rcases ha with hab | ha
    · rw [← hab]; exact add_left _ _ hn
    · exact add_right _ _ (ih ⟨a, ha, hn⟩)

theorem norm_nan {v : List α} (h : ∃ a ∈ v, isNan a) : isNan (Num.norm v) := by
  obtain ⟨a, ha, hn⟩ := h
  exact sqrt_nan _ (sum_nan ⟨_, List.mem_map_of_mem ha, mul_left _ _ hn⟩)

theorem zipWith_left {β : Type} {op : α → β → α} (hop : ∀ a b, isNan a → isNan (op a b)) {v : List α} {w : List β} {i : ℕ}
    (h : NanAt v i) (hl : v.length ≤ w.length) : NanAt (List.zipWith op v w) i := by
  obtain ⟨a, ha, hn⟩ := h
  obtain ⟨hi, rfl⟩ := List.getElem?_eq_some_iff.1 ha
  refine ⟨op v[i] w[i], ?_, hop _ _ hn⟩
  rw [List.getElem?_eq_some_iff]
  exact ⟨by simp; omega, by simp⟩

theorem zipWith_right {β : Type} {op : β → α → α} (hop : ∀ a b, isNan b → isNan (op a b)) {v : List β} {w : List α} {i : ℕ}
    (h : NanAt w i) (hl : w.length ≤ v.length) : NanAt (List.zipWith op v w) i := by
  obtain ⟨a, ha, hn⟩ := h
  obtain ⟨hi, rfl⟩ := List.getElem?_eq_some_iff.1 ha
  refine ⟨op v[i] w[i], ?_, hop _ _ hn⟩
  rw [List.getElem?_eq_some_iff]
  exact ⟨by simp; omega, by simp⟩

theorem map_at {op : α → α} (hop : ∀ a, isNan a → isNan (op a)) {v : List α} {i : ℕ} (h : NanAt v i) :
    NanAt (v.map op) i := by
  obtain ⟨a, ha, hn⟩ := h
  exact ⟨op a, by simp [ha], hop _ hn⟩

theorem dot_nan_left {v w : List α} {i : ℕ} (h : NanAt v i) (hl : v.length ≤ w.length) : isNan (Num.dot v w) :=
  sum_nan (exists_of_at (zipWith_left mul_left h hl))

theorem dot_nan_right {v w : List α} {i : ℕ} (h : NanAt w i) (hl : w.length ≤ v.length) : isNan (Num.dot v w) :=
  sum_nan (exists_of_at (zipWith_right mul_right h hl))

theorem at_of_mem {v : List α} {a : α} (h : a ∈ v) (hn : isNan a) : ∃ i, NanAt v i := by
  obtain ⟨i, hi⟩ := List.mem_iff_getElem?.1 h
  exact ⟨i, a, hi, hn⟩

/-- The average improvement of a record of at least two values with a NaN is NaN. -/
theorem avgImprovement_nan {v : List α} (h : ∃ a ∈ v, isNan a) (hl : 2 ≤ v.length) : isNan (avgImprovement v) := by
  obtain ⟨a, ha, hn⟩ := h
  obtain ⟨i, hi⟩ := at_of_mem ha hn
  refine div_left _ _ (sum_nan ?_)
  obtain ⟨b, hb, hbn⟩ := hi
  obtain ⟨hlt, hbe⟩ := List.getElem?_eq_some_iff.1 hb
  by_cases hc : i < v.length - 1
  · refine exists_of_at (i := i) (zipWith_left sub_left ?_ (by simp))
    refine ⟨b, ?_, hbn⟩
    rw [List.getElem?_dropLast, if_pos hc, hb]
  · refine exists_of_at (i := i - 1) (zipWith_right sub_right ?_ (by simp))
    refine ⟨b, ?_, hbn⟩
    rw [List.getElem?_tail, Nat.sub_add_cancel (by omega), hb]

end NanVec

open NanVec

section inner

variable {opt : Optimizer α} {gradOp : (List α → α) → List α → List α} {f : List α → α} {x0 : List α} {tol : InnerTol α}

/-- From the first iteration on, a NaN in the stored gradient or in the last ten values ends the inner loop. -/
theorem inner_stop (c : Carry opt) (hc : opt.count c.state ≠ 0) (hl : 2 ≤ c.valRec.length)
    (h : (∃ a ∈ opt.grad c.state, isNan a) ∨ ∃ a ∈ c.valRec, isNan a) : innerContinue opt tol c = false := by
  unfold innerContinue
  have h0 : (opt.count c.state == 0) = false := by simpa using hc
  rw [h0, Bool.false_or]
  rcases h with h | h
  · rw [lt_right _ _ (norm_nan h)]; simp
  · rw [lt_right _ _ (avgImprovement_nan h hl)]; simp

/-- The number of iterations is at most one more than that of any iterate at which the objective is NaN. -/
theorem C148_objective_nan (hc : opt.CountContract) (hv : opt.ValueContract) (m : ℕ)
    (hn : isNan (f (innerIter opt gradOp f x0 tol.fstop m).params)) :
    ∃ r, runOpt opt gradOp f x0 tol = some r ∧ r.count ≤ m + 1 ∧ (r.count = m + 1 → isNan r.value) := by
  obtain ⟨c, h⟩ := runOptCarry_terminates (opt := opt) (gradOp := gradOp) (f := f) (x0 := x0) (tol := tol) hc
  obtain ⟨n, rfl, -, hm, -, -⟩ := runOptCarry_spec hc h
  refine ⟨_, by rw [runOpt, h]; rfl, ?_⟩
  simp only [Carry.result, innerIter_count hc]
  refine ⟨?_, ?_⟩
  · by_contra hlt
    have := hm (m + 1) (by omega)
    have hs : innerContinue opt tol (innerIter opt gradOp f x0 tol.fstop (m + 1)) = false := by
      refine inner_stop _ (by rw [innerIter_count hc]; omega) (by rw [innerIter_valRec_length]; norm_num) (Or.inr ?_)
      refine ⟨f (innerIter opt gradOp f x0 tol.fstop m).params, ?_, hn⟩
      rw [innerIter_succ]
      simp only [innerStep, valueAndGrad_value hv]
      simp
    rw [hs] at this
    cases this
  · rintro rfl
    rw [innerIter_value hv]
    exact hn

/-- An inner solve whose objective is NaN at the starting point does one iteration and reports NaN as its value. -/
theorem C148_start_nan (hc : opt.CountContract) (hv : opt.ValueContract) (hn : isNan (f x0)) :
    ∃ r, runOpt opt gradOp f x0 tol = some r ∧ r.count = 1 ∧ isNan r.value := by
  obtain ⟨r, hr, h1, h2⟩ := C148_objective_nan (gradOp := gradOp) (x0 := x0) (f := f) (tol := tol) hc hv 0 hn
  have := (runOpt_count hc hr).1
  exact ⟨r, hr, by omega, h2 (by omega)⟩

/-- A component of the parameters that is NaN at the start of an inner solve is NaN at its end. -/
theorem inner_keeps (hs : opt.ShapeContract gradOp) {i : ℕ} (hi : NanAt x0 i) {r : InnerResult α}
    (h : runOpt opt gradOp f x0 tol = some r) : NanAt r.x i := by
  unfold runOpt at h
  cases hc : runOptCarry opt gradOp f x0 tol with
  | none => simp [hc] at h
  | some c =>
    simp only [hc, Option.map_some, Option.some.injEq] at h
    subst h
    have := whileLoop_invariant (fun c : Carry opt => NanAt c.params i ∧
      (opt.valueFinite c.state = true → (opt.grad c.state).length = c.params.length)) hc
      ⟨hi, by simp [initCarry, hs.init_value]⟩ (by
        rintro s t ⟨h1, h2⟩ - ht
        cases ht
        have hg : (valueAndGradFromState opt gradOp f s.params s.state).2.length = s.params.length := by
          unfold valueAndGradFromState
          split
          · rename_i hv
            exact h2 hv
          · exact hs.grad_length _ _
        have hu := hs.update_length _ s.state s.params (valueAndGradFromState opt gradOp f s.params s.state).1 f hg
        have hp : (innerStep opt gradOp f s).params.length = s.params.length := by
          simp only [innerStep, Num.vadd, List.length_zipWith, hu.1, min_self]
        refine ⟨?_, fun _ => ?_⟩
        · simp only [innerStep]
          exact zipWith_left add_left h1 hu.1.ge
        · rw [hp]
          exact hu.2)
    exact this.1

end inner

section outer

variable {opt : Optimizer α} {gradOp : (List α → α) → List α → List α} {p : Problem α} {x0 : List α}

/-- The states of the outer loop whose guard is evaluated. -/
inductive OuterState (opt : Optimizer α) (gradOp : (List α → α) → List α → List α) (p : Problem α)
    (gplus : List α → List α → α → List α) (x0 : List α) : Status α → Prop
  | start : OuterState opt gradOp p gplus x0 (initStatus p x0)
  | step {s t : Status α} : OuterState opt gradOp p gplus x0 s → outerContinue p s = true →
      outerBody opt gradOp p gplus p.innerTol s = some t → OuterState opt gradOp p gplus x0 t

omit [NanNum α] in
theorem OuterState.loop {gplus : List α → List α → α → List α} {s : Status α} (h : OuterState opt gradOp p gplus x0 s) :
    outerLoop opt gradOp p gplus x0 = whileLoop (outerContinue p) (outerBody opt gradOp p gplus p.innerTol) s := by
  induction h with
  | start => rfl
  | step _ hc hb ih => rw [ih, whileLoop_unfold, if_pos hc, hb, Option.bind_some]

omit [NanNum α] in
/-- A property kept by the loop body passes from any state of the loop to the result. -/
theorem OuterState.keeps {gplus : List α → List α → α → List α} {s r : Status α} (h : OuterState opt gradOp p gplus x0 s)
    (hr : solveConstrained opt gradOp p gplus x0 = some r) (P : Status α → Prop) (hs : P s)
    (hstep : ∀ tol s t, P s → outerBody opt gradOp p gplus tol s = some t → P t) :
    ∃ e, P e ∧ OuterState opt gradOp p gplus x0 e ∧ outerBody opt gradOp p gplus p.lastTol e = some r := by
  unfold solveConstrained at hr
  rw [Option.bind_eq_some_iff] at hr
  obtain ⟨e, he, hb⟩ := hr
  rw [h.loop] at he
  obtain ⟨h1, h2⟩ := whileLoop_invariant (fun e => P e ∧ OuterState opt gradOp p gplus x0 e) he ⟨hs, h⟩
    (fun u v hu hc hv => ⟨hstep _ u v hu.1 hv, hu.2.step hc hv⟩)
  exact ⟨e, h1, h2, hb⟩

variable {gplus : List α → List α → α → List α}

theorem body_keeps_x (hs : opt.ShapeContract gradOp) {i : ℕ} {tol : InnerTol α} {s t : Status α} (hi : NanAt s.finX i)
    (h : outerBody opt gradOp p gplus tol s = some t) : NanAt t.finX i := by
  unfold outerBody at h
  rw [Option.map_eq_some_iff] at h
  obtain ⟨r, hr, rfl⟩ := h
  refine map_at (fun a => mul_left a s.xUnit) (inner_keeps hs ?_ hr)
  exact map_at (fun a => div_left a s.xUnit) hi

/-- **C148, the unknowns.** If a component of the unknowns is NaN in any state of the outer loop, it is NaN in the result. -/
theorem C148_unknowns (hs : opt.ShapeContract gradOp) {s r : Status α} (h : OuterState opt gradOp p gplus x0 s)
    (hr : solveConstrained opt gradOp p gplus x0 = some r) {i : ℕ} (hi : NanAt s.finX i) : NanAt r.finX i := by
  obtain ⟨e, he, -, hb⟩ := h.keeps hr (fun s => NanAt s.finX i) hi fun tol s t hs' ht => body_keeps_x hs hs' ht
  exact body_keeps_x hs he hb

/-- The constraint functions have as many components as there are multipliers. -/
structure Problem.Sized (p : Problem α) : Prop where
  h : ∀ y, (p.h y).length = p.lamInit.length
  g : ∀ y, (p.g y).length = p.muInit.length

omit [NanNum α] in
theorem body_sizes (hp : p.Sized) {tol : InnerTol α} {s t : Status α} (h : outerBody opt gradOp p gplusHard tol s = some t)
    (hl : s.finLam.length = p.lamInit.length) (hm : s.finMu.length = p.muInit.length) :
    t.finLam.length = p.lamInit.length ∧ t.finMu.length = p.muInit.length := by
  unfold outerBody at h
  rw [Option.map_eq_some_iff] at h
  obtain ⟨r, hr, rfl⟩ := h
  simp [outerUpdate, Num.vadd, gplusHard, hl, hm, hp.h, hp.g]

omit [NanNum α] in
theorem OuterState.sizes (hp : p.Sized) {s : Status α} (h : OuterState opt gradOp p gplusHard x0 s) :
    s.finLam.length = p.lamInit.length ∧ s.finMu.length = p.muInit.length := by
  induction h with
  | start => exact ⟨rfl, rfl⟩
  | step _ _ hb ih => exact body_sizes hp hb ih.1 ih.2

/-- With a NaN among the multipliers the augmented Lagrangian is NaN everywhere. -/
theorem augLag_nan (hp : p.Sized) {lam mu : List α} (c : α) (hl : lam.length = p.lamInit.length)
    (hm : mu.length = p.muInit.length) (h : (∃ j, NanAt lam j) ∨ ∃ j, NanAt mu j) (y : List α) :
    isNan (augLag p gplusHard lam mu c y) := by
  refine add_left _ _ ?_
  rcases h with ⟨j, hj⟩ | ⟨j, hj⟩
  · exact add_left _ _ (add_right _ _ (dot_nan_left hj (by rw [hp.h, hl])))
  · exact add_right _ _ (dot_nan_left hj (by simp [gplusHard, hp.g, hm]))

/-- A NaN multiplier stays, and the inner solve that starts with it does one iteration and reports NaN. -/
theorem body_keeps_multipliers (hc : opt.CountContract) (hv : opt.ValueContract) (hp : p.Sized) {tol : InnerTol α}
    {s t : Status α} (hl : s.finLam.length = p.lamInit.length) (hm : s.finMu.length = p.muInit.length)
    (h : outerBody opt gradOp p gplusHard tol s = some t) :
    (∀ j, NanAt s.finLam j ∨ NanAt t.finH j → NanAt t.finLam j) ∧ (∀ j, NanAt s.finMu j ∨ NanAt t.finG j → NanAt t.finMu j) ∧
      ((∃ j, NanAt s.finLam j) ∨ (∃ j, NanAt s.finMu j) → t.finNiter = 1 ∧ isNan t.finLAug) := by
  unfold outerBody at h
  rw [Option.map_eq_some_iff] at h
  obtain ⟨r, hr, rfl⟩ := h
  refine ⟨fun j hj => ?_, fun j hj => ?_, fun hj => ?_⟩
  · simp only [outerUpdate] at hj ⊢
    rcases hj with hj | hj
    · exact zipWith_left add_left hj (by simp [hl, hp.h])
    · exact zipWith_right add_right (map_at (fun a => mul_right s.finC a) hj) (by simp [hl, hp.h])
  · simp only [outerUpdate] at hj ⊢
    rcases hj with hj | hj
    · exact zipWith_left add_left hj (by simp [gplusHard, hm, hp.g])
    · refine zipWith_right add_right (map_at (fun a => mul_right s.finC a) ?_) (by simp [gplusHard, hm, hp.g])
      exact zipWith_left (fun a b => max_left a _) hj (by simp [hm, hp.g])
  · obtain ⟨r', hr', h1, h2⟩ := C148_start_nan (opt := opt) (gradOp := gradOp) (f := innerObjective p gplusHard s)
      (x0 := Num.vdivs s.finX s.xUnit) (tol := tol) hc hv (augLag_nan hp s.finC hl hm hj _)
    rw [hr] at hr'
    cases hr'
    exact ⟨h1, h2⟩

/-- **C148, the constraints.** If a constraint value is NaN after any pass through the body of the outer loop, its multiplier
is NaN in the result, and the last inner solve did one iteration and reported NaN. -/
theorem C148_constraints (hc : opt.CountContract) (hv : opt.ValueContract) (hp : p.Sized) {s t r : Status α}
    (h : OuterState opt gradOp p gplusHard x0 s) (hgo : outerContinue p s = true)
    (hb : outerBody opt gradOp p gplusHard p.innerTol s = some t)
    (hr : solveConstrained opt gradOp p gplusHard x0 = some r) :
    (∀ j, NanAt t.finH j → NanAt r.finLam j ∧ r.finNiter = 1 ∧ isNan r.finLAug) ∧
      (∀ j, NanAt t.finG j → NanAt r.finMu j ∧ r.finNiter = 1 ∧ isNan r.finLAug) := by
  have ht := h.step hgo hb
  have hsz := h.sizes hp
  have hone := body_keeps_multipliers hc hv hp hsz.1 hsz.2 hb
  refine ⟨fun j hj => ?_, fun j hj => ?_⟩
  · obtain ⟨e, he, hes, heb⟩ := ht.keeps hr (fun s => s.finLam.length = p.lamInit.length ∧ s.finMu.length = p.muInit.length ∧
      NanAt s.finLam j) ⟨(ht.sizes hp).1, (ht.sizes hp).2, hone.1 j (Or.inr hj)⟩
      (fun tol u v hu hv' => by
        have h1 := body_sizes hp hv' hu.1 hu.2.1
        exact ⟨h1.1, h1.2, (body_keeps_multipliers hc hv hp hu.1 hu.2.1 hv').1 j (Or.inl hu.2.2)⟩)
    have hk := body_keeps_multipliers hc hv hp he.1 he.2.1 heb
    exact ⟨hk.1 j (Or.inl he.2.2), hk.2.2 (Or.inl ⟨j, he.2.2⟩)⟩
  · obtain ⟨e, he, hes, heb⟩ := ht.keeps hr (fun s => s.finLam.length = p.lamInit.length ∧ s.finMu.length = p.muInit.length ∧
      NanAt s.finMu j) ⟨(ht.sizes hp).1, (ht.sizes hp).2, hone.2.1 j (Or.inr hj)⟩
      (fun tol u v hu hv' => by
        have h1 := body_sizes hp hv' hu.1 hu.2.1
        exact ⟨h1.1, h1.2, (body_keeps_multipliers hc hv hp hu.1 hu.2.1 hv').2.1 j (Or.inl hu.2.2)⟩)
    have hk := body_keeps_multipliers hc hv hp he.1 he.2.1 heb
    exact ⟨hk.2.1 j (Or.inl he.2.2), hk.2.2 (Or.inr ⟨j, he.2.2⟩)⟩

/-- NaN constraint values do not count as violations in the stopping test, but they do count as violations when the
multiplier-or-penalty choice is made. -/
theorem C148_tests_disagree (s : Status α) (h0 : s.totNiter ≠ 0) (hg : ∀ a ∈ s.finG, isNan a) (hh : ∀ a ∈ s.finH, isNan a)
    (hne : s.finG ≠ [] ∨ s.finH ≠ []) (hx : Num.le p.xstopOuter s.outerDx = false) (c : α) (n : ℕ)
    (hcs : Num.le p.cSafe c = false) (hn : n < p.maxiterInner) :
    outerContinue p s = false ∧ updateMultiplier p s.finG s.finH c n = false := by
  have e1 : s.finG.any (fun gi => Num.le p.ctolOuter gi) = false := by
    rw [List.any_eq_false]
    intro a ha
    rw [le_right _ _ (hg a ha)]
    simp
  have e2 : s.finH.any (fun hi => Num.le p.ctolOuter (Num.abs hi)) = false := by
    rw [List.any_eq_false]
    intro a ha
    rw [le_right _ _ (abs_nan _ (hh a ha))]
    simp
  refine ⟨?_, ?_⟩
  · unfold outerContinue
    rw [e1, e2, hx]
    simpa using h0
  · unfold updateMultiplier
    rw [hcs]
    have hd : decide (p.maxiterInner ≤ n) = false := by simpa using hn
    rw [hd, Bool.or_false, Bool.or_false, Bool.and_eq_false_iff]
    rcases hne with hne | hne
    · left
      obtain ⟨a, ha⟩ := List.exists_mem_of_ne_nil _ hne
      rw [List.all_eq_false]
      exact ⟨a, ha, by rw [lt_left _ _ (hg a ha)]; simp⟩
    · right
      obtain ⟨a, ha⟩ := List.exists_mem_of_ne_nil _ hne
      rw [List.all_eq_false]
      exact ⟨a, ha, by rw [lt_left _ _ (abs_nan _ (hh a ha))]; simp⟩

/-- **C148, a NaN start.** If a component of the initial unknowns is NaN, and the problem's functions turn NaN unknowns into NaN,
the whole run does two iterations: one pass through the loop and the last pass. -/
theorem C148_nan_start_two (hc : opt.CountContract) (hv : opt.ValueContract) (hs : opt.ShapeContract gradOp) {i : ℕ}
    (hi : NanAt x0 i) (hf : ∀ y, NanAt y i → isNan (p.f y)) (hg : ∀ y, NanAt y i → ∀ a ∈ p.g y, isNan a)
    (hh : ∀ y, NanAt y i → ∀ a ∈ p.h y, isNan a) :
    ∃ r, solveConstrained opt gradOp p gplus x0 = some r ∧ r.totNiter = 2 ∧ NanAt r.finX i ∧ isNan r.finF := by
  have one : ∀ (tol : InnerTol α) (s : Status α), NanAt s.finX i → s.finX.length = x0.length →
      ∃ t, outerBody opt gradOp p gplus tol s = some t ∧ t.totNiter = s.totNiter + 1 ∧ NanAt t.finX i ∧
        t.finX.length = x0.length ∧ isNan t.finF ∧ outerContinue p t = false := by
    intro tol s hx hlen
    have hstart : isNan (innerObjective p gplus s (Num.vdivs s.finX s.xUnit)) := by
      refine add_left _ _ (add_left _ _ (add_left _ _ (hf _ ?_)))
      exact map_at (fun a => mul_left a s.xUnit) (map_at (fun a => div_left a s.xUnit) hx)
    obtain ⟨r, hr, h1, -⟩ := C148_start_nan (opt := opt) (gradOp := gradOp) (tol := tol) hc hv hstart
    have hb : outerBody opt gradOp p gplus tol s = some (outerUpdate p gplus s r) := by simp [outerBody, hr]
    have hx' := body_keeps_x hs hx hb
    have hlen' := outerBody_length hs hb
    refine ⟨_, hb, by simp [outerUpdate, h1], hx', hlen'.trans hlen, hf _ hx', ?_⟩
    have e1 : (outerUpdate p gplus s r).finG.any (fun gi => Num.le p.ctolOuter gi) = false := by
      rw [List.any_eq_false]
      intro a ha
      rw [le_right _ _ (hg _ hx' a ha)]
      simp
    have e2 : (outerUpdate p gplus s r).finH.any (fun hi => Num.le p.ctolOuter (Num.abs hi)) = false := by
      rw [List.any_eq_false]
      intro a ha
      rw [le_right _ _ (abs_nan _ (hh _ hx' a ha))]
      simp
    have e3 : Num.le p.xstopOuter (outerUpdate p gplus s r).outerDx = false := by
      refine le_right _ _ (norm_nan (exists_of_at (i := i) (zipWith_left sub_left hx' hlen'.le)))
    have e4 : ((outerUpdate p gplus s r).totNiter == 0) = false := by simp [outerUpdate, h1]
    simp only [outerContinue, e1, e2, e3, e4]
    simp
  obtain ⟨t, ht, t1, t2, t3, -, t4⟩ := one p.innerTol (initStatus p x0) hi rfl
  obtain ⟨r, hr, r1, r2, -, r3, -⟩ := one p.lastTol t t2 t3
  refine ⟨r, ?_, by rw [r1, t1]; rfl, r2, r3⟩
  have hl : outerLoop opt gradOp p gplus x0 = some t := by
    unfold outerLoop
    rw [whileLoop_unfold, if_pos (by simp [outerContinue, initStatus]), ht, Option.bind_some, whileLoop_unfold, t4]
    simp
  rw [solveConstrained, hl, Option.bind_some, hr]

end outer

/-! ### Examples: `minimise x²/2 subject to 1/x <= 2` with a NaN at `x = 0`, by gradient descent with step 1. -/

namespace NanExample

/-- The gradient of `x²/2`. -/
def idGrad (_ : List NanReal → NanReal) (p : List NanReal) : List NanReal := p

/-- Gradient descent with step 1. -/
noncomputable def descent : Optimizer NanReal := gradientDescent idGrad (some 1)

/-- `minimise x²/2` subject to `1/x - 2 <= 0`. -/
noncomputable def prob : Problem NanReal where
  f y := Num.div (Num.dot y y) (Num.ofNat 2)
  g y := [Num.sub (Num.div (Num.ofNat 1) (y.headD (some 1))) (Num.ofNat 2)]
  h _ := []
  cInit := some 1
  cGrowth := some 2
  lamInit := []
  muInit := [some 0]
  xstopOuter := some 0
  ctolOuter := some 0
  fstopInner := some 0
  xstopInner := some 0
  gtolInner := some 0
  fstopInnerLast := some 0
  xstopInnerLast := some 0
  gtolInnerLast := some 0
  maxiterTot := 5
  maxiterInner := 1
  cSafe := some 100

theorem descent_count : descent.CountContract := gradientDescent_count _ _
theorem descent_value : descent.ValueContract := gradientDescent_value _ _
theorem descent_shape : descent.ShapeContract idGrad := gradientDescent_shape _ (fun _ _ => rfl) _

/-- The first pass through the loop body goes to `x = 0`, where the constraint is NaN. -/
theorem first_pass : ∃ t, outerBody descent idGrad prob gplusHard prob.innerTol (initStatus prob [some 1]) = some t ∧
    t.finX = [some 0] ∧ NanAt t.finG 0 := by
  obtain ⟨r, hb, hr, h1, h2⟩ := outerBody_some (gradOp := idGrad) (p := prob) (gplus := gplusHard) descent_count
    prob.innerTol (initStatus prob [some 1])
  have hx : r.x = [some 0] := by
    unfold runOpt at hr
    rw [Option.map_eq_some_iff] at hr
    obtain ⟨c, hc, rfl⟩ := hr
    obtain ⟨n, rfl, -, -, n1, n2⟩ := runOptCarry_spec descent_count hc
    have hn : n = 1 := by
      have : prob.innerTol.maxiter = 1 := rfl
      rw [this] at n2
      simp at n2
      omega
    subst hn
    rw [innerIter_succ, innerIter_zero]
    simp [Carry.result, innerStep, initCarry, initStatus, valueAndGradFromState, descent, gradientDescent, idGrad, Num.vadd,
      Num.vdivs, Num.add, Num.neg, Num.mul, Num.div, Num.ofNat]
  have hfx : (outerUpdate prob gplusHard (initStatus prob [some 1]) r).finX = [some 0] := by
    simp [outerUpdate, initStatus, hx, Num.vscale, Num.mul, Num.ofNat]
  refine ⟨_, hb, hfx, none, ?_, rfl⟩
  have : (outerUpdate prob gplusHard (initStatus prob [some 1]) r).finG =
      prob.g (outerUpdate prob gplusHard (initStatus prob [some 1]) r).finX := rfl
  rw [this, hfx]
  simp [prob, Num.sub, Num.div, Num.ofNat]

/-- The example run: from `x = 1` the reported multiplier of the constraint is NaN. -/
example : ∃ r, solveConstrained descent idGrad prob gplusHard [some 1] = some r ∧ NanAt r.finMu 0 ∧ r.finNiter = 1 ∧
    r.finLAug = none := by
  obtain ⟨t, ht, -, hg⟩ := first_pass
  obtain ⟨e, he⟩ := outerLoop_terminates (opt := descent) (gradOp := idGrad) (p := prob) (gplus := gplusHard)
    (x0 := [some 1]) descent_count
  obtain ⟨r, hr, -⟩ := outerBody_some (gradOp := idGrad) (p := prob) (gplus := gplusHard) descent_count prob.lastTol e
  have hres : solveConstrained descent idGrad prob gplusHard [some 1] = some (outerUpdate prob gplusHard e r) := by
    rw [solveConstrained, he, Option.bind_some, hr]
  refine ⟨_, hres, ?_⟩
  refine (C148_constraints descent_count descent_value ⟨fun _ => rfl, fun _ => rfl⟩ .start rfl ht hres).2 0 hg

/-- The example run from a NaN: two iterations, NaN unknown. -/
example : ∃ r, solveConstrained descent idGrad prob gplusHard [none] = some r ∧ r.totNiter = 2 ∧ NanAt r.finX 0 ∧
    r.finF = none := by
  refine C148_nan_start_two (i := 0) descent_count descent_value descent_shape ⟨none, rfl, rfl⟩ ?_ ?_ ?_
  · intro y hy
    exact div_left _ _ (dot_nan_left hy le_rfl)
  · rintro y ⟨b, hb, hn⟩ a ha
    cases y with
    | nil => simp at hb
    | cons c y =>
      simp only [List.getElem?_cons_zero, Option.some.injEq] at hb
      subst hb
      simp only [prob, List.headD_cons, List.mem_singleton] at ha
      subst ha
      exact sub_left _ _ (div_right _ _ hn)
  · intro y _ a ha
    simp [prob] at ha

/-- A NaN start, whatever the constraint functions are: the reported unknown is NaN. -/
example (q : Problem NanReal) : ∃ r, solveConstrained descent idGrad q gplusHard [some 2, none] = some r ∧ NanAt r.finX 1 := by
  obtain ⟨e, he⟩ := outerLoop_terminates (opt := descent) (gradOp := idGrad) (p := q) (gplus := gplusHard)
    (x0 := [some 2, none]) descent_count
  obtain ⟨r, hr, -⟩ := outerBody_some (gradOp := idGrad) (p := q) (gplus := gplusHard) descent_count q.lastTol e
  have hres : solveConstrained descent idGrad q gplusHard [some 2, none] = some (outerUpdate q gplusHard e r) := by
    rw [solveConstrained, he, Option.bind_some, hr]
  exact ⟨_, hres, C148_unknowns descent_shape .start hres ⟨none, rfl, rfl⟩⟩

/-- A state with a NaN constraint and a step below the tolerance: the loop stops, the penalty would grow. -/
example (s : Status NanReal) : outerContinue { prob with xstopOuter := some 1 }
      { s with totNiter := 1, outerDx := some 0, finG := [none], finH := [] } = false ∧
    updateMultiplier prob [none] [] (some 1) 0 = false := by
  have h := C148_tests_disagree (p := { prob with xstopOuter := some 1 })
    { s with totNiter := 1, outerDx := some 0, finG := [none], finH := [] } (by simp) (by simp [isNan]) (by simp)
    (Or.inl (by simp)) (by simp [Num.le]) (some 1) 0 (by simp [prob, Num.le]) (by simp [prob])
  exact h

/-- An inner solve from a NaN objective: one iteration. -/
example (tol : InnerTol NanReal) : ∃ r, runOpt descent idGrad (fun y => Num.div (Num.ofNat 1) (y.headD none)) [some 0] tol = some r ∧
    r.count = 1 ∧ r.value = none :=
  C148_start_nan descent_count descent_value (by simp [isNan, Num.div])

end NanExample

end Verif
