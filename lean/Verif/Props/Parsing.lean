import Verif.Props.Approx

/-!
# Properties C24, C25, C26, C27: objectives, rejected requests, auxiliary names, merging
-/

namespace Verif

set_option linter.unusedSectionVars false

variable {P : Type} [HasQp P]

/-! ## C24 -/

theorem foldl_scalar_sum (l : List ((P → Dofs → Val) × ℝ)) (qp : P) (dofs : Dofs) (vs : List ℝ) (s : ℝ)
    (h : List.Forall₂ (fun fw v => Val.map (fun x => x * fw.2) (fw.1 qp dofs) = .scalar v) l vs) :
    l.foldl (fun out fw => Val.map2 (· + ·) out (Val.map (fun x => x * fw.2) (fw.1 qp dofs))) (Val.scalar s) =
      .scalar (s + vs.sum) := by
  induction h generalizing s with
  | nil => simp
  | cons hab _ ih =>
    rename_i b _ _ _
    rw [List.foldl_cons, hab]
    change List.foldl _ (Val.scalar (s + b)) _ = _
    rw [ih]
    simp [add_assoc]

theorem parseObjLoop_ok {reg : Registry P} {sm : Option String} {sp : SmoothingParams} {names : List String}
    {units : List UnitArg} {acc res : ObjAcc P} (h : parseObjLoop reg sm sp names units acc = .ok res) :
    ∃ as : List (Added P), List.Forall₂ (fun (nu : String × UnitArg) a => addQuantity reg nu.1 nu.2 "f" sm sp = .ok a)
        (names.zip units) as ∧ names.length ≤ units.length ∧ res.f = acc.f ++ as.map Added.val ∧
      res.g = acc.g ++ as.flatMap Added.g ∧ res.h = acc.h ++ as.flatMap Added.h := by
  induction names generalizing units acc with
  | nil =>
    simp only [parseObjLoop, Except.ok.injEq] at h
    subst h
    exact ⟨[], by simp⟩
  | cons n ns ih =>
    cases units with
    | nil => simp [parseObjLoop] at h
    | cons u us =>
      simp only [parseObjLoop] at h
      cases ha : addQuantity reg n u "f" sm sp with
      | error e => simp [ha, bind, Except.bind] at h
      | ok a =>
        simp only [ha, bind, Except.bind] at h
        obtain ⟨as, hF, hlen, hf, hg, hh⟩ := ih h
        refine ⟨a :: as, ?_, ?_, ?_, ?_, ?_⟩
        · rw [List.zip_cons_cons]
          exact List.Forall₂.cons ha hF
        · simpa using hlen
        · simp [hf]
        · simp [hg]
        · simp [hh]

/-- One objective term as the user sees it. -/
structure Term where
  name : String
  unit : ℝ
  weight : ℝ
  /-- the value of the quantity at the point considered -/
  value : ℝ

/-- **C24.** With several objectives the total objective is the sum of `weight * quantity / |unit|` in the given order.
This holds without smoothing for every quantity, and in every smoothing mode for smooth quantities. -/
theorem C24_objective_is_weighted_sum (reg : Registry P) (ts : List Term) (sm : Option String) (sp : SmoothingParams)
    (o : ParsedObj P) (qp : P) (dofs : Dofs)
    (h : parseObjectives reg (.many (ts.map Term.name)) (.many (ts.map fun t => .scalar t.unit))
      (.many (ts.map Term.weight)) sm sp = .ok o)
    (hunit : ∀ t ∈ ts, t.unit ≠ 0)
    (hval : ∀ t ∈ ts, ∃ q, reg t.name = some (.quantity q) ∧ q.rawF qp dofs = .scalar t.value ∧
      (sm = none ∨ ∃ func compat, q = Quantity.generateC2 func compat)) :
    o.f qp dofs = .scalar ((ts.map fun t => t.weight * (t.value / |t.unit|)).sum) := by
  simp only [parseObjectives] at h
  rw [if_neg (by simp)] at h
  cases hl : parseObjLoop reg sm sp (ts.map Term.name) (ts.map fun t => .scalar t.unit) ⟨[], [], [], []⟩ with
  | error e => simp [hl, bind, Except.bind] at h
  | ok acc =>
    simp only [hl, bind, Except.bind, Except.ok.injEq] at h
    subst h
    obtain ⟨as, hF, -, hf, -, -⟩ := parseObjLoop_ok hl
    simp only [List.nil_append] at hf
    simp only [fTot, hf]
    have key : List.Forall₂ (fun (fw : (P → Dofs → Val) × ℝ) v => Val.map (fun x => x * fw.2) (fw.1 qp dofs) = .scalar v)
        ((as.map Added.val).zip (ts.map Term.weight)) (ts.map fun t => t.weight * (t.value / |t.unit|)) := by
      clear hf hl
      induction ts generalizing as with
      | nil => simp
      | cons t ts ih =>
        simp only [List.map_cons, List.zip_cons_cons] at hF
        cases hF with
        | cons h1 h2 =>
          rename_i a as
          simp only [List.map_cons, List.zip_cons_cons]
          refine List.Forall₂.cons ?_ (ih (fun t ht => hunit t (List.mem_cons_of_mem _ ht))
            (fun t ht => hval t (List.mem_cons_of_mem _ ht)) as h2)
          obtain ⟨q, hq, hraw, hc⟩ := hval t (List.mem_cons_self ..)
          obtain ⟨q', u, hq', hks, -, hu, rfl⟩ := addQuantity_ok.1 h1
          simp only at hq' hu
          rw [hq] at hq'
          cases hq'
          simp only [unitCallable, Except.ok.injEq] at hu
          subst hu
          have : (addedOf q sm sp fun _ => Val.scalar |t.unit|).val qp dofs = .scalar (t.value / |t.unit|) := by
            rcases hc with rfl | ⟨func, compat, rfl⟩
            · simp [addedOf, hraw, Val.map2]
            · change func qp dofs = _ at hraw
              unfold addedOf
              split
              · simp [Quantity.generateC2, hraw, Val.map2]
              · split <;> simp [Quantity.generateC2, hraw, Val.map2]
          simp [this, Val.map, mul_comm]
    rw [foldl_scalar_sum _ _ _ _ _ key, zero_add]

/-- **C24, single objective.** With a string objective the given weight is ignored and the total objective is
`quantity / |unit|`. -/
theorem C24_single_objective (reg : Registry P) (name : String) (u : ℝ) (hu : u ≠ 0) (w : OneOrMany ℝ)
    (sm : Option String) (sp : SmoothingParams) (o : ParsedObj P) (qp : P) (dofs : Dofs) (value : ℝ)
    (h : parseObjectives reg (.one name) (.one (.scalar u)) w sm sp = .ok o)
    (hval : ∃ q, reg name = some (.quantity q) ∧ q.rawF qp dofs = .scalar value ∧
      (sm = none ∨ ∃ func compat, q = Quantity.generateC2 func compat)) :
    o.f qp dofs = .scalar (value / |u|) := by
  have := C24_objective_is_weighted_sum reg [⟨name, u, 1, value⟩] sm sp o qp dofs h
    (by simpa using hu) (by simpa using hval)
  simpa using this

example (sp : SmoothingParams) : ∃ o, parseObjectives toyRegistry (.many ["f_Phi", "f_max_Phi"])
    (.many [.scalar 2, .scalar (-4)]) (.many [1, 10]) none sp = .ok o := ⟨_, rfl⟩

/-! ## C25 -/

/-- What makes a request legal, independently of the order of the checks. -/
def LegalUse (reg : Registry P) (sm : Option String) (name : String) (unit : UnitArg) (role : String) : Prop :=
  (∃ q, reg name = some (.quantity q) ∧ role ∈ q.compatibility) ∧
    (sm = none ∨ sm = some "slack" ∨ sm = some "approx") ∧ unit ≠ .other

theorem addQuantity_ok_iff (reg : Registry P) (sm : Option String) (sp : SmoothingParams) (name : String)
    (unit : UnitArg) (role : String) :
    (∃ a, addQuantity reg name unit role sm sp = .ok a) ↔ LegalUse reg sm name unit role := by
  constructor
  · rintro ⟨a, h⟩
    obtain ⟨q, u, hq, hk, hc, hu, -⟩ := addQuantity_ok.1 h
    refine ⟨⟨q, hq, hc⟩, hk, ?_⟩
    rintro rfl
    simp [unitCallable] at hu
  · rintro ⟨⟨q, hq, hc⟩, hk, hu⟩
    cases unit with
    | none => exact ⟨_, addQuantity_ok.2 ⟨q, _, hq, hk, hc, rfl, rfl⟩⟩
    | scalar x => exact ⟨_, addQuantity_ok.2 ⟨q, _, hq, hk, hc, rfl, rfl⟩⟩
    | other => exact absurd rfl hu

theorem foldlM_parseStep_ok_iff (reg : Registry P) (sm : Option String) (sp : SmoothingParams) (rs : List Request)
    (acc : Parsed P) :
    (∃ p, rs.foldlM (parseStep reg sm sp) acc = .ok p) ↔
      ∀ r ∈ rs, LegalUse reg sm r.name r.unit r.type ∧ (r.type = "<=" ∨ r.type = ">=" ∨ r.type = "==") := by
  induction rs generalizing acc with
  | nil => simpa using ⟨acc, rfl⟩
  | cons r rs ih =>
    simp only [foldlM_except_cons, List.forall_mem_cons]
    constructor
    · rintro ⟨p, b, hb, hp⟩
      refine ⟨?_, (ih b).1 ⟨p, hp⟩⟩
      obtain ⟨a, ha, hc⟩ := parseStep_ok.1 hb
      refine ⟨(addQuantity_ok_iff ..).1 ⟨a, ha⟩, ?_⟩
      rcases hc with h | h | h
      · exact Or.inr (Or.inr h.1)
      · exact Or.inl h.1
      · exact Or.inr (Or.inl h.1)
    · rintro ⟨⟨hl, ht⟩, hrest⟩
      obtain ⟨a, ha⟩ := (addQuantity_ok_iff reg sm sp ..).2 hl
      have : ∃ b, parseStep reg sm sp acc r = .ok b := by
        rcases ht with h | h | h
        · exact ⟨_, parseStep_ok.2 ⟨a, ha, Or.inr (Or.inl ⟨h, rfl⟩)⟩⟩
        · exact ⟨_, parseStep_ok.2 ⟨a, ha, Or.inr (Or.inr ⟨h, rfl⟩)⟩⟩
        · exact ⟨_, parseStep_ok.2 ⟨a, ha, Or.inl ⟨h, rfl⟩⟩⟩
      obtain ⟨b, hb⟩ := this
      obtain ⟨p, hp⟩ := (ih b).2 hrest
      exact ⟨p, b, hb, hp⟩

/-- **C25 (constraints).** Parsing succeeds exactly when the four lists have the same length and every request is legal
and of type '<=', '>=' or '=='. -/
theorem C25_constraints_rejected_iff_illegal (reg : Registry P) (names types : List String) (units : List UnitArg)
    (values : List ℝ) (sm : Option String) (sp : SmoothingParams) :
    (∃ p, parseConstraints reg names types units values sm sp = .ok p) ↔
      names.length = types.length ∧ names.length = units.length ∧ names.length = values.length ∧
      ∀ (i : ℕ) (h1 : i < names.length) (h2 : i < types.length) (h3 : i < units.length),
        LegalUse reg sm names[i] units[i] types[i] ∧ (types[i] = "<=" ∨ types[i] = ">=" ∨ types[i] = "==") := by
  unfold parseConstraints
  by_cases hlen : names.length ≠ types.length ∨ names.length ≠ units.length ∨ names.length ≠ values.length
  · rw [if_pos hlen]
    simp only [reduceCtorEq, exists_false, false_iff]
    rintro ⟨h1, h2, h3, -⟩
    rcases hlen with h | h | h
    · exact h h1
    · exact h h2
    · exact h h3
  · rw [if_neg hlen]
    push Not at hlen
    obtain ⟨h1, h2, h3⟩ := hlen
    rw [foldlM_parseStep_ok_iff]
    simp only [h1, h2, h3, true_and]
    constructor
    · intro H
      refine ⟨h1.symm.trans h2, h1.symm.trans h3, fun i hi1 hi2 hi3 => ?_⟩
      have hi : i < (zipRequests names types units values).length := by simp [zipRequests]; omega
      have := H _ (List.getElem_mem hi)
      simpa [zipRequests] using this
    · rintro ⟨-, -, H⟩ r hr
      obtain ⟨i, hi, rfl⟩ := List.mem_iff_getElem.1 hr
      have hi' := hi
      simp [zipRequests] at hi'
      have := H i (by omega) (by omega) (by omega)
      simpa [zipRequests] using this

theorem parseObjLoop_ok_iff (reg : Registry P) (sm : Option String) (sp : SmoothingParams) (names : List String)
    (units : List UnitArg) (acc : ObjAcc P) :
    (∃ r, parseObjLoop reg sm sp names units acc = .ok r) ↔
      names.length ≤ units.length ∧ ∀ (i : ℕ) (h1 : i < names.length) (h2 : i < units.length),
        LegalUse reg sm names[i] units[i] "f" := by
  induction names generalizing units acc with
  | nil => simp [parseObjLoop]
  | cons n ns ih =>
    cases units with
    | nil => simp [parseObjLoop]
    | cons u us =>
      simp only [parseObjLoop]
      cases ha : addQuantity reg n u "f" sm sp with
      | error e =>
        have hno : ¬ LegalUse reg sm n u "f" := fun hl => by
          obtain ⟨a, h⟩ := (addQuantity_ok_iff reg sm sp ..).2 hl
          rw [h] at ha
          cases ha
        simp only [bind, Except.bind, reduceCtorEq, exists_false, false_iff]
        rintro ⟨-, H⟩
        exact hno (H 0 (by simp) (by simp))
      | ok a =>
        have hyes := (addQuantity_ok_iff reg sm sp ..).1 ⟨a, ha⟩
        simp only [bind, Except.bind, ih, List.length_cons]
        constructor
        · rintro ⟨hl, H⟩
          refine ⟨by omega, fun i h1 h2 => ?_⟩
          cases i with
          | zero => exact hyes
          | succ i => simpa using H i (by omega) (by omega)
        · rintro ⟨hl, H⟩
          exact ⟨by omega, fun i h1 h2 =>
            H (i + 1) (Nat.succ_lt_succ h1) (Nat.succ_lt_succ h2)⟩

/-- **C25 (objectives).** For a tuple of names with a tuple of units and a sequence of weights, parsing succeeds exactly
when there are as many weights as names, at least as many units as names, and every objective is legal. -/
theorem C25_objectives_rejected_iff_illegal (reg : Registry P) (names : List String) (units : List UnitArg)
    (weights : List ℝ) (sm : Option String) (sp : SmoothingParams) :
    (∃ o, parseObjectives reg (.many names) (.many units) (.many weights) sm sp = .ok o) ↔
      names.length = weights.length ∧ names.length ≤ units.length ∧
      ∀ (i : ℕ) (h1 : i < names.length) (h2 : i < units.length), LegalUse reg sm names[i] units[i] "f" := by
  simp only [parseObjectives]
  by_cases hlen : names.length = weights.length
  · rw [if_neg (by simpa using hlen)]
    rw [← parseObjLoop_ok_iff reg sm sp names units ⟨[], [], [], []⟩]
    simp only [hlen, true_and]
    cases parseObjLoop reg sm sp names units ⟨[], [], [], []⟩ <;> simp [bind, Except.bind]
  · rw [if_pos hlen]
    simp [hlen]

/-- **C25 (single objective).** -/
theorem C25_single_objective_rejected_iff_illegal (reg : Registry P) (name : String) (unit : UnitArg) (w : OneOrMany ℝ)
    (sm : Option String) (sp : SmoothingParams) :
    (∃ o, parseObjectives reg (.one name) (.one unit) w sm sp = .ok o) ↔ LegalUse reg sm name unit "f" := by
  have := C25_objectives_rejected_iff_illegal reg [name] [unit] [1] sm sp
  have h2 : parseObjectives reg (.one name) (.one unit) w sm sp =
      parseObjectives reg (.many [name]) (.many [unit]) (.many [1]) sm sp := by
    simp [parseObjectives]
  rw [h2, this]
  simp only [List.length_singleton, le_refl, true_and]
  constructor
  · intro H
    exact H 0 (by simp) (by simp)
  · intro H i h1 h2
    have : i = 0 := by omega
    subst this
    exact H

/-- A legal and an illegal request. -/
example : LegalUse toyRegistry (some "slack") "f_max_Phi" .none "f" ∧
    ¬ LegalUse toyRegistry (some "slack") "f_max_Phi" .none "==" ∧ ¬ LegalUse toyRegistry none "jnp" .none "f" := by
  refine ⟨⟨⟨_, rfl, by simp [Quantity.generateLinf]⟩, by simp, by simp⟩, ?_, ?_⟩
  · rintro ⟨⟨q, hq, hc⟩, -⟩
    simp [toyRegistry] at hq
    subst hq
    simp [Quantity.generateLinf] at hc
  · rintro ⟨⟨q, hq, -⟩, -⟩
    simp [toyRegistry] at hq

/-! ## C26 -/

theorem construct_ok {used used' : List String} {a : CtorArgs} (h : construct used a = .ok used') :
    used' = used ++ a.auxNames ∧ ∀ k ∈ a.auxNames, k ∉ used := by
  unfold construct at h
  split at h
  · cases h
  · unfold CtorArgs.auxNames
    split at h
    · rename_i heq
      simp only [Except.ok.injEq] at h
      simp [heq, h]
    · cases h
    · rename_i keys heq
      split at h
      · cases h
      · rename_i hdup
        split at h
        · cases h
        · simp only [Except.ok.injEq] at h
          rw [heq]
          refine ⟨h.symm, fun k hk hu => hdup ?_⟩
          simp only [List.any_eq_true]
          exact ⟨k, hk, by simpa using hu⟩

theorem constructAll_aux (used : List String) (as : List CtorArgs) :
    (∀ a ∈ (constructAll used as).2, ∀ k ∈ a.auxNames, k ∉ used) ∧
      (constructAll used as).2.Pairwise fun a b => ∀ k ∈ a.auxNames, k ∉ b.auxNames := by
  induction as generalizing used with
  | nil => simp [constructAll]
  | cons a as ih =>
    unfold constructAll
    cases hc : construct used a with
    | error e => exact ih used
    | ok used' =>
      obtain ⟨hu, hnew⟩ := construct_ok hc
      obtain ⟨ih1, ih2⟩ := ih used'
      simp only [List.mem_cons, List.pairwise_cons]
      refine ⟨?_, ?_, ih2⟩
      · rintro b (rfl | hb) k hk
        · exact hnew k hk
        · exact fun hku => ih1 b hb k hk (by rw [hu]; exact List.mem_append_left _ hku)
      · intro b hb k hk hkb
        exact ih1 b hb k hkb (by rw [hu]; exact List.mem_append_right _ hk)

/-- **C26.** After any sequence of quantity definitions, some of which may fail, no auxiliary name belongs to two of the
quantities that were successfully defined. -/
theorem C26_aux_names_disjoint (used : List String) (as : List CtorArgs) :
    (constructAll used as).2.Pairwise fun a b => ∀ k, k ∈ a.auxNames → k ∉ b.auxNames :=
  (constructAll_aux used as).2

/-- **C26.** A failed definition does not reserve any name: the later definitions behave as if it had not been made. -/
theorem C26_failure_reserves_nothing (used : List String) (a : CtorArgs) (as : List CtorArgs) (e : PyErr)
    (h : construct used a = .error e) : constructAll used (a :: as) = constructAll used as := by
  simp [constructAll, h]

/-- **C26.** The check is not over-eager: a definition with new names and correct arguments succeeds. -/
theorem C26_fresh_names_accepted (used keys : List String) (compat : List String)
    (hfresh : ∀ k ∈ keys, k ∉ used) (hc : ∀ c ∈ compat, c ∈ ["<=", "==", ">=", "f"]) :
    construct used ⟨false, some (some keys), compat⟩ = .ok (used ++ keys) := by
  unfold construct
  have h1 : keys.any (fun k => used.contains k) = false := by
    rw [List.any_eq_false]
    intro k hk
    simpa using hfresh k hk
  have h2 : compat.any (fun c => ! ["<=", "==", ">=", "f"].contains c) = false := by
    rw [List.any_eq_false]
    intro c hc'
    have := hc c hc'
    simp only [List.mem_cons, List.not_mem_nil, or_false] at this
    rcases this with rfl | rfl | rfl | rfl <;> simp
  simp only [Bool.false_eq_true, if_false, h1, h2]

example : (constructAll [] [⟨false, some (some ["a"]), ["f"]⟩, ⟨false, some (some ["a", "b"]), ["f"]⟩,
    ⟨false, some (some ["b"]), ["<="]⟩]).2.length = 2 := by
  simp [constructAll, construct]

/-! ## C27 -/

/-- **C27 (no merging).** The merged function returns all entries of the outputs in order, skipping `None`. -/
theorem C27_merge_concatenates (fs : List (Option (P → Dofs → Val))) (sm : Option String) (sp : SmoothingParams)
    (qp : P) (dofs : Dofs) :
    mergeCallables fs false sm sp qp dofs =
      .ok (fs.flatMap fun f => match f with
        | none => []
        | some f => (f qp dofs).entries) := by
  have key : ((fs.filterMap id).map fun fn => (fn qp dofs).entries).flatten =
      fs.flatMap fun f => match f with
        | none => []
        | some f => (f qp dofs).entries := by
    induction fs with
    | nil => simp
    | cons f fs ih => cases f <;> simpa using ih
  unfold mergeCallables
  simp only [Bool.false_eq_true, if_false]
  split
  · rename_i h0
    rw [← key, List.length_eq_zero_iff.1 h0]
    simp
  · rw [key]

/-- **C27 (merging refused).** Outside approx mode, merging at least one function raises `AttributeError`. -/
theorem C27_merge_refused (fs : List (P → Dofs → Val)) (hne : fs ≠ []) (sm : Option String) (hsm : sm ≠ some "approx")
    (sp : SmoothingParams) (qp : P) (dofs : Dofs) :
    mergeCallables (fs.map some) true sm sp qp dofs = .error .attributeError := by
  unfold mergeCallables
  rw [if_neg (by simpa using hne)]
  simp [hsm]

/-- **C27 (merging).** In approx mode, merging functions with outputs of equal size returns one number. It bounds every
entry from above and exceeds the largest one by at most `eps log n`. -/
theorem C27_merge_bounds (fs : List (P → Dofs → Val)) (hne : fs ≠ []) (sp : SmoothingParams)
    (he : 0 < sp.lseEpsilon) (qp : P) (dofs : Dofs) (k : ℕ) (hk : 0 < k)
    (hlen : ∀ f ∈ fs, (f qp dofs).entries.length = k) :
    ∃ m, mergeCallables (fs.map some) true (some "approx") sp qp dofs = .ok [m] ∧
      (∀ f ∈ fs, ∀ x ∈ (f qp dofs).entries, x ≤ m) ∧
      ∀ t, (∀ f ∈ fs, ∀ x ∈ (f qp dofs).entries, x ≤ t) → m ≤ t + sp.lseEpsilon * Real.log (fs.length * k : ℕ) := by
  have hfm : (fs.map some).filterMap id = fs := by simp
  refine ⟨maxLse (fs.map fun fn => (fn qp dofs).entries).flatten sp.lseEpsilon, ?_, ?_, ?_⟩
  · unfold mergeCallables
    simp only [hfm]
    rw [if_neg (by simpa using hne)]
    simp only [if_true]
    rw [if_pos]
    rw [List.all_eq_true]
    intro o ho
    obtain ⟨f, hf, rfl⟩ := List.mem_map.1 ho
    cases fs with
    | nil => exact absurd rfl hne
    | cons g gs => simp [hlen f hf, hlen g (List.mem_cons_self ..)]
  · intro f hf x hx
    exact le_maxLse he (List.mem_flatten.2 ⟨_, List.mem_map.2 ⟨f, hf, rfl⟩, hx⟩)
  · intro t ht
    have hl : (fs.map fun fn => (fn qp dofs).entries).flatten.length = fs.length * k := by
      clear hne hfm ht
      induction fs with
      | nil => simp
      | cons f fs ih =>
        simp only [List.map_cons, List.flatten_cons, List.length_append, List.length_cons]
        rw [ih fun f hf => hlen f (List.mem_cons_of_mem _ hf), hlen f (List.mem_cons_self ..)]
        ring
    have hne' : (fs.map fun fn => (fn qp dofs).entries).flatten ≠ [] := by
      intro h0
      rw [h0] at hl
      have : 0 < fs.length := List.length_pos_iff.2 hne
      have := Nat.mul_pos this hk
      rw [List.length_nil] at hl
      omega
    have := maxLse_le he hne' (t := t) (by
      intro x hx
      obtain ⟨l, hl, hxl⟩ := List.mem_flatten.1 hx
      obtain ⟨f, hf, rfl⟩ := List.mem_map.1 hl
      exact ht f hf x hxl)
    rwa [hl] at this

/-- **C27 (merging what the parser made).** In approx mode every generated inequality function has exactly one entry (for
smooth quantities and scalar units), so merging them never fails. -/
theorem C27_parsed_constraints_mergeable (reg : Registry P) (names types : List String) (units : List UnitArg)
    (values : List ℝ) (sp : SmoothingParams) (p : Parsed P)
    (h : parseConstraints reg names types units values (some "approx") sp = .ok p) (qp : P) (dofs : Dofs) :
    ∀ g ∈ p.g, (g qp dofs).entries.length = 1 := by
  unfold parseConstraints at h
  split at h
  · cases h
  obtain ⟨gs, hs, hg, -, hF, -⟩ := parse_forall₂ reg (some "approx") sp (by simp)
    (fun g _ => (g qp dofs).entries.length = 1) (fun _ _ => True) _ _ _ h (by
      intro r _ q u _ _
      have : ∀ s, (consFunc (addedOf q (some "approx") sp u) r.value s (some "approx") sp qp dofs).entries.length = 1 := by
        intro s
        simp only [consFunc, true_and]
        generalize Val.map (fun x => s * x) _ = v
        cases v <;> simp [Val.isScalar, Val.entries]
      exact ⟨fun _ => this 1, fun _ => this (-1), fun _ => trivial⟩)
  simp only [List.nil_append] at hg
  rw [hg]
  intro g hgm
  have : ∀ (gs : List (P → Dofs → Val)) (l : List Request),
      List.Forall₂ (fun g _ => (g qp dofs).entries.length = 1) gs l → ∀ g ∈ gs, (g qp dofs).entries.length = 1 := by
    intro gs l hF
    induction hF with
    | nil => simp
    | cons hab _ ih =>
      intro g hg
      rcases List.mem_cons.1 hg with rfl | hg
      · exact hab
      · exact ih g hg
  exact this _ _ hF g hgm

example : (fun (_ : ToyQp) (_ : Dofs) => Val.scalar 1) ⟨0⟩ (phiOnly (.scalar 0)) = Val.scalar 1 ∧
    ∀ f ∈ [fun (_ : ToyQp) (_ : Dofs) => Val.scalar 1, fun _ _ => Val.scalar (-2)],
      (f ⟨0⟩ (phiOnly (.scalar 0))).entries.length = 1 := by
  simp [Val.entries]

end Verif
