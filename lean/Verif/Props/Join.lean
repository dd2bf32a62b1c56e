import Verif.Props.Parsing
import Verif.Props.Api

/-!
# Property C94: objectives and constraints are put together completely

`quadcoil.py` 491-528 concatenates the constraint functions of the objectives and of the constraints and joins their
dictionaries of initial values for auxiliary variables.
-/

namespace Verif

set_option linter.unusedSectionVars false

variable {P : Type} [HasQp P]

theorem lookup_map_snd {β γ : Type} (l : List (String × β)) (f : String → β → γ) (k : String) :
    (l.map fun kv => (kv.1, f kv.1 kv.2)).lookup k = (l.lookup k).map (f k) := by
  induction l with
  | nil => rfl
  | cons kv l ih =>
    obtain ⟨a, b⟩ := kv
    rw [List.map_cons, lookup_cons_ite, lookup_cons_ite, ih]
    by_cases h : k = a
    · simp [h]
    · simp [h]

theorem lookup_filter_key {β : Type} (l : List (String × β)) (c : String → Bool) (k : String) :
    (l.filter fun kv => c kv.1).lookup k = if c k then l.lookup k else none := by
  induction l with
  | nil => simp
  | cons kv l ih =>
    obtain ⟨a, b⟩ := kv
    by_cases ha : c a = true
    · rw [List.filter_cons_of_pos (by simpa using ha), lookup_cons_ite, lookup_cons_ite, ih]
      by_cases h : k = a
      · subst h
        simp [ha]
      · simp [h]
    · rw [List.filter_cons_of_neg (by simpa using ha), lookup_cons_ite, ih]
      by_cases h : k = a
      · subst h
        simp [ha]
      · simp [h]

theorem lookup_append_or {β : Type} (l r : List (String × β)) (k : String) :
    (l ++ r).lookup k = (l.lookup k).or (r.lookup k) := by
  induction l with
  | nil => simp
  | cons kv l ih =>
    obtain ⟨a, b⟩ := kv
    rw [List.cons_append, lookup_cons_ite, lookup_cons_ite, ih]
    by_cases h : k = a <;> simp [h]

/-- **C94 (dictionaries).** Python's `a | b`: the value of a key is the one in `b` if there is one, else the one in `a`. -/
theorem C94_union_lookup {β : Type} (a b : List (String × β)) (k : String) :
    (dictUnion a b).lookup k = (b.lookup k).or (a.lookup k) := by
  unfold dictUnion
  rw [lookup_append_or, lookup_map_snd a (fun k v => (b.lookup k).getD v),
    lookup_filter_key b (fun k => (a.lookup k).isNone)]
  cases ha : a.lookup k <;> cases hb : b.lookup k <;> simp

theorem lookup_isSome_iff {β : Type} (l : List (String × β)) (k : String) : (l.lookup k).isSome ↔ k ∈ l.map Prod.fst := by
  induction l with
  | nil => simp
  | cons kv l ih =>
    obtain ⟨a, b⟩ := kv
    rw [lookup_cons_ite]
    by_cases h : k = a
    · simp [h]
    · simp [h, ih]

theorem mem_keys_union {β : Type} (a b : List (String × β)) (k : String) :
    k ∈ (dictUnion a b).map Prod.fst ↔ k ∈ a.map Prod.fst ∨ k ∈ b.map Prod.fst := by
  rw [← lookup_isSome_iff, ← lookup_isSome_iff, ← lookup_isSome_iff, C94_union_lookup]
  cases a.lookup k <;> cases b.lookup k <;> simp

/-- Joining keeps keys distinct, as in a dictionary. -/
theorem C94_union_nodup {β : Type} (a b : List (String × β)) (ha : (a.map Prod.fst).Nodup) (hb : (b.map Prod.fst).Nodup) :
    ((dictUnion a b).map Prod.fst).Nodup := by
  unfold dictUnion
  rw [List.map_append, List.map_map]
  refine List.Nodup.append (by simpa [Function.comp_def] using ha) (hb.sublist (List.filter_sublist.map _)) ?_
  intro k hk1 hk2
  simp only [List.mem_map, List.mem_filter, Option.isNone_iff_eq_none, Function.comp_apply] at hk1 hk2
  obtain ⟨kv, ⟨-, hnone⟩, rfl⟩ := hk2
  obtain ⟨kv', hkv', he⟩ := hk1
  have := (lookup_isSome_iff a kv.1).2 (List.mem_map.2 ⟨kv', hkv', he⟩)
  simp [hnone] at this

/-- The auxiliary variables of a quantity in a smoothing mode. -/
def auxOf (sm : Option String) (q : Quantity P) : List String :=
  if sm = some "slack" then (q.slackInit.getD []).map Prod.fst else []

theorem addedOf_slack_keys (q : Quantity P) (sm : Option String) (sp : SmoothingParams) (u : P → Val) :
    (addedOf q sm sp u).slack.map Prod.fst = auxOf sm q := by
  unfold addedOf auxOf
  split
  · simp [Function.comp_def]
  · split <;> simp

/-- The auxiliary variables of the constraints, before the join. -/
theorem foldlM_slack_keys (reg : Registry P) (sm : Option String) (sp : SmoothingParams) (rs : List Request)
    (acc p : Parsed P) (h : rs.foldlM (parseStep reg sm sp) acc = .ok p) (k : String) :
    k ∈ p.slack.map Prod.fst ↔ k ∈ acc.slack.map Prod.fst ∨
      ∃ r ∈ rs, ∃ q, reg r.name = some (.quantity q) ∧ k ∈ auxOf sm q := by
  induction rs generalizing acc with
  | nil =>
    rw [foldlM_except_nil] at h
    cases h
    simp
  | cons r rs ih =>
    obtain ⟨b, hb, hrest⟩ := (foldlM_except_cons _ _ _ _ _).1 h
    obtain ⟨a, ha, hc⟩ := parseStep_ok.1 hb
    obtain ⟨q, u, hq, -, -, -, rfl⟩ := addQuantity_ok.1 ha
    have hslack : b.slack = dictUnion acc.slack (addedOf q sm sp u).slack := by
      rcases hc with ⟨-, rfl⟩ | ⟨-, rfl⟩ | ⟨-, rfl⟩ <;> rfl
    rw [ih b hrest, hslack, mem_keys_union, addedOf_slack_keys]
    simp only [List.mem_cons, exists_eq_or_imp]
    constructor
    · rintro ((h | h) | h)
      · exact Or.inl h
      · exact Or.inr (Or.inl ⟨q, hq, h⟩)
      · exact Or.inr (Or.inr h)
    · rintro (h | ⟨q', hq', h⟩ | h)
      · exact Or.inl (Or.inl h)
      · rw [hq] at hq'
        cases hq'
        exact Or.inl (Or.inr h)
      · exact Or.inr h

theorem parseObjLoop_slack_keys (reg : Registry P) (sm : Option String) (sp : SmoothingParams) (names : List String)
    (units : List UnitArg) (acc res : ObjAcc P) (h : parseObjLoop reg sm sp names units acc = .ok res) (k : String) :
    k ∈ res.slack.map Prod.fst ↔ k ∈ acc.slack.map Prod.fst ∨
      ∃ n ∈ names, ∃ q, reg n = some (.quantity q) ∧ k ∈ auxOf sm q := by
  induction names generalizing units acc with
  | nil =>
    simp only [parseObjLoop, Except.ok.injEq] at h
    subst h
    simp
  | cons n ns ih =>
    cases units with
    | nil => simp [parseObjLoop] at h
    | cons u us =>
      simp only [parseObjLoop] at h
      cases ha : addQuantity reg n u "f" sm sp with
      | error e => simp [ha, bind, Except.bind] at h
      | ok a =>
        simp only [ha, bind, Except.bind] at h
        obtain ⟨q, u', hq, -, -, -, rfl⟩ := addQuantity_ok.1 ha
        rw [ih _ _ h, mem_keys_union, addedOf_slack_keys]
        simp only [List.mem_cons, exists_eq_or_imp]
        constructor
        · rintro ((h | h) | h)
          · exact Or.inl h
          · exact Or.inr (Or.inl ⟨q, hq, h⟩)
          · exact Or.inr (Or.inr h)
        · rintro (h | ⟨q', hq', h⟩ | h)
          · exact Or.inl (Or.inl h)
          · rw [hq] at hq'
            cases hq'
            exact Or.inl (Or.inr h)
          · exact Or.inr h

/-- **C94 (auxiliary variables).** The joined problem has an initial value for exactly the auxiliary variables of the requested
quantities: those of the objectives and those of the constraints, nothing missing and nothing else. -/
theorem C94_every_aux_initialised (reg : Registry P) (objs : List String) (ounits : List UnitArg) (weights : List ℝ)
    (names types : List String) (units : List UnitArg) (values : List ℝ) (sm : Option String) (sp : SmoothingParams)
    (o : ParsedObj P) (c : Parsed P)
    (ho : parseObjectives reg (.many objs) (.many ounits) (.many weights) sm sp = .ok o)
    (hc : parseConstraints reg names types units values sm sp = .ok c) (k : String) :
    k ∈ (joinParsed o c).slack.map Prod.fst ↔
      ∃ n, (n ∈ objs ∨ n ∈ names) ∧ ∃ q, reg n = some (.quantity q) ∧ k ∈ auxOf sm q := by
  have hO : k ∈ o.slack.map Prod.fst ↔ ∃ n ∈ objs, ∃ q, reg n = some (.quantity q) ∧ k ∈ auxOf sm q := by
    simp only [parseObjectives] at ho
    split at ho
    · cases ho
    · cases hl : parseObjLoop reg sm sp objs ounits ⟨[], [], [], []⟩ with
      | error e => simp [hl, bind, Except.bind] at ho
      | ok acc =>
        simp only [hl, bind, Except.bind, Except.ok.injEq] at ho
        subst ho
        simpa using parseObjLoop_slack_keys reg sm sp objs ounits _ acc hl k
  have hC : k ∈ c.slack.map Prod.fst ↔ ∃ n ∈ names, ∃ q, reg n = some (.quantity q) ∧ k ∈ auxOf sm q := by
    unfold parseConstraints at hc
    split at hc
    · cases hc
    · rename_i hlen
      push Not at hlen
      obtain ⟨h1, h2, h3⟩ := hlen
      have hz := foldlM_slack_keys reg sm sp _ _ _ hc k
      simp only [List.map_nil, List.not_mem_nil, false_or] at hz
      rw [hz]
      constructor
      · rintro ⟨r, hr, q, hq⟩
        refine ⟨r.name, ?_, q, hq⟩
        unfold zipRequests at hr
        obtain ⟨i, hi, rfl⟩ := List.mem_iff_getElem.1 hr
        simp only [List.getElem_zipWith, List.getElem_zip]
        exact List.getElem_mem _
      · rintro ⟨n, hn, q, hq⟩
        obtain ⟨i, hi, rfl⟩ := List.mem_iff_getElem.1 hn
        have hi' : i < (zipRequests names types units values).length := by
          simp [zipRequests, ← h1, ← h2, ← h3, hi]
        refine ⟨(zipRequests names types units values)[i], List.getElem_mem hi', q, ?_⟩
        simpa [zipRequests] using hq
  unfold joinParsed
  rw [mem_keys_union, hO, hC]
  constructor
  · rintro (⟨n, hn, h⟩ | ⟨n, hn, h⟩)
    · exact ⟨n, Or.inl hn, h⟩
    · exact ⟨n, Or.inr hn, h⟩
  · rintro ⟨n, hn | hn, h⟩
    · exact Or.inl ⟨n, hn, h⟩
    · exact Or.inr ⟨n, hn, h⟩

/-- **C94 (constraints).** A point satisfies the merged functions of the joined problem if and only if it satisfies every
constraint function that belongs to an objective and every one that belongs to a constraint. -/
theorem C94_join_feasible (o : ParsedObj P) (c : Parsed P) (sm : Option String) (sp : SmoothingParams) (qp : P) (dofs : Dofs)
    (gs hs : List ℝ) (hg : mergeCallables ((joinParsed o c).g.map some) false sm sp qp dofs = .ok gs)
    (hh : mergeCallables ((joinParsed o c).h.map some) false sm sp qp dofs = .ok hs) :
    (AllNonpos gs ↔ (∀ g ∈ o.g, AllNonpos (g qp dofs).entries) ∧ ∀ g ∈ c.g, AllNonpos (g qp dofs).entries) ∧
      (AllZero hs ↔ (∀ h ∈ o.h, AllZero (h qp dofs).entries) ∧ ∀ h ∈ c.h, AllZero (h qp dofs).entries) := by
  rw [C27_merge_concatenates] at hg hh
  cases hg
  cases hh
  constructor
  · simp only [AllNonpos, joinParsed, List.flatMap_map, List.mem_flatMap, List.mem_append]
    constructor
    · intro H
      exact ⟨fun g hg x hx => H x ⟨g, Or.inl hg, hx⟩, fun g hg x hx => H x ⟨g, Or.inr hg, hx⟩⟩
    · rintro ⟨h1, h2⟩ x ⟨g, hg | hg, hx⟩
      · exact h1 g hg x hx
      · exact h2 g hg x hx
  · simp only [AllZero, joinParsed, List.flatMap_map, List.mem_flatMap, List.mem_append]
    constructor
    · intro H
      exact ⟨fun g hg x hx => H x ⟨g, Or.inl hg, hx⟩, fun g hg x hx => H x ⟨g, Or.inr hg, hx⟩⟩
    · rintro ⟨h1, h2⟩ x ⟨g, hg | hg, hx⟩
      · exact h1 g hg x hx
      · exact h2 g hg x hx

/-- The hypotheses hold for a problem with a slack objective and a slack constraint. -/
example (sp : SmoothingParams) : ∃ o c,
    parseObjectives toyRegistry (.many ["f_max_Phi"]) (.many [.scalar 1]) (.many [1]) (some "slack") sp = .ok o ∧
    parseConstraints toyRegistry ["f_l1_Phi"] ["<="] [.scalar 2] [3] (some "slack") sp = .ok c ∧
    (joinParsed o c).slack.map Prod.fst = ["scaled_max_Phi", "scaled_abs_Phi"] :=
  ⟨_, _, rfl, rfl, rfl⟩

end Verif
