import Verif.Lemmas.Wrapper
import Verif.Model.Call

/-!
# Problems on which the used quantities agree lead to the same computation
-/

namespace Verif

variable {P : Type} [HasQp P]

/-- A quantity has the same value, and its forms are the same, for two descriptions of a problem. -/
structure Quantity.SameForms (q : Quantity P) (Q' Q : P) : Prop where
  rawF : ∀ d, q.rawF Q' d = q.rawF Q d
  approxF : ∀ d u sp, q.approxF Q' d u sp = q.approxF Q d u sp
  slackF : ∀ d u, q.slackF Q' d u = q.slackF Q d u
  slackG : ∀ fn ∈ q.slackG, ∀ d u, fn Q' d u = fn Q d u
  slackH : ∀ fn ∈ q.slackH, ∀ d u, fn Q' d u = fn Q d u
  slackInit : ∀ kv ∈ q.slackInit.getD [], ∀ d u, kv.2 Q' d u = kv.2 Q d u

/-- A function of the problem has the same values. -/
def SameAt (Q' Q : P) (fn : P → Dofs → Val) : Prop := ∀ d, fn Q' d = fn Q d

omit [HasQp P] in
theorem dictUnion_sameAt {Q' Q : P} {a b : List (String × (P → Dofs → Val))} (ha : ∀ kv ∈ a, SameAt Q' Q kv.2) (hb : ∀ kv ∈ b, SameAt Q' Q kv.2) :
    ∀ kv ∈ dictUnion a b, SameAt Q' Q kv.2 := by
  intro kv hkv
  rcases List.mem_append.1 hkv with h | h
  · obtain ⟨e, he, rfl⟩ := List.mem_map.1 h
    cases hl : b.lookup e.1 with
    | none => exact ha e he
    | some fn =>
      obtain ⟨l1, l2, e2, -⟩ := List.lookup_eq_some_iff.1 hl
      exact hb (e.1, fn) (by simp [e2])
  · exact hb kv (List.mem_filter.1 h).1

variable {reg : Registry P} {Q' Q : P} {sm : Option String} {sp : SmoothingParams}

theorem added_sameAt {name uc : String} {unit : UnitArg} {A : Added P} (hn : HasQp.ndofs Q' = HasQp.ndofs Q)
    (hq : ∀ q, reg name = some (.quantity q) → q.SameForms Q' Q) (h : addQuantity reg name unit uc sm sp = .ok A) :
    SameAt Q' Q A.val ∧ (∀ fn ∈ A.g, SameAt Q' Q fn) ∧ (∀ fn ∈ A.h, SameAt Q' Q fn) ∧ A.unit Q' = A.unit Q ∧
      ∀ kv ∈ A.slack, SameAt Q' Q kv.2 := by
  obtain ⟨q, u, hr, -, -, hu, rfl⟩ := addQuantity_ok.1 h
  have H := hq q hr
  have hu' : u Q' = u Q := by
    cases unit with
    | none =>
      simp only [unitCallable, Except.ok.injEq] at hu
      subst hu
      simp only [hn, Quantity.call, H.rawF]
    | scalar x =>
      simp only [unitCallable, Except.ok.injEq] at hu
      subst hu
      rfl
    | other => simp [unitCallable] at hu
  unfold addedOf
  by_cases h1 : sm = some "slack"
  · rw [if_pos h1]
    refine ⟨fun d => ?_, fun fn hfn d => ?_, fun fn hfn d => ?_, hu', fun kv hkv d => ?_⟩
    · simp only [hu', H.slackF]
    · simp only [Option.mem_toList, Option.map_eq_some_iff] at hfn
      obtain ⟨g, hg, rfl⟩ := hfn
      simp only [hu', H.slackG g hg]
    · simp only [Option.mem_toList, Option.map_eq_some_iff] at hfn
      obtain ⟨g, hg, rfl⟩ := hfn
      simp only [hu', H.slackH g hg]
    · obtain ⟨e, he, rfl⟩ := List.mem_map.1 hkv
      simp only [hu', H.slackInit e he]
  · rw [if_neg h1]
    by_cases h2 : sm = none
    · rw [if_pos h2]
      exact ⟨fun d => by simp only [hu', H.rawF], by simp, by simp, hu', by simp⟩
    · rw [if_neg h2]
      exact ⟨fun d => by simp only [hu', H.approxF], by simp, by simp, hu', by simp⟩

/-- All parts have the same values. -/
def Parsed.Same (Q' Q : P) (c : Parsed P) : Prop :=
  (∀ fn ∈ c.g, SameAt Q' Q fn) ∧ (∀ fn ∈ c.h, SameAt Q' Q fn) ∧ ∀ kv ∈ c.slack, SameAt Q' Q kv.2

theorem parseStep_sameAt {acc c : Parsed P} {r : Request} (hn : HasQp.ndofs Q' = HasQp.ndofs Q)
    (hq : ∀ q, reg r.name = some (.quantity q) → q.SameForms Q' Q) (hacc : acc.Same Q' Q) (h : parseStep reg sm sp acc r = .ok c) :
    c.Same Q' Q := by
  unfold parseStep at h
  cases hA : addQuantity reg r.name r.unit r.type sm sp with
  | error e =>
    rw [hA] at h
    cases h
  | ok A =>
    rw [hA] at h
    simp only [bind, Except.bind] at h
    obtain ⟨s1, s2, s3, s4, s5⟩ := added_sameAt hn hq hA
    have hf : ∀ sign, SameAt Q' Q (consFunc A r.value sign sm sp) := fun sign d => by simp only [consFunc, s1 d, s4]
    have hg : ∀ fn ∈ acc.g ++ A.g, SameAt Q' Q fn := fun fn hfn => (List.mem_append.1 hfn).elim (hacc.1 fn) (s2 fn)
    have hh : ∀ fn ∈ acc.h ++ A.h, SameAt Q' Q fn := fun fn hfn => (List.mem_append.1 hfn).elim (hacc.2.1 fn) (s3 fn)
    have hs := dictUnion_sameAt hacc.2.2 s5
    by_cases h1 : r.type = "=="
    · rw [if_pos h1] at h
      simp only [Except.ok.injEq] at h
      subst h
      refine ⟨hg, fun fn hfn => ?_, hs⟩
      rcases List.mem_append.1 hfn with h | h
      · exact hh fn h
      · rw [List.mem_singleton.1 h]
        exact hf _
    · rw [if_neg h1] at h
      by_cases h2 : r.type = "<=" ∨ r.type = ">="
      · rw [if_pos h2] at h
        simp only [Except.ok.injEq] at h
        subst h
        refine ⟨fun fn hfn => ?_, hh, hs⟩
        rcases List.mem_append.1 hfn with h | h
        · exact hg fn h
        · rw [List.mem_singleton.1 h]
          exact hf _
      · rw [if_neg h2] at h
        cases h

theorem parseSteps_sameAt (hn : HasQp.ndofs Q' = HasQp.ndofs Q) (rs : List Request) {acc c : Parsed P}
    (hq : ∀ r ∈ rs, ∀ q, reg r.name = some (.quantity q) → q.SameForms Q' Q) (hacc : acc.Same Q' Q)
    (h : rs.foldlM (parseStep reg sm sp) acc = .ok c) : c.Same Q' Q := by
  induction rs generalizing acc with
  | nil =>
    cases h
    exact hacc
  | cons r rs ih =>
    rw [List.foldlM_cons] at h
    cases h1 : parseStep reg sm sp acc r with
    | error e =>
      rw [h1] at h
      cases h
    | ok c1 =>
      rw [h1] at h
      exact ih (fun r hr => hq r (List.mem_cons_of_mem _ hr)) (parseStep_sameAt hn (hq r (by simp)) hacc h1) h

theorem zipRequests_names {names types : List String} {units : List UnitArg} {values : List ℝ} :
    ∀ r ∈ zipRequests names types units values, r.name ∈ names := by
  intro r hr
  obtain ⟨i, hi, rfl⟩ := List.mem_iff_getElem.1 hr
  simp only [zipRequests, List.getElem_zipWith, List.getElem_zip]
  exact List.getElem_mem _

theorem parseConstraints_sameAt (hn : HasQp.ndofs Q' = HasQp.ndofs Q) {names types : List String} {units : List UnitArg} {values : List ℝ}
    {c : Parsed P} (hq : ∀ n ∈ names, ∀ q, reg n = some (.quantity q) → q.SameForms Q' Q)
    (h : parseConstraints reg names types units values sm sp = .ok c) : c.Same Q' Q := by
  unfold parseConstraints at h
  split at h
  · cases h
  · exact parseSteps_sameAt hn _ (fun r hr => hq r.name (zipRequests_names r hr)) ⟨by simp, by simp, by simp⟩ h

theorem parseObjLoop_sameAt (hn : HasQp.ndofs Q' = HasQp.ndofs Q) (ns : List String) (us : List UnitArg) {acc c : ObjAcc P}
    (hq : ∀ n ∈ ns, ∀ q, reg n = some (.quantity q) → q.SameForms Q' Q) (hf : ∀ fn ∈ acc.f, SameAt Q' Q fn)
    (hacc : (Parsed.mk acc.g acc.h acc.slack).Same Q' Q) (h : parseObjLoop reg sm sp ns us acc = .ok c) :
    (∀ fn ∈ c.f, SameAt Q' Q fn) ∧ (Parsed.mk c.g c.h c.slack).Same Q' Q := by
  induction ns generalizing us acc with
  | nil =>
    cases h
    exact ⟨hf, hacc⟩
  | cons n ns ih =>
    cases us with
    | nil => cases h
    | cons u us =>
      unfold parseObjLoop at h
      cases hA : addQuantity reg n u "f" sm sp with
      | error e =>
        rw [hA] at h
        cases h
      | ok A =>
        rw [hA] at h
        obtain ⟨s1, s2, s3, -, s5⟩ := added_sameAt hn (hq n (by simp)) hA
        refine ih us (fun n hm => hq n (List.mem_cons_of_mem _ hm)) ?_ ⟨?_, ?_, ?_⟩ h
        · intro fn hfn
          rcases List.mem_append.1 hfn with h | h
          · exact hf fn h
          · rw [List.mem_singleton.1 h]
            exact s1
        · exact fun fn hfn => (List.mem_append.1 hfn).elim (hacc.1 fn) (s2 fn)
        · exact fun fn hfn => (List.mem_append.1 hfn).elim (hacc.2.1 fn) (s3 fn)
        · exact dictUnion_sameAt hacc.2.2 s5

/-- The names given as one name or several. -/
def OneOrMany.names : OneOrMany String → List String
  | .one n => [n]
  | .many l => l

omit [HasQp P] in
theorem fTot_sameAt {fs : List (P → Dofs → Val)} (ws : List ℝ) (h : ∀ fn ∈ fs, SameAt Q' Q fn) : SameAt Q' Q (fTot fs ws) := by
  intro d
  unfold fTot
  generalize Val.scalar 0 = v
  induction fs generalizing ws v with
  | nil => rfl
  | cons f fs ih =>
    cases ws with
    | nil => rfl
    | cons w ws =>
      simp only [List.zip_cons_cons, List.foldl_cons, h f (by simp) d]
      exact ih ws (fun fn hfn => h fn (List.mem_cons_of_mem _ hfn)) _

theorem parseObjectives_sameAt (hn : HasQp.ndofs Q' = HasQp.ndofs Q) {names : OneOrMany String} {units : OneOrMany UnitArg} {weights : OneOrMany ℝ}
    {c : ParsedObj P} (hq : ∀ n ∈ names.names, ∀ q, reg n = some (.quantity q) → q.SameForms Q' Q)
    (h : parseObjectives reg names units weights sm sp = .ok c) : SameAt Q' Q c.f ∧ (Parsed.mk c.g c.h c.slack).Same Q' Q := by
  have run : ∀ (ns : List String) (us : List UnitArg) (ws : List ℝ) (c : ParsedObj P),
      (∀ n ∈ ns, ∀ q, reg n = some (.quantity q) → q.SameForms Q' Q) →
      (if ns.length ≠ ws.length then .error .valueError
        else do
          let acc ← parseObjLoop reg sm sp ns us ⟨[], [], [], []⟩
          .ok ⟨fTot acc.f ws, acc.g, acc.h, acc.slack⟩ : Except PyErr (ParsedObj P)) = .ok c →
      SameAt Q' Q c.f ∧ (Parsed.mk c.g c.h c.slack).Same Q' Q := by
    intro ns us ws c hq h
    split at h
    · cases h
    · cases hl : parseObjLoop reg sm sp ns us ⟨[], [], [], []⟩ with
      | error e =>
        rw [hl] at h
        cases h
      | ok acc =>
        rw [hl] at h
        simp only [bind, Except.bind, Except.ok.injEq] at h
        subst h
        obtain ⟨s1, s2⟩ := parseObjLoop_sameAt hn ns us hq (by simp) ⟨by simp, by simp, by simp⟩ hl
        exact ⟨fTot_sameAt ws s1, s2⟩
  unfold parseObjectives at h
  cases names with
  | one n =>
    cases units with
    | one u => exact run [n] [u] [1] c hq h
    | many us => exact run [n] [.other] [1] c hq h
  | many ns =>
    cases weights with
    | one w => cases units <;> cases h
    | many ws =>
      cases units with
      | many us => exact run ns us ws c hq h
      | one u =>
        simp only at h
        split at h
        · cases h
        · split at h
          · rename_i h1
            exact run [] [] [] c (by simp) h
          · cases h

omit [HasQp P] in
theorem mergeCallables_sameAt {fns : List (P → Dofs → Val)} (h : ∀ fn ∈ fns, SameAt Q' Q fn) (mc : Bool) (sm : Option String) (sp : SmoothingParams)
    (d : Dofs) : mergeCallables (fns.map some) mc sm sp Q' d = mergeCallables (fns.map some) mc sm sp Q d := by
  have : (((fns.map some).filterMap id).map fun fn => (fn Q' d).entries) = ((fns.map some).filterMap id).map fun fn => (fn Q d).entries := by
    refine List.map_congr_left fun fn hfn => ?_
    simp only [List.filterMap_map, List.mem_filterMap, Function.comp_apply, id, Option.some.injEq, exists_eq_right] at hfn
    rw [h fn hfn d]
  simp only [mergeCallables, this]

/-- The names of the quantities in objectives and constraints. -/
def QuadcoilArgs.usedNames (a : QuadcoilArgs) : List String := a.objectiveName.names ++ a.constraintName

/-- The functions handed to the solver are the same. -/
theorem fghFromY_sameAt (hn : HasQp.ndofs Q' = HasQp.ndofs Q) (a : QuadcoilArgs)
    (hq : ∀ n ∈ a.usedNames, ∀ q, reg n = some (.quantity q) → q.SameForms Q' Q) :
    fghFromY reg Q' a = fghFromY reg Q a ∧ ∀ p, fghFromY reg Q a = .ok p → ∀ kv ∈ p.slack, SameAt Q' Q kv.2 := by
  unfold fghFromY
  simp only [bind, Except.bind]
  generalize ho : parseObjectives reg a.objectiveName _ _ _ _ = o
  generalize hc : parseConstraints reg a.constraintName _ _ _ _ _ = c
  cases o with
  | error e => exact ⟨rfl, fun p hp => by cases hp⟩
  | ok o =>
    cases c with
    | error e => exact ⟨rfl, fun p hp => by cases hp⟩
    | ok c =>
      obtain ⟨s1, s2, s3, s4⟩ := parseObjectives_sameAt hn (fun n hm => hq n (List.mem_append_left _ hm)) ho
      obtain ⟨t2, t3, t4⟩ := parseConstraints_sameAt hn (fun n hm => hq n (List.mem_append_right _ hm)) hc
      have hg : ∀ fn ∈ (joinParsed o c).g, SameAt Q' Q fn := fun fn hfn => (List.mem_append.1 hfn).elim (s2 fn) (t2 fn)
      have hh : ∀ fn ∈ (joinParsed o c).h, SameAt Q' Q fn := fun fn hfn => (List.mem_append.1 hfn).elim (s3 fn) (t3 fn)
      have hf : SameAt Q' Q (joinParsed o c).f := s1
      refine ⟨?_, fun p hp => ?_⟩
      · simp only [mergeCallables_sameAt hg, mergeCallables_sameAt hh, hf _]
      · simp only [Except.ok.injEq] at hp
        subst hp
        exact dictUnion_sameAt s4 t4

theorem quadcoilSetup_sameAt (hn : HasQp.ndofs Q' = HasQp.ndofs Q) (a : QuadcoilArgs)
    (hq : ∀ n ∈ a.usedNames, ∀ q, reg n = some (.quantity q) → q.SameForms Q' Q) (u : ℝ) :
    quadcoilSetup reg Q' a u = quadcoilSetup reg Q a u := by
  obtain ⟨e, hs⟩ := fghFromY_sameAt (reg := reg) hn a hq
  unfold quadcoilSetup
  rw [e]
  cases h : fghFromY reg Q a with
  | error e => rfl
  | ok p =>
    have ht : ∀ phi : List ℝ, xTemplate Q' phi u p.slack = xTemplate Q phi u p.slack := by
      intro phi
      have h2 : (p.slack.map fun kv => (kv.1, kv.2 Q' (phiOnly (Val.array phi)))) = p.slack.map fun kv => (kv.1, kv.2 Q (phiOnly (Val.array phi))) :=
        List.map_congr_left fun kv hkv => by rw [hs p h kv hkv]
      rw [xTemplate, h2, xTemplate]
    simp only [bind, Except.bind, hn, ht]

end Verif
