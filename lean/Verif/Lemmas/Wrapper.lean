import Verif.Model.Wrapper
import Verif.Lemmas.Lse

namespace Verif

set_option linter.unusedSectionVars false

variable {P : Type} [HasQp P]

/-- The three smoothing modes that are recognised. -/
def knownSmoothing (s : Option String) : Prop := s = none ∨ s = some "slack" ∨ s = some "approx"

/-- The result of `addQuantity` when nothing is wrong. -/
noncomputable def addedOf (q : Quantity P) (smoothing : Option String) (sp : SmoothingParams) (u : P → Val) : Added P :=
  if smoothing = some "slack" then
    ⟨fun qp d => q.slackF qp d (u qp), (q.slackG.map fun fn qp d => fn qp d (u qp)).toList,
      (q.slackH.map fun fn qp d => fn qp d (u qp)).toList, u,
      (q.slackInit.getD []).map fun kv => (kv.1, fun qp d => kv.2 qp d (u qp))⟩
  else if smoothing = none then
    ⟨fun qp d => Val.map2 (· / ·) (q.rawF qp d) (u qp), [], [], u, []⟩
  else ⟨fun qp d => q.approxF qp d (u qp) sp, [], [], u, []⟩

theorem getQuantity_ok {reg : Registry P} {name : String} {q : Quantity P} :
    getQuantity reg name = .ok q ↔ reg name = some (.quantity q) := by
  unfold getQuantity
  cases h : reg name with
  | none => simp
  | some a => cases a <;> simp

theorem addQuantity_ok {reg : Registry P} {name : String} {unit : UnitArg} {uc : String} {sm : Option String}
    {sp : SmoothingParams} {a : Added P} :
    addQuantity reg name unit uc sm sp = .ok a ↔
      ∃ q u, reg name = some (.quantity q) ∧ knownSmoothing sm ∧ uc ∈ q.compatibility ∧
        unitCallable q unit = .ok u ∧ a = addedOf q sm sp u := by
  unfold addQuantity
  cases hreg : getQuantity reg name with
  | error e =>
    simp only [bind, Except.bind, reduceCtorEq, false_iff]
    rintro ⟨q, u, h, -⟩
    rw [getQuantity_ok.2 h] at hreg
    cases hreg
  | ok q =>
    have hq := getQuantity_ok.1 hreg
    by_cases h1 : sm = some "slack"
    · subst h1
      simp only [bind, Except.bind, Quantity.scaledF, Quantity.scaledG, Quantity.scaledH, Quantity.scaledInit, if_true]
      by_cases hc : uc ∈ q.compatibility
      · have hc' : q.compatibility.contains uc = true := by simpa using hc
        simp only [hc', not_true, if_false]
        cases hu : unitCallable q unit with
        | error e => simp [hq, hu]
        | ok u =>
          simp only [Except.ok.injEq, hq, Option.some.injEq, Attr.quantity.injEq]
          constructor
          · rintro rfl
            exact ⟨q, u, rfl, by simp [knownSmoothing], hc, hu, by simp [addedOf]⟩
          · rintro ⟨q', u', rfl, -, -, hu', rfl⟩
            rw [hu] at hu'
            cases hu'
            simp [addedOf]
      · have hc' : q.compatibility.contains uc = false := by simpa using hc
        simp [hq, hc]
    · by_cases h2 : sm = none
      · subst h2
        simp only [bind, Except.bind, Quantity.scaledF, Quantity.scaledG, Quantity.scaledH, Quantity.scaledInit,
          if_true, reduceCtorEq, if_false]
        by_cases hc : uc ∈ q.compatibility
        · have hc' : q.compatibility.contains uc = true := by simpa using hc
          simp only [hc', not_true, if_false]
          cases hu : unitCallable q unit with
          | error e => simp [hq, hu]
          | ok u =>
            simp only [Except.ok.injEq, hq, Option.some.injEq, Attr.quantity.injEq]
            constructor
            · rintro rfl
              exact ⟨q, u, rfl, by simp [knownSmoothing], hc, hu, by simp [addedOf]⟩
            · rintro ⟨q', u', rfl, -, -, hu', rfl⟩
              rw [hu] at hu'
              cases hu'
              simp [addedOf]
        · have hc' : q.compatibility.contains uc = false := by simpa using hc
          simp [hq, hc]
      · by_cases h3 : sm = some "approx"
        · subst h3
          simp only [bind, Except.bind, Quantity.scaledF, Quantity.scaledG, Quantity.scaledH, Quantity.scaledInit,
            if_true, reduceCtorEq, if_false, h1]
          by_cases hc : uc ∈ q.compatibility
          · have hc' : q.compatibility.contains uc = true := by simpa using hc
            simp only [hc', not_true, if_false]
            cases hu : unitCallable q unit with
            | error e => simp [hq, hu]
            | ok u =>
              simp only [Except.ok.injEq, hq, Option.some.injEq, Attr.quantity.injEq]
              constructor
              · rintro rfl
                exact ⟨q, u, rfl, by simp [knownSmoothing], hc, hu, by simp [addedOf]⟩
              · rintro ⟨q', u', rfl, -, -, hu', rfl⟩
                rw [hu] at hu'
                cases hu'
                simp [addedOf]
          · have hc' : q.compatibility.contains uc = false := by simpa using hc
            simp [hq, hc]
        · simp [bind, Except.bind, Quantity.scaledF, h1, h2, h3, knownSmoothing]

theorem parseStep_ok {reg : Registry P} {sm : Option String} {sp : SmoothingParams} {acc p : Parsed P} {r : Request} :
    parseStep reg sm sp acc r = .ok p ↔
      ∃ a, addQuantity reg r.name r.unit r.type sm sp = .ok a ∧
        ((r.type = "==" ∧ p = ⟨acc.g ++ a.g, acc.h ++ a.h ++ [consFunc a r.value 1 sm sp], dictUnion acc.slack a.slack⟩) ∨
         (r.type = "<=" ∧ p = ⟨acc.g ++ a.g ++ [consFunc a r.value 1 sm sp], acc.h ++ a.h, dictUnion acc.slack a.slack⟩) ∨
         (r.type = ">=" ∧
          p = ⟨acc.g ++ a.g ++ [consFunc a r.value (-1) sm sp], acc.h ++ a.h, dictUnion acc.slack a.slack⟩)) := by
  unfold parseStep
  cases h : addQuantity reg r.name r.unit r.type sm sp with
  | error e => simp [bind, Except.bind]
  | ok a =>
    simp only [bind, Except.bind, Except.ok.injEq, exists_eq_left']
    by_cases h1 : r.type = "=="
    · simp [h1, eq_comm]
    · by_cases h2 : r.type = "<="
      · simp [h2, eq_comm]
      · by_cases h3 : r.type = ">="
        · simp [h3, eq_comm]
        · simp [h1, h2, h3]

theorem foldlM_except_nil {β γ : Type} (f : β → γ → Except PyErr β) (b : β) : List.foldlM f b [] = .ok b := rfl

theorem foldlM_except_cons {β γ : Type} (f : β → γ → Except PyErr β) (b b' : β) (c : γ) (l : List γ) :
    List.foldlM f b (c :: l) = .ok b' ↔ ∃ b1, f b c = .ok b1 ∧ List.foldlM f b1 l = .ok b' := by
  rw [List.foldlM_cons]
  cases h : f b c <;> simp [bind, Except.bind]

end Verif
