import Verif.Props.Exact
import Verif.Props.SetupErrors
import Verif.Props.SmoothFlatExamples

/-!
# C141: a unit left as `None` is the value of the quantity without potential
-/

namespace Verif

variable {P : Type} [HasQp P]

/-- The number that stands for a unit left as `None`: the value of the quantity at zero potential, if this is a number that is not
negative. Other units stay as they are. -/
noncomputable def UnitArg.resolve (reg : Registry P) (Q : P) (name : String) : UnitArg → UnitArg
  | .none => match reg name with
    | some (.quantity q) => match q.call Q (phiOnly (.array (List.replicate (HasQp.ndofs Q) 0))) with
      | .scalar v => if 0 ≤ v then .scalar v else .none
      | .array _ => .none
    | _ => .none
  | u => u

/-- The units of a list of quantities. Units without a quantity stay as they are. -/
noncomputable def resolveList (reg : Registry P) (Q : P) : List String → List UnitArg → List UnitArg
  | n :: ns, u :: us => u.resolve reg Q n :: resolveList reg Q ns us
  | [], us => us
  | _, [] => []

/-- The call with all units written out. -/
noncomputable def QuadcoilArgs.resolveUnits (reg : Registry P) (Q : P) (a : QuadcoilArgs) : QuadcoilArgs :=
  { a with
    objectiveUnit := match a.objectiveName, a.objectiveUnit with
      | .one n, .one u => .one (u.resolve reg Q n)
      | .many ns, .many us => .many (resolveList reg Q ns us)
      | _, u => u
    constraintUnit := resolveList reg Q a.constraintName a.constraintUnit }

/-- Two results that are both errors of the same kind, or both related values. -/
def SameResult {α : Type} (R : α → α → Prop) : Except PyErr α → Except PyErr α → Prop
  | .ok x, .ok y => R x y
  | .error e, .error f => e = f
  | _, _ => False

omit [HasQp P] in
theorem SameResult.bind {α β : Type} {R : α → α → Prop} {T : β → β → Prop} {x y : Except PyErr α} {f g : α → Except PyErr β}
    (h : SameResult R x y) (hfg : ∀ a b, R a b → SameResult T (f a) (g b)) : SameResult T (x >>= f) (y >>= g) := by
  cases x <;> cases y
  · exact h
  · exact h.elim
  · exact h.elim
  · exact hfg _ _ h

/-- A family of functions at the problem `Q`. -/
def atProblem (Q : P) (l : List (P → Dofs → Val)) : List (Dofs → Val) := l.map fun f => f Q

/-- A dictionary of functions at the problem `Q`. -/
def slackAt (Q : P) (l : List (String × (P → Dofs → Val))) : List (String × (Dofs → Val)) := l.map fun kv => (kv.1, kv.2 Q)

/-- The same quantity, as far as the problem `Q` is concerned. -/
structure AddedSame (Q : P) (A B : Added P) : Prop where
  val : A.val Q = B.val Q
  g : atProblem Q A.g = atProblem Q B.g
  h : atProblem Q A.h = atProblem Q B.h
  unit : A.unit Q = B.unit Q
  slack : slackAt Q A.slack = slackAt Q B.slack

theorem addQuantity_resolve (reg : Registry P) (Q : P) (name : String) (u : UnitArg) (uc : String) (sm : Option String)
    (sp : SmoothingParams) :
    SameResult (AddedSame Q) (addQuantity reg name u uc sm sp) (addQuantity reg name (u.resolve reg Q name) uc sm sp) := by
  have hrefl : ∀ x : Except PyErr (Added P), SameResult (AddedSame Q) x x := by
    intro x
    cases x
    · rfl
    · exact ⟨rfl, rfl, rfl, rfl, rfl⟩
  cases u with
  | scalar v => exact hrefl _
  | other => exact hrefl _
  | none =>
    cases hq : reg name with
    | none =>
      simp only [UnitArg.resolve, hq]
      exact hrefl _
    | some x =>
    cases x with
    | other =>
      simp only [UnitArg.resolve, hq]
      exact hrefl _
    | quantity q =>
    cases hv : q.call Q (phiOnly (.array (List.replicate (HasQp.ndofs Q) 0))) with
    | array v =>
      simp only [UnitArg.resolve, hq, hv]
      exact hrefl _
    | scalar v =>
      by_cases hpos : 0 ≤ v
      swap
      · simp only [UnitArg.resolve, hq, hv, if_neg hpos]
        exact hrefl _
      simp only [UnitArg.resolve, hq, hv, if_pos hpos]
      unfold addQuantity
      have hget : getQuantity reg name = .ok q := by simp [getQuantity, hq]
      simp only [hget, bind, Except.bind]
      cases q.scaledF sm sp with
      | error e => rfl
      | ok f =>
        cases q.scaledG sm with
        | error e => rfl
        | ok g =>
          cases q.scaledH sm with
          | error e => rfl
          | ok h =>
            cases q.scaledInit sm with
            | error e => rfl
            | ok init =>
              simp only
              split
              · rfl
              · simp only [unitCallable]
                refine ⟨?_, ?_, ?_, ?_, ?_⟩
                · simp only [hv, abs_of_nonneg hpos]
                · cases g <;> simp [atProblem, hv, abs_of_nonneg hpos]
                · cases h <;> simp [atProblem, hv, abs_of_nonneg hpos]
                · simp only [hv, abs_of_nonneg hpos]
                · simp [slackAt, hv, abs_of_nonneg hpos]

omit [HasQp P] in
theorem slackAt_lookup (Q : P) (l : List (String × (P → Dofs → Val))) (k : String) :
    (slackAt Q l).lookup k = (l.lookup k).map fun f => f Q := by
  induction l with
  | nil => rfl
  | cons x l ih =>
    obtain ⟨j, f⟩ := x
    rw [slackAt, List.map_cons, lookup_cons_ite, lookup_cons_ite]
    split
    · rfl
    · exact ih

omit [HasQp P] in
theorem slackAt_union (Q : P) (l m : List (String × (P → Dofs → Val))) :
    slackAt Q (dictUnion l m) = dictUnion (slackAt Q l) (slackAt Q m) := by
  unfold dictUnion
  simp only [slackAt_lookup]
  simp only [slackAt, List.map_append, List.map_map, List.filter_map]
  congr 1
  · refine List.map_congr_left fun kv _ => ?_
    simp only [Function.comp]
    cases m.lookup kv.1 <;> rfl
  · congr 1
    refine List.filter_congr fun kv _ => ?_
    simp only [Function.comp]
    cases l.lookup kv.1 <;> rfl

/-- The same constraints, as far as the problem `Q` is concerned. -/
structure ParsedSame (Q : P) (A B : Parsed P) : Prop where
  g : atProblem Q A.g = atProblem Q B.g
  h : atProblem Q A.h = atProblem Q B.h
  slack : slackAt Q A.slack = slackAt Q B.slack

omit [HasQp P] in
theorem consFunc_same (Q : P) {A B : Added P} (h : AddedSame Q A B) (value sign : ℝ) (sm : Option String) (sp : SmoothingParams) :
    consFunc A value sign sm sp Q = consFunc B value sign sm sp Q := by
  funext d
  simp only [consFunc, h.val, h.unit]

omit [HasQp P] in
theorem atProblem_append (Q : P) (l m : List (P → Dofs → Val)) : atProblem Q (l ++ m) = atProblem Q l ++ atProblem Q m := by
  simp [atProblem]

theorem parseStep_same (reg : Registry P) (Q : P) (sm : Option String) (sp : SmoothingParams) {A B : Parsed P} (hAB : ParsedSame Q A B)
    (r : Request) : SameResult (ParsedSame Q) (parseStep reg sm sp A r)
      (parseStep reg sm sp B { r with unit := r.unit.resolve reg Q r.name }) := by
  unfold parseStep
  refine (addQuantity_resolve reg Q r.name r.unit r.type sm sp).bind fun x y hxy => ?_
  have hc := consFunc_same Q hxy r.value (if r.type = ">=" then -1 else 1) sm sp
  have hs : slackAt Q (dictUnion A.slack x.slack) = slackAt Q (dictUnion B.slack y.slack) := by
    rw [slackAt_union, slackAt_union, hAB.slack, hxy.slack]
  simp only
  split
  · refine ⟨?_, ?_, hs⟩
    · simp only [atProblem_append, hAB.g, hxy.g]
    · simp only [atProblem_append, hAB.h, hxy.h]
      simp only [atProblem, List.map_cons, List.map_nil, hc]
  · split
    · refine ⟨?_, ?_, hs⟩
      · simp only [atProblem_append, hAB.g, hxy.g]
        simp only [atProblem, List.map_cons, List.map_nil, hc]
      · simp only [atProblem_append, hAB.h, hxy.h]
    · rfl

theorem parseFold_same (reg : Registry P) (Q : P) (sm : Option String) (sp : SmoothingParams) (rs : List Request) {A B : Parsed P}
    (hAB : ParsedSame Q A B) : SameResult (ParsedSame Q) (rs.foldlM (parseStep reg sm sp) A)
      ((rs.map fun r => { r with unit := r.unit.resolve reg Q r.name }).foldlM (parseStep reg sm sp) B) := by
  induction rs generalizing A B with
  | nil => exact hAB
  | cons r rs ih =>
    rw [List.map_cons, List.foldlM_cons, List.foldlM_cons]
    exact (parseStep_same reg Q sm sp hAB r).bind fun x y hxy => ih hxy

theorem resolveList_length (reg : Registry P) (Q : P) (ns : List String) (us : List UnitArg) :
    (resolveList reg Q ns us).length = us.length := by
  induction ns generalizing us with
  | nil => cases us <;> rfl
  | cons n ns ih =>
    cases us with
    | nil => rfl
    | cons u us => simp [resolveList, ih]

theorem zipRequests_resolve (reg : Registry P) (Q : P) (ns ts : List String) (us : List UnitArg) (vs : List ℝ) :
    zipRequests ns ts (resolveList reg Q ns us) vs =
      (zipRequests ns ts us vs).map fun r => { r with unit := r.unit.resolve reg Q r.name } := by
  induction ns generalizing ts us vs with
  | nil => simp [zipRequests]
  | cons n ns ih =>
    cases ts with
    | nil => simp [zipRequests]
    | cons t ts =>
      cases us with
      | nil => simp [zipRequests, resolveList]
      | cons u us =>
        cases vs with
        | nil => simp [zipRequests, resolveList]
        | cons v vs =>
          have := ih ts us vs
          simp only [zipRequests] at this
          simp [zipRequests, resolveList, this]

theorem parseConstraints_same (reg : Registry P) (Q : P) (sm : Option String) (sp : SmoothingParams) (ns ts : List String)
    (us : List UnitArg) (vs : List ℝ) : SameResult (ParsedSame Q) (parseConstraints reg ns ts us vs sm sp)
      (parseConstraints reg ns ts (resolveList reg Q ns us) vs sm sp) := by
  unfold parseConstraints
  rw [resolveList_length]
  split
  · rfl
  · rw [zipRequests_resolve]
    exact parseFold_same reg Q sm sp _ ⟨rfl, rfl, rfl⟩

/-- The same objective functions, as far as the problem `Q` is concerned. -/
structure ObjSame (Q : P) (A B : ObjAcc P) : Prop where
  f : atProblem Q A.f = atProblem Q B.f
  g : atProblem Q A.g = atProblem Q B.g
  h : atProblem Q A.h = atProblem Q B.h
  slack : slackAt Q A.slack = slackAt Q B.slack

theorem objLoop_same (reg : Registry P) (Q : P) (sm : Option String) (sp : SmoothingParams) (ns : List String) (us : List UnitArg)
    {A B : ObjAcc P} (hAB : ObjSame Q A B) : SameResult (ObjSame Q) (parseObjLoop reg sm sp ns us A)
      (parseObjLoop reg sm sp ns (resolveList reg Q ns us) B) := by
  induction ns generalizing us A B with
  | nil => cases us <;> exact hAB
  | cons n ns ih =>
    cases us with
    | nil => rfl
    | cons u us =>
      simp only [parseObjLoop, resolveList]
      refine (addQuantity_resolve reg Q n u "f" sm sp).bind fun x y hxy => ih us ⟨?_, ?_, ?_, ?_⟩
      · simp only [atProblem_append, hAB.f]
        simp only [atProblem, List.map_cons, List.map_nil, hxy.val]
      · simp only [atProblem_append, hAB.g, hxy.g]
      · simp only [atProblem_append, hAB.h, hxy.h]
      · rw [slackAt_union, slackAt_union, hAB.slack, hxy.slack]

/-- The same parsed objectives, as far as the problem `Q` is concerned. -/
structure ParsedObjSame (Q : P) (A B : ParsedObj P) : Prop where
  f : A.f Q = B.f Q
  g : atProblem Q A.g = atProblem Q B.g
  h : atProblem Q A.h = atProblem Q B.h
  slack : slackAt Q A.slack = slackAt Q B.slack

omit [HasQp P] in
theorem fTot_same (Q : P) {l m : List (P → Dofs → Val)} (h : atProblem Q l = atProblem Q m) (ws : List ℝ) :
    fTot l ws Q = fTot m ws Q := by
  funext d
  have key : ∀ (l : List (P → Dofs → Val)) (ws : List ℝ) (v : Val),
      (l.zip ws).foldl (fun out fw => Val.map2 (· + ·) out (Val.map (fun x => x * fw.2) (fw.1 Q d))) v =
        ((atProblem Q l).zip ws).foldl (fun out fw => Val.map2 (· + ·) out (Val.map (fun x => x * fw.2) (fw.1 d))) v := by
    intro l
    induction l with
    | nil => intro ws v; rfl
    | cons f l ih =>
      intro ws v
      cases ws with
      | nil => rfl
      | cons w ws => exact ih ws _
  rw [fTot, fTot, key, key, h]

theorem parseObjectives_same (reg : Registry P) (Q : P) (a : QuadcoilArgs) (w : OneOrMany ℝ) :
    SameResult (ParsedObjSame Q) (parseObjectives reg a.objectiveName a.objectiveUnit w a.smoothing a.sp)
      (parseObjectives reg a.objectiveName (a.resolveUnits reg Q).objectiveUnit w a.smoothing a.sp) := by
  have run : ∀ (ns : List String) (us : List UnitArg) (ws : List ℝ), SameResult (ParsedObjSame Q)
      (do
        let acc ← parseObjLoop reg a.smoothing a.sp ns us ⟨[], [], [], []⟩
        .ok ⟨fTot acc.f ws, acc.g, acc.h, acc.slack⟩)
      (do
        let acc ← parseObjLoop reg a.smoothing a.sp ns (resolveList reg Q ns us) ⟨[], [], [], []⟩
        .ok ⟨fTot acc.f ws, acc.g, acc.h, acc.slack⟩) := by
    intro ns us ws
    refine (objLoop_same reg Q a.smoothing a.sp ns us ⟨rfl, rfl, rfl, rfl⟩).bind fun x y hxy => ?_
    exact ⟨fTot_same Q hxy.f ws, hxy.g, hxy.h, hxy.slack⟩
  have hrefl : ∀ x : Except PyErr (ParsedObj P), SameResult (ParsedObjSame Q) x x := by
    intro x
    cases x
    · rfl
    · exact ⟨rfl, rfl, rfl, rfl⟩
  simp only [QuadcoilArgs.resolveUnits]
  cases a.objectiveName with
  | one n =>
    cases a.objectiveUnit with
    | one u =>
      simp only [parseObjectives, List.length_cons, List.length_nil, ne_eq, not_true_eq_false, if_false]
      exact run [n] [u] [1]
    | many us => exact hrefl _
  | many ns =>
    cases a.objectiveUnit with
    | one u => exact hrefl _
    | many us =>
      cases w with
      | one w => rfl
      | many ws =>
        simp only [parseObjectives]
        split
        · rfl
        · exact run ns us ws

omit [HasQp P] in
theorem mergeCallables_same (Q : P) {l m : List (P → Dofs → Val)} (h : atProblem Q l = atProblem Q m) (mc : Bool) (sm : Option String)
    (sp : SmoothingParams) : mergeCallables (l.map some) mc sm sp Q = mergeCallables (m.map some) mc sm sp Q := by
  have key : ∀ (l : List (P → Dofs → Val)) (d : Dofs), ((l.map some).filterMap id).map (fun fn => (fn Q d).entries) =
      (atProblem Q l).map fun fn => (fn d).entries := by
    intro l d
    simp [atProblem, List.filterMap_map]
  funext d
  simp only [mergeCallables, key, h]

/-- The same functions for the solver, as far as the problem `Q` is concerned. -/
structure FghSame (Q : P) (A B : Fgh P) : Prop where
  f : A.f = B.f
  g : A.g = B.g
  h : A.h = B.h
  nG : A.nG = B.nG
  nH : A.nH = B.nH
  slack : slackAt Q A.slack = slackAt Q B.slack

theorem fgh_same (reg : Registry P) (Q : P) (a : QuadcoilArgs) :
    SameResult (FghSame Q) (fghFromY reg Q a) (fghFromY reg Q (a.resolveUnits reg Q)) := by
  unfold fghFromY
  refine (parseObjectives_same reg Q a _).bind fun o o' ho => ?_
  refine (parseConstraints_same reg Q a.smoothing a.sp a.constraintName a.constraintType a.constraintUnit _).bind fun c c' hc => ?_
  have hg : atProblem Q (joinParsed o c).g = atProblem Q (joinParsed o' c').g := by
    simp only [joinParsed, atProblem_append, ho.g, hc.g]
  have hh : atProblem Q (joinParsed o c).h = atProblem Q (joinParsed o' c').h := by
    simp only [joinParsed, atProblem_append, ho.h, hc.h]
  have lg : (joinParsed o c).g.length = (joinParsed o' c').g.length := by simpa [atProblem] using congrArg List.length hg
  have lh : (joinParsed o c).h.length = (joinParsed o' c').h.length := by simpa [atProblem] using congrArg List.length hh
  refine ⟨?_, ?_, ?_, ?_, ?_, ?_⟩
  · funext x
    exact congrFun ho.f x
  · exact mergeCallables_same Q hg _ _ _
  · exact mergeCallables_same Q hh _ _ _
  · simp only [lg]
    rfl
  · exact lh
  · simp only [joinParsed, slackAt_union, ho.slack, hc.slack]

/-- **C141.** A call in which units are left as `None` hands the solver exactly the same problem as the call in which every such unit of
a number is replaced by the value of its quantity at zero potential: same unknowns, same start, same objective and constraints, same
settings, same errors. -/
theorem C141_none_is_value_at_zero (reg : Registry P) (Q : P) (a : QuadcoilArgs) (u : ℝ) :
    quadcoilSetup reg Q (a.resolveUnits reg Q) u = quadcoilSetup reg Q a u := by
  have h := fgh_same reg Q a
  unfold quadcoilSetup
  cases hA : fghFromY reg Q a with
  | error e =>
    rw [hA] at h
    cases hB : fghFromY reg Q (a.resolveUnits reg Q) with
    | error f =>
      rw [hB] at h
      simp only [SameResult] at h
      subst h
      rfl
    | ok B =>
      rw [hB] at h
      exact h.elim
  | ok A =>
    rw [hA] at h
    cases hB : fghFromY reg Q (a.resolveUnits reg Q) with
    | error f =>
      rw [hB] at h
      exact h.elim
    | ok B =>
      rw [hB] at h
      have ht : ∀ phi, xTemplate Q phi u A.slack = xTemplate Q phi u B.slack := by
        intro phi
        have e : ∀ l : List (String × (P → Dofs → Val)), (l.map fun kv => (kv.1, kv.2 Q (phiOnly (Val.array phi)))) =
            (slackAt Q l).map fun kv => (kv.1, kv.2 (phiOnly (Val.array phi))) := by
          intro l
          simp [slackAt]
        rw [xTemplate, xTemplate, e, e, h.slack]
      simp only [bind, Except.bind, h.f, h.g, h.h, h.nG, h.nH, ht]
      rfl

end Verif
