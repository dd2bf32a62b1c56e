import Verif.Model.Docs
import Verif.Props.CallDefault

/-!
# C144: the documented defaults and the real ones
-/

namespace Verif

/-! ## Where documentation and signature differ -/

/-- The default in the signature. -/
def realDefault (n : String) : Option Default := (signature.find? fun p => p.name = n).map Param.default

/-- The default in the documentation. -/
def documentedDefault (n : String) : Option Default := (docs.find? fun d => d.name = n).bind Doc.default

/-- The value of a number. -/
noncomputable def Default.toReal : Default → ℝ
  | .num m e => m * 10 ^ e
  | _ => 0

/-- The parameters whose documented default is not the one of the signature. -/
def wronglyDocumented : List String :=
  ["winding_surface_generator", "objective_name", "objective_weight", "c_growth_rate", "xstop_outer", "ctol_outer", "fstop_inner",
   "fstop_inner_last", "xstop_inner", "xstop_inner_last", "gtol_inner", "gtol_inner_last", "svtol", "maxiter_tot", "maxiter_inner",
   "maxiter_inner_last", "implicit_linear_solver"]

/-- **C144 (partial).** The documented default of a parameter is its default, for every parameter outside the list; for those of the list
it is not: the property is false of the code. `maxiter_inner_last` is not even a parameter. -/
theorem C144_documented_defaults_partial (n : String) (d : Default) (h : documentedDefault n = some d) :
    realDefault n = some d ↔ n ∉ wronglyDocumented := by
  have hmem : ∃ e ∈ docs, e.name = n ∧ e.default = some d := by
    unfold documentedDefault at h
    obtain ⟨e, he, hd⟩ := Option.bind_eq_some_iff.1 h
    exact ⟨e, List.mem_of_find?_eq_some he, by simpa using List.find?_some he, hd⟩
  have key : ∀ e ∈ docs, ∀ d, e.default = some d → (realDefault e.name = some d ↔ e.name ∉ wronglyDocumented) := by
    intro e he d hd
    have : ∀ e ∈ docs, e.default = none ∨ (realDefault e.name = e.default ↔ e.name ∉ wronglyDocumented) := by decide
    rcases this e he with h | h
    · rw [h] at hd
      cases hd
    · rw [← hd]
      exact h
  obtain ⟨e, he, rfl, hd⟩ := hmem
  exact key e he d hd

/-- **C144 (differences).** For each wrongly documented parameter what is documented and what holds. -/
theorem C144_differences : wronglyDocumented.map (fun n => (documentedDefault n, realDefault n)) =
    [(some (.object "gen_winding_surface_atan"), some (.object "gen_winding_surface_arc")),
     (some (.str "f_B_normalized_by_Bnormal_IG"), some (.str "f_B")), (some .none, some (.num 1 0)),
     (some (.num 12 (-1)), some (.num 2 0)), (some (.num 1 (-7)), some (.num 1 (-6))), (some (.num 1 (-7)), some (.num 1 (-6))),
     (some (.num 1 (-7)), some (.num 1 (-6))), (some (.num 1 (-7)), some (.num 0 0)), (some (.num 0 0), some (.num 1 (-6))),
     (some (.num 0 0), some (.num 1 (-10))), (some (.num 1 (-1)), some (.num 1 (-6))), (some (.num 1 (-1)), some (.num 1 (-10))),
     (some (.num 1 (-1)), some (.num 1 (-6))), (some (.num 5 1), some (.num 1 4)), (some (.num 5 2), some (.num 1 3)),
     (some (.num 5 2), none), (some (.object "lineax.AutoLinearSolver(well_posed=True)"), some .none)] := by
  decide

/-- The documented growth rate is an instance. -/
example : documentedDefault "c_growth_rate" = some (.num 12 (-1)) ∧ realDefault "c_growth_rate" = some (.num 2 0) := by decide

/-- **C144 (static).** A documented parameter is called static exactly if it is, except for the plasma coefficients, which are traced, and
`maxiter_inner_last`. -/
theorem C144_documented_static_partial {e : Doc} (h : e ∈ docs) :
    (e.static = true ↔ e.name ∈ staticArgs) ↔ e.name ≠ "plasma_dofs" ∧ e.name ≠ "maxiter_inner_last" := by
  have : ∀ e ∈ docs, ((e.static = true ↔ e.name ∈ staticArgs) ↔ e.name ≠ "plasma_dofs" ∧ e.name ≠ "maxiter_inner_last") := by decide
  exact this e h

example : (⟨"plasma_dofs", some .required, true⟩ : Doc) ∈ docs := by simp [docs]

/-- **C144 (undocumented).** The parameters without documentation. -/
theorem C144_undocumented {p : Param} (h : p ∈ signature) :
    p.name ∉ docs.map Doc.name ↔ p.name ∈ ["smoothing", "smoothing_params", "merge_constraints"] := by
  have : ∀ p ∈ signature, (p.name ∉ docs.map Doc.name ↔ p.name ∈ ["smoothing", "smoothing_params", "merge_constraints"]) := by decide
  exact this p h

example : (⟨"smoothing", .str "slack"⟩ : Param) ∈ signature := by simp [signature]

/-! ## What the differences mean for a call -/

/-- Parsed objectives that agree at the problem give the same functions for the solver. -/
theorem fgh_of_objectives {P : Type} [HasQp P] (reg : Registry P) (Q : P) (a b : QuadcoilArgs)
    (hc : b.constraintName = a.constraintName ∧ b.constraintType = a.constraintType ∧ b.constraintUnit = a.constraintUnit ∧
      b.constraintValue = a.constraintValue) (hm : b.mergeConstraints = a.mergeConstraints) (hs : b.smoothing = a.smoothing) (hp : b.sp = a.sp)
    (h : SameResult (ParsedObjSame Q)
      (parseObjectives reg a.objectiveName a.objectiveUnit (match a.objectiveName with | .one _ => .one 1 | .many _ => a.objectiveWeight) a.smoothing a.sp)
      (parseObjectives reg b.objectiveName b.objectiveUnit (match b.objectiveName with | .one _ => .one 1 | .many _ => b.objectiveWeight)
        b.smoothing b.sp)) :
    SameResult (FghSame Q) (fghFromY reg Q a) (fghFromY reg Q b) := by
  obtain ⟨h1, h2, h3, h4⟩ := hc
  unfold fghFromY
  refine h.bind fun o o' ho => ?_
  rw [h1, h2, h3, h4, hs, hp]
  refine SameResult.bind (R := Eq) ?_ fun c c' hc => ?_
  · generalize parseConstraints reg a.constraintName a.constraintType a.constraintUnit _ a.smoothing a.sp = x
    cases x <;> rfl
  subst hc
  have hg : atProblem Q (joinParsed o c).g = atProblem Q (joinParsed o' c).g := by
    simp only [joinParsed, atProblem_append, ho.g]
  have hh : atProblem Q (joinParsed o c).h = atProblem Q (joinParsed o' c).h := by
    simp only [joinParsed, atProblem_append, ho.h]
  have lg : (joinParsed o c).g.length = (joinParsed o' c).g.length := by simpa [atProblem] using congrArg List.length hg
  have lh : (joinParsed o c).h.length = (joinParsed o' c).h.length := by simpa [atProblem] using congrArg List.length hh
  refine ⟨?_, ?_, ?_, ?_, ?_, ?_⟩
  · funext x
    exact congrFun ho.f x
  · rw [hm]
    exact mergeCallables_same Q hg _ _ _
  · exact mergeCallables_same Q hh _ _ _
  · simp only [lg, hm]
  · exact lh
  · simp only [joinParsed, slackAt_union, ho.slack]

/-- The same functions for the solver and the same settings give the same problem. -/
theorem setup_of_fgh {P : Type} [HasQp P] {reg : Registry P} {Q : P} {a b : QuadcoilArgs} (u : ℝ)
    (h : SameResult (FghSame Q) (fghFromY reg Q a) (fghFromY reg Q b))
    (hb : ∃ n o w, b = { a with objectiveName := n, objectiveUnit := o, objectiveWeight := w }) :
    quadcoilSetup reg Q a u = quadcoilSetup reg Q b u := by
  obtain ⟨n, o, w, rfl⟩ := hb
  unfold quadcoilSetup
  cases hA : fghFromY reg Q a with
  | error e =>
    rw [hA] at h
    cases hB : fghFromY reg Q { a with objectiveName := n, objectiveUnit := o, objectiveWeight := w } with
    | error f =>
      rw [hB] at h
      simp only [SameResult] at h
      subst h
      rfl
    | ok B =>
      rw [hB] at h
      exact h.elim
  | ok A =>
    rw [hA] at h
    cases hB : fghFromY reg Q { a with objectiveName := n, objectiveUnit := o, objectiveWeight := w } with
    | error f =>
      rw [hB] at h
      exact h.elim
    | ok B =>
      rw [hB] at h
      have ht : ∀ phi, xTemplate Q phi u A.slack = xTemplate Q phi u B.slack := by
        intro phi
        have e : ∀ l : List (String × (P → Dofs → Val)), (l.map fun kv => (kv.1, kv.2 Q (phiOnly (Val.array phi)))) =
            (slackAt Q l).map fun kv => (kv.1, kv.2 (phiOnly (Val.array phi))) := by
          intro l
          simp [slackAt]
        rw [xTemplate, xTemplate, e, e, h.slack]
      simp only [bind, Except.bind, h.f, h.g, h.h, h.nG, h.nH, ht]

/-- The name of the normalised field error, if the name is the one of the field error and the unit is left out. -/
def normalisedName (n : String) : UnitArg → String
  | .none => if n = "f_B" then "f_B_normalized_by_Bnormal_IG" else n
  | _ => n

/-- The names of a list of objectives. -/
def normalisedNames : List String → List UnitArg → List String
  | n :: ns, u :: us => normalisedName n u :: normalisedNames ns us
  | ns, _ => ns

theorem normalisedNames_length (ns : List String) (us : List UnitArg) : (normalisedNames ns us).length = ns.length := by
  induction ns generalizing us with
  | nil => cases us <;> rfl
  | cons n ns ih => cases us <;> simp [normalisedNames, ih]

theorem normalisedNames_eq_nil (ns : List String) (us : List UnitArg) : normalisedNames ns us = [] ↔ ns = [] := by
  rw [← List.length_eq_zero_iff, normalisedNames_length, List.length_eq_zero_iff]

/-- The call in which every field error without a unit is replaced by the normalised field error. -/
def QuadcoilArgs.normalised (a : QuadcoilArgs) : QuadcoilArgs :=
  { a with objectiveName := match a.objectiveName, a.objectiveUnit with
      | .one n, .one u => .one (normalisedName n u)
      | .many ns, .many us => .many (normalisedNames ns us)
      | n, _ => n }

theorem shipped_fBn (others : List String) : shippedRegistry FieldProblem.fns others "f_B_normalized_by_Bnormal_IG" =
    some (.quantity (Quantity.generateC2 (num FieldProblem.fns.fBnormalized) ["f", "<="])) := rfl

theorem fBnormalized_over_zero (Q : FieldProblem) (d : Dofs) :
    Q.fBnormalized (coefs d) / Q.fBnormalized (List.replicate (HasQp.ndofs Q) 0) =
      Q.fB (coefs d) / Q.fB (List.replicate (HasQp.ndofs Q) 0) := by
  show Q.fB (coefs d) / Q.fB (List.replicate (HasQp.ndofs Q) 0) /
    (Q.fB (List.replicate (HasQp.ndofs Q) 0) / Q.fB (List.replicate (HasQp.ndofs Q) 0)) = _
  by_cases h : Q.fB (List.replicate (HasQp.ndofs Q) 0) = 0
  · simp [h]
  · rw [div_self h, div_one]

/-- Apart from the unit, the same quantity at the problem `Q`. -/
structure AddedAlike {P : Type} (Q : P) (A B : Added P) : Prop where
  val : A.val Q = B.val Q
  g : atProblem Q A.g = atProblem Q B.g
  h : atProblem Q A.h = atProblem Q B.h
  slack : slackAt Q A.slack = slackAt Q B.slack

theorem addQuantity_normalised (others : List String) (Q : FieldProblem) (n : String) (u : UnitArg) (sm : Option String) (sp : SmoothingParams) :
    SameResult (AddedAlike Q) (addQuantity (shippedRegistry FieldProblem.fns others) n u "f" sm sp)
      (addQuantity (shippedRegistry FieldProblem.fns others) (normalisedName n u) u "f" sm sp) := by
  have hrefl : ∀ x : Except PyErr (Added FieldProblem), SameResult (AddedAlike Q) x x := by
    intro x
    cases x
    · rfl
    · exact ⟨rfl, rfl, rfl, rfl⟩
  cases u with
  | scalar v => exact hrefl _
  | other => exact hrefl _
  | none =>
    by_cases hn : n = "f_B"
    swap
    · simp only [normalisedName, if_neg hn]
      exact hrefl _
    subst hn
    simp only [normalisedName, if_true]
    have e1 : getQuantity (shippedRegistry FieldProblem.fns others) "f_B" =
      .ok (Quantity.generateC2 (num FieldProblem.fns.fB) ["f", "<="]) := rfl
    have e2 : getQuantity (shippedRegistry FieldProblem.fns others) "f_B_normalized_by_Bnormal_IG" =
      .ok (Quantity.generateC2 (num FieldProblem.fns.fBnormalized) ["f", "<="]) := rfl
    have hv : ∀ d : Dofs, (Val.map2 (· / ·) (num FieldProblem.fns.fB Q d)
          (Quantity.call (Quantity.generateC2 (num FieldProblem.fns.fB) ["f", "<="]) Q
            (phiOnly (Val.array (List.replicate (HasQp.ndofs Q) 0))))) =
        Val.map2 (· / ·) (num FieldProblem.fns.fBnormalized Q d)
          (Quantity.call (Quantity.generateC2 (num FieldProblem.fns.fBnormalized) ["f", "<="]) Q
            (phiOnly (Val.array (List.replicate (HasQp.ndofs Q) 0)))) := by
      intro d
      have := fBnormalized_over_zero Q d
      show Val.scalar _ = Val.scalar _
      exact congrArg Val.scalar this.symm
    unfold addQuantity
    simp only [e1, e2, bind, Except.bind, Quantity.scaledF, Quantity.scaledG, Quantity.scaledH, Quantity.scaledInit]
    by_cases h1 : sm = some "slack"
    · subst h1
      refine ⟨funext fun d => hv d, rfl, rfl, rfl⟩
    by_cases h2 : sm = none
    · subst h2
      refine ⟨funext fun d => hv d, rfl, rfl, rfl⟩
    by_cases h3 : sm = some "approx"
    · subst h3
      refine ⟨funext fun d => hv d, rfl, rfl, rfl⟩
    simp only [if_neg h1, if_neg h2, if_neg h3]
    rfl

theorem objLoop_normalised (others : List String) (Q : FieldProblem) (sm : Option String) (sp : SmoothingParams) (ns : List String)
    (us : List UnitArg) {A B : ObjAcc FieldProblem} (hAB : ObjSame Q A B) :
    SameResult (ObjSame Q) (parseObjLoop (shippedRegistry FieldProblem.fns others) sm sp ns us A)
      (parseObjLoop (shippedRegistry FieldProblem.fns others) sm sp (normalisedNames ns us) us B) := by
  induction ns generalizing us A B with
  | nil => cases us <;> exact hAB
  | cons n ns ih =>
    cases us with
    | nil => rfl
    | cons u us =>
      simp only [parseObjLoop, normalisedNames]
      refine (addQuantity_normalised others Q n u sm sp).bind fun x y hxy => ih us ⟨?_, ?_, ?_, ?_⟩
      · simp only [atProblem_append, hAB.f]
        simp only [atProblem, List.map_cons, List.map_nil, hxy.val]
      · simp only [atProblem_append, hAB.g, hxy.g]
      · simp only [atProblem_append, hAB.h, hxy.h]
      · rw [slackAt_union, slackAt_union, hAB.slack, hxy.slack]

theorem fgh_normalised (others : List String) (Q : FieldProblem) (a : QuadcoilArgs) :
    SameResult (FghSame Q) (fghFromY (shippedRegistry FieldProblem.fns others) Q a)
      (fghFromY (shippedRegistry FieldProblem.fns others) Q a.normalised) := by
  refine fgh_of_objectives _ Q a a.normalised ⟨rfl, rfl, rfl, rfl⟩ rfl rfl rfl ?_
  have run : ∀ (ns : List String) (us : List UnitArg) (ws : List ℝ), SameResult (ParsedObjSame Q)
      (do
        let acc ← parseObjLoop (shippedRegistry FieldProblem.fns others) a.smoothing a.sp ns us ⟨[], [], [], []⟩
        .ok ⟨fTot acc.f ws, acc.g, acc.h, acc.slack⟩)
      (do
        let acc ← parseObjLoop (shippedRegistry FieldProblem.fns others) a.smoothing a.sp (normalisedNames ns us) us ⟨[], [], [], []⟩
        .ok ⟨fTot acc.f ws, acc.g, acc.h, acc.slack⟩) := by
    intro ns us ws
    refine (objLoop_normalised others Q a.smoothing a.sp ns us ⟨rfl, rfl, rfl, rfl⟩).bind fun x y hxy => ?_
    exact ⟨fTot_same Q hxy.f ws, hxy.g, hxy.h, hxy.slack⟩
  have hrefl : ∀ x : Except PyErr (ParsedObj FieldProblem), SameResult (ParsedObjSame Q) x x := by
    intro x
    cases x
    · rfl
    · exact ⟨rfl, rfl, rfl, rfl⟩
  simp only [QuadcoilArgs.normalised]
  cases a.objectiveName with
  | one n =>
    cases a.objectiveUnit with
    | one u =>
      simp only [parseObjectives, List.length_cons, List.length_nil, ne_eq, not_true_eq_false, if_false]
      exact run [n] [u] [1]
    | many us => exact hrefl _
  | many ns =>
    cases a.objectiveUnit with
    | one u => exact hrefl _
    | many us =>
      cases a.objectiveWeight with
      | one w => rfl
      | many ws =>
        simp only [parseObjectives, normalisedNames_length]
        split
        · rfl
        · exact run ns us ws

/-- The call with other objectives. -/
def CallArgs.withObjective (a : CallArgs) (n : OneOrMany String) (u : OneOrMany UnitArg) (w : OneOrMany ℝ) : CallArgs :=
  { a with opts := { a.opts with objectiveName := n, objectiveUnit := u, objectiveWeight := w } }

/-- The same functions for the solver give the same results of the call. -/
theorem call_of_fgh {reg : Registry FieldProblem} (a : CallArgs) (n : OneOrMany String) (u : OneOrMany UnitArg) (w : OneOrMany ℝ)
    (hc : quadcoilChecks (a.withObjective n u w).checked = quadcoilChecks a.checked)
    (hy : (a.withObjective n u w).yArgs = a.yArgs)
    (hf : ∀ Q, SameResult (FghSame Q) (fghFromY reg Q a.opts) (fghFromY reg Q (a.withObjective n u w).opts)) (opt : Optimizer ℝ)
    (gradOp : (List ℝ → ℝ) → List ℝ → List ℝ) :
    quadcoilCall opt gradOp reg (a.withObjective n u w) = quadcoilCall opt gradOp reg a := by
  have hs : ∀ Q v, quadcoilSetup reg Q a.opts v = quadcoilSetup reg Q (a.withObjective n u w).opts v :=
    fun Q v => setup_of_fgh v (hf Q) ⟨n, u, w, rfl⟩
  have hset : (a.withObjective n u w).setup reg = a.setup reg := by
    unfold CallArgs.setup
    rw [hc]
    show (if a.nfp = 0 then _ else _) = if a.nfp = 0 then _ else _
    congr 1
    refine congrArg (quadcoilChecks a.checked >>= ·) (funext fun _ => ?_)
    refine congrArg (a.generatorShapes >>= ·) (funext fun _ => ?_)
    refine congrArg (a.paramsObj >>= ·) (funext fun o => ?_)
    have h := hf o.toField
    simp only [bind, Except.bind]
    cases hA : fghFromY reg o.toField a.opts with
    | error e =>
      rw [hA] at h
      cases hB : fghFromY reg o.toField (a.withObjective n u w).opts with
      | error f =>
        rw [hB] at h
        simp only [SameResult] at h
        rw [h]
      | ok B =>
        rw [hB] at h
        exact h.elim
    | ok A =>
      rw [hA] at h
      cases hB : fghFromY reg o.toField (a.withObjective n u w).opts with
      | error f =>
        rw [hB] at h
        exact h.elim
      | ok B =>
        simp only [← hs]
        rfl
  unfold quadcoilCall
  rw [hset]
  cases hS : a.setup reg with
  | error e => rfl
  | ok QS =>
    obtain ⟨Q, S⟩ := QS
    have h := hf Q
    simp only [bind, Except.bind]
    cases hA : fghFromY reg Q a.opts with
    | error e =>
      rw [hA] at h
      cases hB : fghFromY reg Q (a.withObjective n u w).opts with
      | error f =>
        rw [hB] at h
        simp only [SameResult] at h
        rw [h]
      | ok B =>
        rw [hB] at h
        exact h.elim
    | ok A =>
      rw [hA] at h
      cases hB : fghFromY reg Q (a.withObjective n u w).opts with
      | error f =>
        rw [hB] at h
        exact h.elim
      | ok B =>
        rw [hB] at h
        have hout : ∀ d, (a.withObjective n u w).outDict reg Q B d = a.outDict reg Q A d := by
          intro d
          unfold CallArgs.outDict
          rw [hy, h.f]
          rfl
        simp only [hout]

/-- **C144 (objective).** The default objective is documented to be the normalised field error, and is the field error. With the unit left
out this makes no difference: a call in which field errors without a unit are replaced by normalised field errors returns the same
results, for any further objectives, constraints and settings. -/
theorem C144_normalised_objective (others : List String) (a : CallArgs) (opt : Optimizer ℝ) (gradOp : (List ℝ → ℝ) → List ℝ → List ℝ) :
    quadcoilCall opt gradOp (shippedRegistry FieldProblem.fns others) { a with opts := a.opts.normalised } =
      quadcoilCall opt gradOp (shippedRegistry FieldProblem.fns others) a := by
  have hb : ({ a with opts := a.opts.normalised } : CallArgs) =
    a.withObjective a.opts.normalised.objectiveName a.opts.objectiveUnit a.opts.objectiveWeight := rfl
  rw [hb]
  refine call_of_fgh a _ _ _ ?_ ?_ (fun Q => fgh_normalised others Q a.opts) opt gradOp
  · cases h1 : a.opts.objectiveName with
    | one n =>
      cases h2 : a.opts.objectiveUnit <;>
        simp [CallArgs.checked, CallArgs.withObjective, QuadcoilArgs.normalised, h1, h2, CallArgs.namesObj, quadcoilChecks, inputChecking,
          checkObjective] <;> rfl
    | many ns =>
      cases h2 : a.opts.objectiveUnit <;>
        simp [CallArgs.checked, CallArgs.withObjective, QuadcoilArgs.normalised, h1, h2, CallArgs.namesObj, normalisedNames_length]
  · cases h1 : a.opts.objectiveName <;> cases h2 : a.opts.objectiveUnit <;>
      simp [CallArgs.yArgs, CallArgs.withObjective, QuadcoilArgs.normalised, h1, h2]

/-- **C144 (weight).** The weight of a single objective is documented to be `None` by default, and is 1. It is not used: for an objective
given by its name alone, the results are the same for all weights. -/
theorem C144_weight_of_one_objective (reg : Registry FieldProblem) (a : CallArgs) {n : String} (hn : a.opts.objectiveName = .one n)
    (w : OneOrMany ℝ) (opt : Optimizer ℝ) (gradOp : (List ℝ → ℝ) → List ℝ → List ℝ) :
    quadcoilCall opt gradOp reg (a.withObjective a.opts.objectiveName a.opts.objectiveUnit w) = quadcoilCall opt gradOp reg a := by
  refine call_of_fgh a _ _ _ ?_ ?_ (fun Q => ?_) opt gradOp
  · simp [CallArgs.checked, CallArgs.withObjective, hn, CallArgs.namesObj, quadcoilChecks, inputChecking, checkObjective]
    rfl
  · simp [CallArgs.yArgs, CallArgs.withObjective]
  · have : fghFromY reg Q (a.withObjective a.opts.objectiveName a.opts.objectiveUnit w).opts = fghFromY reg Q a.opts := by
      unfold fghFromY
      simp only [CallArgs.withObjective, hn]
    rw [this]
    cases fghFromY reg Q a.opts
    · rfl
    · exact ⟨rfl, rfl, rfl, rfl, rfl, rfl⟩

/-- The default call, with the objective that is documented. -/
example : (defaultArgs.normalised.objectiveName = .one "f_B_normalized_by_Bnormal_IG") ∧ defaultArgs.objectiveName = .one "f_B" := by
  constructor <;> simp [QuadcoilArgs.normalised, defaultArgs, normalisedName]

/-- A list of objectives: the field error with a unit stays as it is. -/
example : normalisedNames ["f_B", "f_K", "f_B"] [.none, .none, .scalar 2] = ["f_B_normalized_by_Bnormal_IG", "f_K", "f_B"] := by
  simp [normalisedNames, normalisedName]

/-- The number in the signature. -/
noncomputable def realNumber (n : String) : ℝ := ((realDefault n).getD .none).toReal

/-- The number in the documentation. -/
noncomputable def documentedNumber (n : String) : ℝ := ((documentedDefault n).getD .none).toReal

/-- The settings of the modelled default call are those of the signature. -/
theorem C144_settings : defaultArgs.cInit = realNumber "c_init" ∧ defaultArgs.cGrowth = realNumber "c_growth_rate" ∧
    defaultArgs.xstopOuter = realNumber "xstop_outer" ∧ defaultArgs.ctolOuter = realNumber "ctol_outer" ∧
    defaultArgs.fstopInner = realNumber "fstop_inner" ∧ defaultArgs.xstopInner = realNumber "xstop_inner" ∧
    defaultArgs.gtolInner = realNumber "gtol_inner" ∧ defaultArgs.fstopInnerLast = realNumber "fstop_inner_last" ∧
    defaultArgs.xstopInnerLast = realNumber "xstop_inner_last" ∧ defaultArgs.gtolInnerLast = realNumber "gtol_inner_last" ∧
    (defaultArgs.maxiterTot : ℝ) = realNumber "maxiter_tot" ∧ (defaultArgs.maxiterInner : ℝ) = realNumber "maxiter_inner" := by
  have h : ∀ n m e, realDefault n = some (.num m e) → realNumber n = m * (10 : ℝ) ^ e := by
    intro n m e h
    simp [realNumber, h, Default.toReal]
  rw [h "c_init" 1 0 (by decide), h "c_growth_rate" 2 0 (by decide), h "xstop_outer" 1 (-6) (by decide), h "ctol_outer" 1 (-6) (by decide),
    h "fstop_inner" 1 (-6) (by decide), h "xstop_inner" 1 (-6) (by decide), h "gtol_inner" 1 (-6) (by decide),
    h "fstop_inner_last" 0 0 (by decide), h "xstop_inner_last" 1 (-10) (by decide), h "gtol_inner_last" 1 (-10) (by decide),
    h "maxiter_tot" 1 4 (by decide), h "maxiter_inner" 1 3 (by decide)]
  simp only [defaultArgs]
  norm_num

/-- **C144 (settings).** A call without options differs from the documented one in every direction: it may take 200 times as many
iterations in total, it raises the penalty faster, it asks for less of the constraints, and for more of the gradient. -/
theorem C144_how_different : realNumber "maxiter_tot" = 200 * documentedNumber "maxiter_tot" ∧
    documentedNumber "c_growth_rate" < realNumber "c_growth_rate" ∧ documentedNumber "ctol_outer" < realNumber "ctol_outer" ∧
    realNumber "gtol_inner" < documentedNumber "gtol_inner" ∧ documentedNumber "xstop_inner" < realNumber "xstop_inner" ∧
    realNumber "fstop_inner_last" < documentedNumber "fstop_inner_last" := by
  have h : ∀ n m e, realDefault n = some (.num m e) → realNumber n = m * (10 : ℝ) ^ e := by
    intro n m e h
    simp [realNumber, h, Default.toReal]
  have k : ∀ n m e, documentedDefault n = some (.num m e) → documentedNumber n = m * (10 : ℝ) ^ e := by
    intro n m e h
    simp [documentedNumber, h, Default.toReal]
  rw [h "c_growth_rate" 2 0 (by decide), h "ctol_outer" 1 (-6) (by decide), h "xstop_inner" 1 (-6) (by decide),
    h "gtol_inner" 1 (-6) (by decide), h "fstop_inner_last" 0 0 (by decide), h "maxiter_tot" 1 4 (by decide),
    k "c_growth_rate" 12 (-1) (by decide), k "ctol_outer" 1 (-7) (by decide), k "xstop_inner" 0 0 (by decide),
    k "gtol_inner" 1 (-1) (by decide), k "fstop_inner_last" 1 (-7) (by decide), k "maxiter_tot" 5 1 (by decide)]
  norm_num

end Verif
