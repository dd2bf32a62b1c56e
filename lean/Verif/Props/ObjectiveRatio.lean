import Verif.Props.ListOrder
import Verif.Props.SmoothFlatExamples
import Verif.Props.CallExamples

/-!
# C165: only the ratio of weight and unit of each objective matters
-/

namespace Verif

/-! ## What the user asks for -/

/-- Weight over unit, summed over all entries of the list with this name. -/
noncomputable def totalRatio (objs : List ObjectiveItem) (n : String) : ℝ :=
  ((objs.filter fun o => o.name = n).map fun o => o.weight / o.unit.size).sum

/-- The objectives that are a quantity over its unit in every mode. -/
def directNames : List String := ["f_K", "f_B", "f_B_normalized_by_Bnormal_IG", "f_Phi"]

/-- The objective is the quantity over its unit: in every mode, or because the quantities are not smoothed. -/
def DirectObjective (sm : Option String) (n : String) : Prop :=
  n ∈ directNames ∨ sm = none ∧ ∃ q, (shipped FieldProblem.fns).lookup n = some q ∧ "f" ∈ q.compatibility

/-- The entry has a direct objective and a number as unit. -/
def DirectItem (sm : Option String) (o : ObjectiveItem) : Prop := DirectObjective sm o.name ∧ ∃ u, o.unit = .scalar u ∧ u ≠ 0

/-! ## Parsing -/

theorem objective_raw_scalar : ∀ nq ∈ shipped FieldProblem.fns, "f" ∈ nq.2.compatibility → ∀ Q d, ∃ y, nq.2.rawF Q d = .scalar y := by
  intro nq h hf Q d
  simp only [shipped, List.mem_cons, List.not_mem_nil, or_false] at h
  rcases h with rfl | rfl | rfl | rfl | rfl | rfl | rfl | rfl | rfl | rfl | rfl | rfl | rfl | rfl | rfl | rfl | rfl | rfl | rfl | rfl | rfl | rfl |
    rfl | rfl | rfl | rfl | rfl <;>
    first
    | exact ⟨_, rfl⟩
    | (exfalso; revert hf; simp [Quantity.generateC2])

variable (others : List String) {sm : Option String} {sp : SmoothingParams}

/-- A direct objective is accepted, is a number over the size of the unit, and adds nothing else. -/
theorem objVal_direct (hsm : knownSmoothing sm) {n : String} (hn : DirectObjective sm n) : ∃ r : FieldProblem → Dofs → ℝ, ∀ u w,
    ∃ c, objPart (shippedRegistry FieldProblem.fns others) sm sp ⟨n, .scalar u, w⟩ = .ok c ∧
      (∀ Q d, c.val Q d = .scalar (r Q d / |u|)) ∧ c.g = [] ∧ c.h = [] ∧ c.slack = [] := by
  rcases hn with hn | ⟨rfl, q, hq, hf⟩
  · have key : ∀ F : FieldProblem → Dofs → ℝ, (shipped FieldProblem.fns).lookup n = some (Quantity.generateC2 (num F) ["f", "<="]) →
        ∃ r : FieldProblem → Dofs → ℝ, ∀ u w,
          ∃ c, objPart (shippedRegistry FieldProblem.fns others) sm sp ⟨n, .scalar u, w⟩ = .ok c ∧
            (∀ Q d, c.val Q d = .scalar (r Q d / |u|)) ∧ c.g = [] ∧ c.h = [] ∧ c.slack = [] := by
      intro F hF
      refine ⟨F, fun u w => ⟨addedOf (Quantity.generateC2 (num F) ["f", "<="]) sm sp fun _ => .scalar |u|, ?_, fun Q d => ?_, ?_, ?_, ?_⟩⟩
      · exact addQuantity_ok.2 ⟨_, _, by simp [shippedRegistry, hF], hsm, by simp [Quantity.generateC2], rfl, rfl⟩
      all_goals
        unfold addedOf
        split
        · simp [Quantity.generateC2, num, Val.map2]
        · split <;> simp [Quantity.generateC2, num, Val.map2]
    simp only [directNames, List.mem_cons, List.not_mem_nil, or_false] at hn
    rcases hn with rfl | rfl | rfl | rfl
    · exact key _ rfl
    · exact key _ rfl
    · exact key _ rfl
    · exact key _ rfl
  · choose r hr using objective_raw_scalar _ (mem_of_lookup hq) hf
    refine ⟨r, fun u w => ⟨addedOf q none sp fun _ => .scalar |u|, ?_, fun Q d => ?_, ?_, ?_, ?_⟩⟩
    · exact addQuantity_ok.2 ⟨q, _, by simp [shippedRegistry, hq], hsm, hf, rfl, rfl⟩
    all_goals simp only [addedOf, reduceCtorEq, if_false, if_true]
    rw [hr]
    simp [Val.map2]

/-- A sum over the entries is a sum over the names. -/
theorem sum_by_name (R : String → ℝ) (N : Finset String) (objs : List ObjectiveItem) (h : ∀ o ∈ objs, o.name ∈ N) :
    (objs.map fun o => R o.name * (o.weight / o.unit.size)).sum = ∑ n ∈ N, R n * totalRatio objs n := by
  induction objs with
  | nil => simp [totalRatio]
  | cons o os ih =>
    have h1 : ∀ n, totalRatio (o :: os) n = (if n = o.name then o.weight / o.unit.size else 0) + totalRatio os n := by
      intro n
      unfold totalRatio
      by_cases hn : o.name = n
      · simp [hn]
      · simp [hn, Ne.symm hn]
    simp only [List.map_cons, List.sum_cons, h1, mul_add, Finset.sum_add_distrib, mul_ite, mul_zero, Finset.sum_ite_eq', h o List.mem_cons_self,
      if_true]
    rw [ih fun o' ho' => h o' (List.mem_cons_of_mem _ ho')]

theorem fTot_numbers {P : Type} (os : List ObjectiveItem) (v : ObjectiveItem → P → Dofs → Val) {qp : P} {d : Dofs} {s : ObjectiveItem → ℝ}
    (h : ∀ o ∈ os, v o qp d = .scalar (s o)) (t : ℝ) :
    ((os.map v).zip (os.map ObjectiveItem.weight)).foldl
      (fun out fw => Val.map2 (· + ·) out (Val.map (fun x => x * fw.2) (fw.1 qp d))) (Val.scalar t) =
      .scalar (t + (os.map fun o => s o * o.weight).sum) := by
  induction os generalizing t with
  | nil => simp
  | cons o os ih =>
    simp only [List.map_cons, List.zip_cons_cons, List.foldl_cons, h o List.mem_cons_self]
    rw [show Val.map2 (· + ·) (Val.scalar t) (Val.map (fun x => x * o.weight) (.scalar (s o))) = .scalar (t + s o * o.weight) from rfl,
      ih fun o' ho' => h o' (List.mem_cons_of_mem _ ho')]
    simp [add_assoc]

variable {objs' objs : List ObjectiveItem} {cons : List Request}

/-- The parsed objectives depend on the ratios only. -/
theorem parseObjectives_ratio (hsm : knownSmoothing sm) (h' : ∀ o ∈ objs', DirectItem sm o) (h : ∀ o ∈ objs, DirectItem sm o)
    (hr : ∀ n, totalRatio objs' n = totalRatio objs n) :
    parseObjectives (shippedRegistry FieldProblem.fns others) (.many (objs'.map ObjectiveItem.name)) (.many (objs'.map ObjectiveItem.unit))
        (.many (objs'.map ObjectiveItem.weight)) sm sp =
      parseObjectives (shippedRegistry FieldProblem.fns others) (.many (objs.map ObjectiveItem.name)) (.many (objs.map ObjectiveItem.unit))
        (.many (objs.map ObjectiveItem.weight)) sm sp := by
  classical
  have hex : ∀ n, ∃ r : FieldProblem → Dofs → ℝ, DirectObjective sm n → ∀ u w,
      ∃ c, objPart (shippedRegistry FieldProblem.fns others) sm sp ⟨n, .scalar u, w⟩ = .ok c ∧
        (∀ Q d, c.val Q d = .scalar (r Q d / |u|)) ∧ c.g = [] ∧ c.h = [] ∧ c.slack = [] := by
    intro n
    by_cases hn : DirectObjective sm n
    · obtain ⟨r, hr⟩ := objVal_direct others (sp := sp) hsm hn
      exact ⟨r, fun _ => hr⟩
    · exact ⟨fun _ _ => 0, fun h => absurd h hn⟩
  choose R hR using hex
  have item : ∀ o, DirectItem sm o → ∃ c, objPart (shippedRegistry FieldProblem.fns others) sm sp o = .ok c ∧
      (∀ Q d, c.val Q d = .scalar (R o.name Q d / o.unit.size)) ∧ c.g = [] ∧ c.h = [] ∧ c.slack = [] := by
    rintro ⟨n, un, w⟩ ⟨hn, u, rfl, hu⟩
    exact hR n hn u w
  have parsed : ∀ os : List ObjectiveItem, (∀ o ∈ os, DirectItem sm o) →
      parseObjectives (shippedRegistry FieldProblem.fns others) (.many (os.map ObjectiveItem.name)) (.many (os.map ObjectiveItem.unit))
        (.many (os.map ObjectiveItem.weight)) sm sp =
      .ok ⟨fun Q d => .scalar (os.map fun o => R o.name Q d * (o.weight / o.unit.size)).sum, [], [], []⟩ := by
    intro os hos
    simp only [parseObjectives, List.length_map, ne_eq, not_true_eq_false, if_false]
    have h1 : ∀ o ∈ os, ∃ c, objPart (shippedRegistry FieldProblem.fns others) sm sp o = .ok c := fun o ho =>
      (item o (hos o ho)).imp fun c hc => hc.1
    rw [(objLoop_parts os _ _).2 ⟨h1, rfl⟩]
    have h2 : ∀ o ∈ os, (∀ Q d, (objVal (shippedRegistry FieldProblem.fns others) sm sp o).val Q d = .scalar (R o.name Q d / o.unit.size)) ∧
        (objVal (shippedRegistry FieldProblem.fns others) sm sp o).g = [] ∧ (objVal (shippedRegistry FieldProblem.fns others) sm sp o).h = [] ∧
        (objVal (shippedRegistry FieldProblem.fns others) sm sp o).slack = [] := by
      intro o ho
      obtain ⟨c, hc, hc'⟩ := item o (hos o ho)
      rw [objVal_eq hc]
      exact hc'
    simp only [bind, Except.bind, List.nil_append, Except.ok.injEq, ParsedObj.mk.injEq]
    refine ⟨?_, ?_, ?_, ?_⟩
    · funext Q d
      rw [fTot, fTot_numbers os _ fun o ho => (h2 o ho).1 Q d, zero_add]
      congr 2
      exact List.map_congr_left fun o _ => by ring
    · exact List.flatMap_eq_nil_iff.2 fun o ho => (h2 o ho).2.1
    · exact List.flatMap_eq_nil_iff.2 fun o ho => (h2 o ho).2.2.1
    · have h3 : os.map (fun o => (objVal (shippedRegistry FieldProblem.fns others) sm sp o).slack) = os.map fun _ => [] :=
        List.map_congr_left fun o ho => (h2 o ho).2.2.2
      rw [h3]
      clear h3 h2 h1 hos
      induction os with
      | nil => rfl
      | cons o os ih => simpa [dictUnion] using ih
  rw [parsed _ h', parsed _ h]
  congr 2
  funext Q d
  congr 1
  rw [sum_by_name (fun n => R n Q d) ((objs' ++ objs).map ObjectiveItem.name).toFinset objs' (by
      intro o ho
      simp only [List.mem_toFinset, List.mem_map, List.mem_append]
      exact ⟨o, .inl ho, rfl⟩),
    sum_by_name (fun n => R n Q d) ((objs' ++ objs).map ObjectiveItem.name).toFinset objs (by
      intro o ho
      simp only [List.mem_toFinset, List.mem_map, List.mem_append]
      exact ⟨o, .inr ho, rfl⟩)]
  exact Finset.sum_congr rfl fun n _ => by rw [hr]

theorem checks_listing (a : CallArgs) (objs' objs : List ObjectiveItem) (cons : List Request) :
    quadcoilChecks (a.listing objs' cons).checked = quadcoilChecks (a.listing objs cons).checked := by
  simp [quadcoilChecks, inputChecking, checkObjective, checkConstraints, CallArgs.checked, CallArgs.listing, CallArgs.namesObj, CallArgs.weightsObj,
    CallArgs.unitsObj, PyObj.isNdarray, PyObj.len, bind, Except.bind]

/-- **C165.** Two calls whose lists of objectives have the same total of weight over unit for each quantity do the same: same error, same iterations,
same result. -/
theorem C165_ratio {opt : Optimizer ℝ} {gradOp : (List ℝ → ℝ) → List ℝ → List ℝ} (a : CallArgs) (hsm : knownSmoothing a.opts.smoothing)
    (h' : ∀ o ∈ objs', DirectItem a.opts.smoothing o) (h : ∀ o ∈ objs, DirectItem a.opts.smoothing o)
    (hr : ∀ n, totalRatio objs' n = totalRatio objs n) :
    quadcoilCall opt gradOp (shippedRegistry FieldProblem.fns others) (a.listing objs' cons) =
      quadcoilCall opt gradOp (shippedRegistry FieldProblem.fns others) (a.listing objs cons) := by
  have hf : ∀ Q : FieldProblem, fghFromY (shippedRegistry FieldProblem.fns others) Q (a.listing objs' cons).opts =
      fghFromY (shippedRegistry FieldProblem.fns others) Q (a.listing objs cons).opts := by
    intro Q
    unfold fghFromY
    simp only [CallArgs.listing]
    rw [parseObjectives_ratio others (sp := a.opts.sp) hsm h' h hr]
    rfl
  have hS : ∀ (Q : FieldProblem) (u : ℝ), quadcoilSetup (shippedRegistry FieldProblem.fns others) Q (a.listing objs' cons).opts u =
      quadcoilSetup (shippedRegistry FieldProblem.fns others) Q (a.listing objs cons).opts u := by
    intro Q u
    unfold quadcoilSetup
    rw [hf]
    rfl
  unfold quadcoilCall CallArgs.setup
  rw [checks_listing a objs' objs cons]
  simp only [hf, hS]
  rfl

/-- `f_B` with unit 2, and `f_K` with weight 0. -/
noncomputable def oneEntry : List ObjectiveItem := [⟨"f_B", .scalar 2, 1⟩, ⟨"f_K", .scalar 7, 0⟩]

/-- `f_B` twice, with other units and weights. -/
noncomputable def twoEntries : List ObjectiveItem := [⟨"f_B", .scalar (-4), 1⟩, ⟨"f_B", .scalar 10, 5 / 2⟩]

theorem entries_ratio (n : String) : totalRatio oneEntry n = totalRatio twoEntries n := by
  unfold totalRatio oneEntry twoEntries
  by_cases h1 : "f_B" = n
  · subst h1
    simp only [List.filter_cons, String.reduceEq, decide_true, decide_false, if_true, Bool.false_eq_true, if_false, List.filter_nil]
    norm_num [UnitArg.size]
  · by_cases h2 : "f_K" = n
    · subst h2
      simp only [List.filter_cons, String.reduceEq, decide_true, decide_false, if_true, Bool.false_eq_true, if_false, List.filter_nil]
      norm_num [UnitArg.size]
    · simp [h1, h2]

theorem entries_direct (sm : Option String) : (∀ o ∈ oneEntry, DirectItem sm o) ∧ ∀ o ∈ twoEntries, DirectItem sm o := by
  constructor <;> intro o ho
  · simp only [oneEntry, List.mem_cons, List.not_mem_nil, or_false] at ho
    rcases ho with rfl | rfl
    · exact ⟨.inl (by simp [directNames]), 2, rfl, by norm_num⟩
    · exact ⟨.inl (by simp [directNames]), 7, rfl, by norm_num⟩
  · simp only [twoEntries, List.mem_cons, List.not_mem_nil, or_false] at ho
    rcases ho with rfl | rfl
    · exact ⟨.inl (by simp [directNames]), -4, rfl, by norm_num⟩
    · exact ⟨.inl (by simp [directNames]), 10, rfl, by norm_num⟩

/-- The two lists are different, and give the same call on the torus in each mode. -/
example (b : ℝ) (sm : Option String) (h : knownSmoothing sm) (cons : List Request) : oneEntry ≠ twoEntries ∧
    quadcoilCall (gradientDescent realGrad (1 / 4)) realGrad (shippedRegistry FieldProblem.fns [])
        ({ torusCall b with opts := { (torusCall b).opts with smoothing := sm } }.listing oneEntry cons) =
      quadcoilCall (gradientDescent realGrad (1 / 4)) realGrad (shippedRegistry FieldProblem.fns [])
        ({ torusCall b with opts := { (torusCall b).opts with smoothing := sm } }.listing twoEntries cons) := by
  refine ⟨fun h => ?_, C165_ratio [] _ h (entries_direct _).1 (entries_direct _).2 entries_ratio⟩
  have := congrArg (fun l => l.map ObjectiveItem.name) h
  revert this
  simp [oneEntry, twoEntries]

/-- Without smoothing the largest potential is direct, too. -/
example : DirectItem none ⟨"f_max_Phi", .scalar 3, 1⟩ :=
  ⟨.inr ⟨rfl, _, rfl, by simp [Quantity.generateLinf]⟩, 3, rfl, by norm_num⟩

/-- The objective of the user depends on the ratios only, for all quantities and modes. -/
theorem C165_user_objective {P : Type} (reg : Registry P) (qp : P) (d : Dofs) (hr : ∀ n, totalRatio objs' n = totalRatio objs n) :
    userObjective reg (objs'.map fun o => (o.name, o.unit, o.weight)) qp d = userObjective reg (objs.map fun o => (o.name, o.unit, o.weight)) qp d := by
  classical
  have h : ∀ os : List ObjectiveItem, userObjective reg (os.map fun o => (o.name, o.unit, o.weight)) qp d =
      (os.map fun o => (rawOf reg o.name qp d).entries.headD 0 * (o.weight / o.unit.size)).sum := by
    intro os
    rw [userObjective, List.map_map]
    congr 1
    exact List.map_congr_left fun o _ => by simp only [Function.comp_apply]; ring
  rw [h, h, sum_by_name (fun n => (rawOf reg n qp d).entries.headD 0) ((objs' ++ objs).map ObjectiveItem.name).toFinset objs' (by
      intro o ho
      simp only [List.mem_toFinset, List.mem_map, List.mem_append]
      exact ⟨o, .inl ho, rfl⟩),
    sum_by_name (fun n => (rawOf reg n qp d).entries.headD 0) ((objs' ++ objs).map ObjectiveItem.name).toFinset objs (by
      intro o ho
      simp only [List.mem_toFinset, List.mem_map, List.mem_append]
      exact ⟨o, .inr ho, rfl⟩)]
  exact Finset.sum_congr rfl fun n _ => by rw [hr]

/-- **C165 fails (auxiliary variables).** In slack mode the start of an auxiliary variable depends on the unit and not only on the ratio: two lists
with the same ratios for each quantity, and different starts. -/
theorem C165_slack_violated_partial (a : QuadcoilArgs) (hs : a.smoothing = some "slack") (hm : a.mergeConstraints = false)
    (hp : a.phiInit = some [1]) (U : ℝ) : ∃ objs' objs : List ObjectiveItem, (∀ n, totalRatio objs' n = totalRatio objs n) ∧
      ∃ S S', quadcoilSetup (shippedRegistry FieldProblem.fns others) resolvedTorus (a.listing objs' []) U = .ok S ∧
        quadcoilSetup (shippedRegistry FieldProblem.fns others) resolvedTorus (a.listing objs []) U = .ok S' ∧ S.template ≠ S'.template := by
  obtain ⟨S, S', h1, h2, h3, h4⟩ := C157_swap_partial a others hs hm hp U
  refine ⟨_, _, fun n => ?_, S, S', h1, h2, h4⟩
  exact ((h3.filter _).map _).sum_eq

/-! ## A single objective -/

/-- The call with one objective given as a string. -/
def CallArgs.single (a : CallArgs) (n : String) (u : UnitArg) (w : OneOrMany ℝ) (cons : List Request) : CallArgs :=
  { a.listing [] cons with opts := { (a.listing [] cons).opts with objectiveName := .one n, objectiveUnit := .one u, objectiveWeight := w } }

theorem single_fgh (a : CallArgs) (n : String) (u : UnitArg) (w : OneOrMany ℝ) (Q : FieldProblem) :
    fghFromY (shippedRegistry FieldProblem.fns others) Q (a.single n u w cons).opts =
      fghFromY (shippedRegistry FieldProblem.fns others) Q (a.listing [⟨n, u, 1⟩] cons).opts := by
  unfold fghFromY
  simp only [CallArgs.listing, CallArgs.single, parseObjectives, List.map_cons, List.map_nil]

theorem single_setup (a : CallArgs) (n : String) (u : UnitArg) (w : OneOrMany ℝ) :
    (a.single n u w cons).setup (shippedRegistry FieldProblem.fns others) =
      (a.listing [⟨n, u, 1⟩] cons).setup (shippedRegistry FieldProblem.fns others) := by
  have hS : ∀ (Q : FieldProblem) (U : ℝ), quadcoilSetup (shippedRegistry FieldProblem.fns others) Q (a.single n u w cons).opts U =
      quadcoilSetup (shippedRegistry FieldProblem.fns others) Q (a.listing [⟨n, u, 1⟩] cons).opts U := by
    intro Q U
    unfold quadcoilSetup
    rw [single_fgh]
    rfl
  have hc : quadcoilChecks (a.single n u w cons).checked = quadcoilChecks (a.listing [⟨n, u, 1⟩] cons).checked := by
    simp [quadcoilChecks, inputChecking, checkObjective, checkConstraints, CallArgs.checked, CallArgs.listing, CallArgs.single, CallArgs.namesObj,
      CallArgs.weightsObj, CallArgs.unitsObj, PyObj.isNdarray, PyObj.len, bind, Except.bind]
  unfold CallArgs.setup
  rw [hc]
  simp only [single_fgh, hS]
  rfl

/-- The values in the output do not depend on the keys of the gradients. -/
theorem gradientOut_values {V : Type} (fObj : V) (metric : String → Except PyErr V) (y' y : YArgs) (names : List String)
    {acc' acc : List (String × MetricOut V)} (h : acc'.map (fun kv => (kv.1, kv.2.value)) = acc.map fun kv => (kv.1, kv.2.value)) :
    (names.foldlM (gradientStep fObj metric y') acc').map (List.map fun kv => (kv.1, kv.2.value)) =
      (names.foldlM (gradientStep fObj metric y) acc).map (List.map fun kv => (kv.1, kv.2.value)) := by
  have hset : ∀ (d : List (String × MetricOut V)) (k : String) (v : MetricOut V),
      (dictSet d k v).map (fun kv => (kv.1, kv.2.value)) = (d.map fun kv => (kv.1, kv.2.value)).filter (fun kv => kv.1 ≠ k) ++ [(k, v.value)] := by
    intro d k v
    simp [dictSet, List.filter_map, Function.comp_def]
  induction names generalizing acc' acc with
  | nil => simpa [pure, Except.pure, Except.map] using h
  | cons n ns ih =>
    rw [List.foldlM_cons, List.foldlM_cons]
    have hstep : ∀ (y : YArgs) (acc : List (String × MetricOut V)), gradientStep fObj metric y acc n =
        (if n = "f_obj" then Except.ok fObj else metric n).map fun r => dictSet acc n ⟨r, some ((yKeys y).map fun k => "df_d" ++ k)⟩ := by
      intro y acc
      unfold gradientStep
      by_cases hn : n = "f_obj"
      · simp [hn, Except.map, bind, Except.bind]
      · simp only [if_neg hn]
        cases metric n <;> rfl
    rw [hstep, hstep]
    cases (if n = "f_obj" then Except.ok fObj else metric n) with
    | error e => rfl
    | ok r => exact ih (by rw [hset, hset, h])

/-- **C165 (single objective).** A call with one objective as a string solves the same problem in the same way as the call with a tuple of length one and
weight 1, whatever weight is given; with `value_only` the whole result is the same. -/
theorem C165_single {opt : Optimizer ℝ} {gradOp : (List ℝ → ℝ) → List ℝ → List ℝ} (a : CallArgs) (n : String) (u : UnitArg) (w : OneOrMany ℝ) :
    (quadcoilCall opt gradOp (shippedRegistry FieldProblem.fns others) (a.single n u w cons)).map
        (Option.map fun c => (c.out.map fun kv => (kv.1, kv.2.value), c.qp, c.dofs, c.results)) =
      (quadcoilCall opt gradOp (shippedRegistry FieldProblem.fns others) (a.listing [⟨n, u, 1⟩] cons)).map
        (Option.map fun c => (c.out.map fun kv => (kv.1, kv.2.value), c.qp, c.dofs, c.results)) ∧
    (a.valueOnly = true → quadcoilCall opt gradOp (shippedRegistry FieldProblem.fns others) (a.single n u w cons) =
      quadcoilCall opt gradOp (shippedRegistry FieldProblem.fns others) (a.listing [⟨n, u, 1⟩] cons)) := by
  have hout : ∀ (Q : FieldProblem) (p : Fgh FieldProblem) (d : Dofs),
      ((a.single n u w cons).outDict (shippedRegistry FieldProblem.fns others) Q p d).map (List.map fun kv => (kv.1, kv.2.value)) =
        ((a.listing [⟨n, u, 1⟩] cons).outDict (shippedRegistry FieldProblem.fns others) Q p d).map (List.map fun kv => (kv.1, kv.2.value)) := by
    intro Q p d
    unfold CallArgs.outDict
    have hv : (a.single n u w cons).valueOnly = (a.listing [⟨n, u, 1⟩] cons).valueOnly := rfl
    rw [hv]
    split
    · rfl
    · exact gradientOut_values _ _ _ _ _ rfl
  unfold quadcoilCall
  rw [single_setup]
  constructor
  · cases (a.listing [⟨n, u, 1⟩] cons).setup (shippedRegistry FieldProblem.fns others) with
    | error e => rfl
    | ok QS =>
    simp only [bind, Except.bind, single_fgh]
    cases fghFromY (shippedRegistry FieldProblem.fns others) QS.1 (a.listing [⟨n, u, 1⟩] cons).opts with
    | error e => rfl
    | ok p =>
    simp only
    cases quadcoilSolve opt gradOp QS.2 with
    | none => rfl
    | some rd =>
    have := hout QS.1 p rd.2
    simp only
    revert this
    cases (a.single n u w cons).outDict (shippedRegistry FieldProblem.fns others) QS.1 p rd.2 <;>
      cases (a.listing [⟨n, u, 1⟩] cons).outDict (shippedRegistry FieldProblem.fns others) QS.1 p rd.2 <;>
      simp [Except.map]
  · intro hvo
    have hd : ∀ (Q : FieldProblem) (p : Fgh FieldProblem) (d : Dofs),
        (a.single n u w cons).outDict (shippedRegistry FieldProblem.fns others) Q p d =
          (a.listing [⟨n, u, 1⟩] cons).outDict (shippedRegistry FieldProblem.fns others) Q p d := by
      intro Q p d
      have h1 : (a.single n u w cons).valueOnly = true := hvo
      have h2 : (a.listing [⟨n, u, 1⟩] cons).valueOnly = true := hvo
      unfold CallArgs.outDict
      rw [if_pos h1, if_pos h2]
      rfl
    simp only [single_fgh, hd]

/-- `f_B` on the torus as a string with a weight that is ignored. -/
example (b : ℝ) (cons : List Request) :
    quadcoilCall (gradientDescent realGrad (1 / 4)) realGrad (shippedRegistry FieldProblem.fns [])
        ({ torusCall b with valueOnly := true }.single "f_B" (.scalar 2) (.one 100) cons) =
      quadcoilCall (gradientDescent realGrad (1 / 4)) realGrad (shippedRegistry FieldProblem.fns [])
        ({ torusCall b with valueOnly := true }.listing [⟨"f_B", .scalar 2, 1⟩] cons) :=
  (C165_single [] _ _ _ _).2 rfl

/-- Two calls in slack mode with the same ratios and different starts. -/
example : ∃ objs' objs : List ObjectiveItem, (∀ n, totalRatio objs' n = totalRatio objs n) ∧
    ∃ S S', quadcoilSetup (shippedRegistry FieldProblem.fns []) resolvedTorus ({ smoothArgs (some "slack") with phiInit := some [1] }.listing objs' []) 7 = .ok S ∧
      quadcoilSetup (shippedRegistry FieldProblem.fns []) resolvedTorus ({ smoothArgs (some "slack") with phiInit := some [1] }.listing objs []) 7 = .ok S' ∧
      S.template ≠ S'.template :=
  C165_slack_violated_partial [] _ rfl rfl rfl 7

end Verif
