import Verif.Props.WeightLimit
import Verif.Props.PricesExamples

/-!
# C164 on the torus
-/

namespace Verif

/-- The squared normal field and the largest squared potential, with units. -/
noncomputable def torusWeighables : List Weighable := [⟨"f_B", .scalar 2⟩, ⟨"f_max_Phi2", .scalar (-1)⟩]

theorem torusWeighables_ok : ∀ q ∈ torusWeighables, q.name ∈ objectiveNames ∧ ∃ u, q.unit = .scalar u ∧ u ≠ 0 := by
  intro q hq
  simp only [torusWeighables, List.mem_cons, List.not_mem_nil, or_false] at hq
  rcases hq with rfl | rfl
  · exact ⟨by decide, 2, rfl, by norm_num⟩
  · exact ⟨by decide, -1, rfl, by norm_num⟩

/-- Limits a little above the values for no current. -/
noncomputable def torusLimits : Fin torusWeighables.length → ℝ :=
  fun i => Weighable.value resolvedTorus [] torusWeighables[i] (phiOnly (.array [0])) + 1 / 100

theorem torusLimits_legal : ∀ r ∈ (smoothArgs (some "slack")).requests ++ Weighable.limits torusWeighables torusLimits,
    r.name ∈ affineNames ++ convexNames ∧ LegalUse (shippedRegistry FieldProblem.fns []) (some "slack") r.name r.unit r.type := by
  intro r hr
  rcases List.mem_append.1 hr with hr | hr
  · exact smoothArgs_requests_legal _ (.inr rfl) r hr
  · obtain ⟨i, rfl⟩ := List.mem_ofFn.1 hr
    match i with
    | ⟨0, _⟩ => exact ⟨(by decide : "f_B" ∈ affineNames ++ convexNames), ⟨_, rfl, by simp [Quantity.generateC2]⟩, by simp, by simp [torusWeighables]⟩
    | ⟨1, _⟩ => exact ⟨(by decide : "f_max_Phi2" ∈ affineNames ++ convexNames), ⟨_, rfl, by simp [Quantity.generateLinf]⟩, by simp, by simp [torusWeighables]⟩

theorem torusLimits_strict : StrictlyFeasible (shippedRegistry FieldProblem.fns [])
    ((smoothArgs (some "slack")).requests ++ Weighable.limits torusWeighables torusLimits) resolvedTorus (phiOnly (.array [0])) := by
  intro r hr
  rcases List.mem_append.1 hr with hr | hr
  · exact smoothArgs_strict _ (.inr rfl) r hr
  · obtain ⟨i, rfl⟩ := List.mem_ofFn.1 hr
    refine .inl ⟨rfl, ?_⟩
    simp only
    rw [weighable_entries resolvedTorus [] resolvedTorus_resolved.plasma resolvedTorus_resolved.eval_nonneg
      (q := torusWeighables[i]) (torusWeighables_ok _ (List.getElem_mem _)).1 ⟨[0], by simp [phiOnly], by rfl⟩]
    intro x hx
    rw [List.mem_singleton.1 hx, torusLimits]
    linarith

/-- The objectives without the quantities: the current, and the largest potential. -/
noncomputable def torusRest : List (String × UnitArg × ℝ) := [("f_max_Phi", .scalar (-3), 2), ("f_K", .scalar 5, 1 / 10)]

theorem torusRest_convex : ConvexObjectives torusRest := by
  intro o ho
  simp only [torusRest, List.mem_cons, List.not_mem_nil, or_false] at ho
  rcases ho with rfl | rfl
  · exact ⟨by decide, ⟨-3, rfl, by norm_num⟩, by norm_num⟩
  · exact ⟨by decide, ⟨5, rfl, by norm_num⟩, by norm_num⟩

/-- The limits on the torus can be replaced by weights. -/
theorem torus_limits_are_weights : ∃ w : Fin torusWeighables.length → ℝ, (∀ i, 0 ≤ w i) ∧ ∀ e,
    BestForLimits resolvedTorus [] torusRest (smoothArgs (some "slack")).requests torusWeighables torusLimits e ↔
      UserMinimiser (shippedRegistry FieldProblem.fns []) (torusRest ++ Weighable.objectives torusWeighables w)
        (smoothArgs (some "slack")).requests resolvedTorus (Pot resolvedTorus) e :=
  C164_limits_are_weights resolvedTorus [] resolvedTorus_resolved torusRest_convex
    ⟨("f_K", .scalar 5, 1 / 10), by simp [torusRest], rfl, by norm_num⟩ torusWeighables_ok torusLimits_legal
    (z := phiOnly (.array [0])) ⟨[0], by simp [phiOnly], by rfl⟩ torusLimits_strict

/-- The problem with weights has a solution for all weights that are not negative. -/
theorem torus_weighted_solution {w : Fin torusWeighables.length → ℝ} (hw : ∀ i, 0 ≤ w i) : ∃ d,
    UserMinimiser (shippedRegistry FieldProblem.fns []) (torusRest ++ Weighable.objectives torusWeighables w)
      (smoothArgs (some "slack")).requests resolvedTorus (Pot resolvedTorus) d := by
  obtain ⟨c, -, h⟩ := C125_exactly_one_solution resolvedTorus [] resolvedTorus_resolved (weighted_convex torusRest_convex torusWeighables_ok hw)
    ⟨("f_K", .scalar 5, 1 / 10), by simp [torusRest], rfl, by norm_num⟩ (smoothArgs_requests_legal _ (.inr rfl))
    ⟨phiOnly (.array [0]), ⟨[0], by simp [phiOnly], by rfl⟩, (smoothArgs_strict _ (.inr rfl)).feasible⟩
  exact ⟨phiOnly (.array c), (h _).2 (by simp [phiOnly])⟩

/-- Weights 1 and 2 on the torus are the same as the limits that their solution reaches. -/
example : ∃ d, UserMinimiser (shippedRegistry FieldProblem.fns []) (torusRest ++ Weighable.objectives torusWeighables fun i => i.1 + 1)
      (smoothArgs (some "slack")).requests resolvedTorus (Pot resolvedTorus) d ∧ ∀ e,
    BestForLimits resolvedTorus [] torusRest (smoothArgs (some "slack")).requests torusWeighables
        (fun i => Weighable.value resolvedTorus [] torusWeighables[i] d) e ↔
      UserMinimiser (shippedRegistry FieldProblem.fns []) (torusRest ++ Weighable.objectives torusWeighables fun i => i.1 + 1)
        (smoothArgs (some "slack")).requests resolvedTorus (Pot resolvedTorus) e := by
  have hw : ∀ i : Fin torusWeighables.length, (0 : ℝ) ≤ i.1 + 1 := fun i => by positivity
  obtain ⟨d, hd⟩ := torus_weighted_solution hw
  exact ⟨d, hd, C164_weights_are_limits resolvedTorus [] resolvedTorus_resolved torusRest_convex
    ⟨("f_K", .scalar 5, 1 / 10), by simp [torusRest], rfl, by norm_num⟩ torusWeighables_ok (smoothArgs_requests_legal _ (.inr rfl)) hw hd⟩

/-- The hypotheses of the direction from limits to weights hold on the torus, and so do those of the direction back. -/
example : ∃ d, BestForLimits resolvedTorus [] torusRest (smoothArgs (some "slack")).requests torusWeighables torusLimits d ∧
    ∃ w : Fin torusWeighables.length → ℝ, (∀ i, 0 ≤ w i) ∧
      BestForWeights resolvedTorus [] torusRest (smoothArgs (some "slack")).requests torusWeighables w torusLimits d := by
  obtain ⟨w, hw, h⟩ := torus_limits_are_weights
  obtain ⟨d, hd⟩ := torus_weighted_solution hw
  have hd' := (h d).2 hd
  obtain ⟨w', hw', h'⟩ := C164_limits_give_weights resolvedTorus [] resolvedTorus_resolved.plasma resolvedTorus_resolved.eval_nonneg
    torusRest_convex (fun q hq => ⟨(torusWeighables_ok q hq).1, weighable_size (torusWeighables_ok q hq).2⟩) torusLimits_legal
    (z := phiOnly (.array [0])) ⟨[0], by simp [phiOnly], by rfl⟩ torusLimits_strict hd'
  exact ⟨d, hd', w', hw', (h' d).1 hd'⟩

/-- Weights 1 and 3 for the squared normal field. -/
example : ∃ d e, Weighable.value resolvedTorus [] ⟨"f_B", .scalar 2⟩ e ≤ Weighable.value resolvedTorus [] ⟨"f_B", .scalar 2⟩ d ∧
    userObjective (shippedRegistry FieldProblem.fns []) torusRest resolvedTorus d ≤
      userObjective (shippedRegistry FieldProblem.fns []) torusRest resolvedTorus e ∧
    UserMinimiser (shippedRegistry FieldProblem.fns []) (torusRest ++ [("f_B", .scalar 2, 1)])
      (smoothArgs (some "slack")).requests resolvedTorus (Pot resolvedTorus) d ∧
    UserMinimiser (shippedRegistry FieldProblem.fns []) (torusRest ++ [("f_B", .scalar 2, 3)])
      (smoothArgs (some "slack")).requests resolvedTorus (Pot resolvedTorus) e := by
  have hsol : ∀ w : ℝ, 0 ≤ w → ∃ d, UserMinimiser (shippedRegistry FieldProblem.fns []) (torusRest ++ [("f_B", .scalar 2, w)])
      (smoothArgs (some "slack")).requests resolvedTorus (Pot resolvedTorus) d := by
    intro w hw
    have hc : ConvexObjectives (torusRest ++ [("f_B", .scalar 2, w)]) := by
      intro o ho
      rcases List.mem_append.1 ho with ho | ho
      · exact torusRest_convex o ho
      · rw [List.mem_singleton.1 ho]
        exact ⟨(by decide : "f_B" ∈ objectiveNames), ⟨2, rfl, by norm_num⟩, hw⟩
    obtain ⟨c, -, h⟩ := C125_exactly_one_solution resolvedTorus [] resolvedTorus_resolved hc
      ⟨("f_K", .scalar 5, 1 / 10), by simp [torusRest], rfl, by norm_num⟩ (smoothArgs_requests_legal _ (.inr rfl))
      ⟨phiOnly (.array [0]), ⟨[0], by simp [phiOnly], by rfl⟩, (smoothArgs_strict _ (.inr rfl)).feasible⟩
    exact ⟨phiOnly (.array c), (h _).2 (by simp [phiOnly])⟩
  obtain ⟨d, hd⟩ := hsol 1 (by norm_num)
  obtain ⟨e, he⟩ := hsol 3 (by norm_num)
  obtain ⟨h1, h2⟩ := C164_trade_off resolvedTorus [] (q := ⟨"f_B", .scalar 2⟩) (by simp [UnitArg.size]) (by norm_num) (by norm_num) hd he
  exact ⟨d, e, h1, h2, hd, he⟩

/-- The call with a weight for `f_Phi` in the place of the limit. -/
noncomputable def weightedArgs (w : ℝ) : QuadcoilArgs :=
  { smoothArgs none with
    objectiveName := .many ["f_B", "f_K", "f_Phi"]
    objectiveUnit := .many [.scalar 2, .scalar (-5), .scalar 4]
    objectiveWeight := .many [1, 1 / 10, w]
    constraintName := ["Phi", "Phi"]
    constraintType := ["<=", ">="]
    constraintUnit := [.scalar 1, .scalar 1]
    constraintValue := [1, -2] }

theorem weightedArgs_convex {w : ℝ} (hw : 0 ≤ w) : ConvexCall (weightedArgs w) where
  mode := .inl rfl
  merge := rfl
  objectives := by
    intro o ho
    simp only [QuadcoilArgs.objectives, weightedArgs, objectiveList, List.zip, List.zipWith, List.mem_cons, List.not_mem_nil, or_false] at ho
    rcases ho with rfl | rfl | rfl
    · exact ⟨by decide, ⟨2, rfl, by norm_num⟩, by norm_num⟩
    · exact ⟨by decide, ⟨-5, rfl, by norm_num⟩, by norm_num⟩
    · exact ⟨(by decide : "f_Phi" ∈ objectiveNames), ⟨4, rfl, by norm_num⟩, hw⟩
  current := ⟨("f_K", .scalar (-5), 1 / 10), by simp [QuadcoilArgs.objectives, weightedArgs, objectiveList], rfl, by norm_num⟩
  constraints := by
    intro r hr
    simp only [QuadcoilArgs.requests, weightedArgs, zipRequests, List.zip, List.zipWith, List.mem_cons, List.not_mem_nil, or_false] at hr
    rcases hr with rfl | rfl
    · exact ⟨by decide, 1, rfl, by norm_num⟩
    · exact ⟨by decide, 1, rfl, by norm_num⟩
  huber := by simp [weightedArgs, smoothArgs]
  once := by simp [QuadcoilArgs.objectives, QuadcoilArgs.requests, weightedArgs, objectiveList, zipRequests, auxTable]

theorem weightedArgs_ok (w : ℝ) : ∃ S, quadcoilSetup (shippedRegistry FieldProblem.fns []) resolvedTorus (weightedArgs w) 7 = .ok S := by
  have L : ∀ {n uc : String} {q : Quantity FieldProblem}, (shipped FieldProblem.fns).lookup n = some q → uc ∈ q.compatibility →
      ∀ {u : UnitArg}, u ≠ .other → LegalUse (shippedRegistry FieldProblem.fns []) none n u uc := fun h1 h2 _ h3 =>
    legal_shipped FieldProblem.fns [] (sm := none) (by simp [knownSmoothing]) h1 h2 h3
  rw [C131_setup_succeeds_iff_legal]
  refine ⟨⟨rfl, by decide, fun i h1 h2 => ?_⟩, ⟨rfl, rfl, fun _ => rfl, fun r hr => ?_⟩, fun h => by cases h⟩
  · match i, h1 with
    | 0, _ => exact L rfl (by decide) (by simp)
    | 1, _ => exact L rfl (by decide) (by simp)
    | 2, _ => exact L rfl (by decide) (by simp)
  · simp only [QuadcoilArgs.requests, weightedArgs, zipRequests, List.zip, List.zipWith, List.mem_cons, List.not_mem_nil, or_false] at hr
    rcases hr with rfl | rfl
    · exact ⟨L rfl (by decide) (by simp), by simp⟩
    · exact ⟨L rfl (by decide) (by simp), by simp⟩

/-- The limit 3 of `f_Phi` in the call on the torus can be replaced by a weight. -/
example : ∃ w ≥ 0, ∃ S S', quadcoilSetup (shippedRegistry FieldProblem.fns []) resolvedTorus (smoothArgs none) 7 = .ok S ∧
    quadcoilSetup (shippedRegistry FieldProblem.fns []) resolvedTorus (weightedArgs w) 7 = .ok S' ∧
    ∃ c : List ℝ, (∃ x, FlatMinimiser S x) ∧ (∀ x, FlatMinimiser S x → dofsOf S.template S.phiUnit x "phi" = .array c) ∧
      (∃ x, FlatMinimiser S' x) ∧ ∀ x, FlatMinimiser S' x → dofsOf S'.template S'.phiUnit x "phi" = .array c := by
  obtain ⟨S, hS⟩ := smoothArgs_ok none (.inl rfl)
  obtain ⟨w, hw, h⟩ := C164_calls resolvedTorus [] resolvedTorus_resolved torus_bnormal (smoothArgs_convex none (.inl rfl)) (by norm_num)
    (by simp [smoothArgs]) hS (rs := [⟨"Phi", "<=", .scalar 1, 1⟩, ⟨"Phi", ">=", .scalar 1, -2⟩]) (qs := [⟨"f_Phi", .scalar 4⟩]) (v := fun _ => 3)
    (fun q hq => by rw [List.mem_singleton.1 hq]; exact ⟨by decide, 4, rfl, by norm_num⟩)
    (by simp [QuadcoilArgs.requests, smoothArgs, zipRequests, Weighable.limits]) (z := phiOnly (.array [0])) ⟨[0], by simp [phiOnly], by rfl⟩
    (smoothArgs_strict none (.inl rfl))
  obtain ⟨S', hS'⟩ := weightedArgs_ok (w 0)
  obtain ⟨c, -, h1, h2, h3, h4⟩ := h (weightedArgs_convex (hw 0))
    (by simp [QuadcoilArgs.objectives, weightedArgs, smoothArgs, objectiveList, Weighable.objectives])
    (by simp [QuadcoilArgs.requests, weightedArgs, zipRequests]) (by norm_num) (by simp [weightedArgs, smoothArgs]) hS'
  exact ⟨w 0, hw 0, S, S', hS, hS', c, h1, h2, h3, h4⟩

end Verif
