import Verif.Props.Inactive
import Verif.Props.InactiveExamples
import Verif.Props.ObjectiveRatio
import Verif.Props.ApproxRate

/-!
# C174: the solution depends on what is asked, not on how
-/

namespace Verif

variable (Q : FieldProblem)

/-! ## Ways to write the same constraints -/

/-- What a request asks for. The unit is left out. -/
def Request.key (r : Request) : String × String × ℝ := (r.name, r.type, r.value)

variable {Q} {reg : Registry FieldProblem} {d : Dofs} {rs ss : List Request}

/-- **C174.** Units, order and repetitions of constraints do not matter. -/
theorem C174_same_requests (h : ∀ k, k ∈ rs.map Request.key ↔ k ∈ ss.map Request.key) : UserFeasible reg rs Q d ↔ UserFeasible reg ss Q d := by
  have key : ∀ {rs ss : List Request}, (∀ k, k ∈ ss.map Request.key → k ∈ rs.map Request.key) → UserFeasible reg rs Q d →
      UserFeasible reg ss Q d := by
    intro rs ss h hf s hs
    obtain ⟨r, hr, e⟩ := List.mem_map.1 (h _ (List.mem_map_of_mem hs))
    simp only [Request.key, Prod.mk.injEq] at e
    obtain ⟨e1, e2, e3⟩ := e
    have := hf r hr
    rwa [e1, e2, e3] at this
  exact ⟨key fun k => (h k).2, key fun k => (h k).1⟩

/-- **C174.** An equality is an upper and a lower limit. -/
theorem C174_equality (n : String) (v : ℝ) (u u1 u2 : UnitArg) :
    UserFeasible reg [⟨n, "==", u, v⟩] Q d ↔ UserFeasible reg [⟨n, "<=", u1, v⟩, ⟨n, ">=", u2, v⟩] Q d := by
  simp only [UserFeasible, List.mem_cons, List.not_mem_nil, or_false, forall_eq_or_imp, forall_eq, FieldConstraint, String.reduceEq, IsEmpty.forall_iff,
    forall_const, true_and, and_true]
  exact ⟨fun h => ⟨fun x hx => (h x hx).le, fun x hx => (h x hx).ge⟩, fun h x hx => le_antisymm (h.1 x hx) (h.2 x hx)⟩

/-- **C174.** Of two upper limits the smaller one counts. -/
theorem C174_smaller_limit (n : String) (v w : ℝ) (u u1 u2 : UnitArg) :
    UserFeasible reg [⟨n, "<=", u, min v w⟩] Q d ↔ UserFeasible reg [⟨n, "<=", u1, v⟩, ⟨n, "<=", u2, w⟩] Q d := by
  simp only [UserFeasible, List.mem_cons, List.not_mem_nil, or_false, forall_eq_or_imp, forall_eq, FieldConstraint, String.reduceEq, IsEmpty.forall_iff,
    forall_const, and_true, le_min_iff]
  exact ⟨fun h => ⟨fun x hx => (h x hx).1, fun x hx => (h x hx).2⟩, fun h x hx => ⟨h.1 x hx, h.2 x hx⟩⟩

/-- **C174.** A limit of the largest magnitude is an upper and a lower limit, for the potential and for the normal field. -/
theorem C174_maximum (others : List String) (v : ℝ) (u u1 u2 : UnitArg) :
    (FieldProblem.fns.Phi Q d ≠ [] →
      (UserFeasible (shippedRegistry FieldProblem.fns others) [⟨"f_max_Phi", "<=", u, v⟩] Q d ↔
        UserFeasible (shippedRegistry FieldProblem.fns others) [⟨"Phi", "<=", u1, v⟩, ⟨"Phi", ">=", u2, -v⟩] Q d)) ∧
    (FieldProblem.fns.Bnormal Q d ≠ [] →
      (UserFeasible (shippedRegistry FieldProblem.fns others) [⟨"f_max_Bnormal", "<=", u, v⟩] Q d ↔
        UserFeasible (shippedRegistry FieldProblem.fns others) [⟨"Bnormal", "<=", u1, v⟩, ⟨"Bnormal", ">=", u2, -v⟩] Q d)) := by
  have key : ∀ l : List ℝ, l ≠ [] → (Quantity.maxAbs (.array l) ≤ v ↔ (∀ x ∈ l, x ≤ v) ∧ ∀ x ∈ l, -v ≤ x) := by
    intro l hl
    rw [maxAbs_spec (v := .array l) hl]
    exact ⟨fun h => ⟨fun x hx => (abs_le.1 (h x hx)).2, fun x hx => (abs_le.1 (h x hx)).1⟩, fun h x hx => abs_le.2 ⟨h.2 x hx, h.1 x hx⟩⟩
  constructor <;> intro hl
  · have e1 : rawOf (shippedRegistry FieldProblem.fns others) "f_max_Phi" Q d = .scalar (Quantity.maxAbs (.array (FieldProblem.fns.Phi Q d))) := rfl
    have e2 : rawOf (shippedRegistry FieldProblem.fns others) "Phi" Q d = .array (FieldProblem.fns.Phi Q d) := rfl
    simp only [UserFeasible, List.mem_cons, List.not_mem_nil, or_false, forall_eq_or_imp, forall_eq, FieldConstraint, String.reduceEq,
      IsEmpty.forall_iff, forall_const, and_true, true_and, e1, e2, Val.entries]
    exact key _ hl
  · have e1 : rawOf (shippedRegistry FieldProblem.fns others) "f_max_Bnormal" Q d =
        .scalar (Quantity.maxAbs (.array (FieldProblem.fns.Bnormal Q d))) := rfl
    have e2 : rawOf (shippedRegistry FieldProblem.fns others) "Bnormal" Q d = .array (FieldProblem.fns.Bnormal Q d) := rfl
    simp only [UserFeasible, List.mem_cons, List.not_mem_nil, or_false, forall_eq_or_imp, forall_eq, FieldConstraint, String.reduceEq,
      IsEmpty.forall_iff, forall_const, and_true, true_and, e1, e2, Val.entries]
    exact key _ hl

/-- **C174.** A limit of the largest square, and one of all squares, is a limit of the largest magnitude. -/
theorem C174_squares (others : List String) (hE : FieldProblem.fns.Phi Q d ≠ []) {v : ℝ} (hv : 0 ≤ v) (u u1 u2 : UnitArg) :
    (UserFeasible (shippedRegistry FieldProblem.fns others) [⟨"f_max_Phi2", "<=", u, v ^ 2⟩] Q d ↔
      UserFeasible (shippedRegistry FieldProblem.fns others) [⟨"f_max_Phi", "<=", u1, v⟩] Q d) ∧
    (UserFeasible (shippedRegistry FieldProblem.fns others) [⟨"Phi2", "<=", u2, v ^ 2⟩] Q d ↔
      UserFeasible (shippedRegistry FieldProblem.fns others) [⟨"f_max_Phi", "<=", u1, v⟩] Q d) := by
  have e1 : rawOf (shippedRegistry FieldProblem.fns others) "f_max_Phi" Q d = .scalar (Quantity.maxAbs (.array (FieldProblem.fns.Phi Q d))) := rfl
  have e2 : rawOf (shippedRegistry FieldProblem.fns others) "f_max_Phi2" Q d =
    .scalar (Quantity.maxAbs (.array (FieldProblem.fns.Phi Q d)) ^ 2) := rfl
  have e3 : rawOf (shippedRegistry FieldProblem.fns others) "Phi2" Q d = .array ((FieldProblem.fns.Phi Q d).map fun x => x ^ 2) := by
    show Val.array (Q.evalGrid.map fun q => Q.cp.Phi (coefs d) q.1 q.2 ^ 2) = _
    show _ = Val.array ((Q.evalGrid.map fun q => Q.cp.Phi (coefs d) q.1 q.2).map fun x => x ^ 2)
    rw [List.map_map]
    rfl
  have h0 := maxAbs_nonneg (v := .array (FieldProblem.fns.Phi Q d)) hE
  simp only [UserFeasible, List.mem_cons, List.not_mem_nil, or_false, forall_eq, FieldConstraint, String.reduceEq,
    IsEmpty.forall_iff, forall_const, and_true, e1, e2, e3, Val.entries]
  refine ⟨pow_le_pow_iff_left₀ h0 hv two_ne_zero, ?_⟩
  rw [maxAbs_spec (v := .array (FieldProblem.fns.Phi Q d)) hE]
  simp only [List.mem_map, forall_exists_index, and_imp, forall_apply_eq_imp_iff₂, Val.entries]
  exact ⟨fun h x hx => abs_le_of_sq_le_sq (h x hx) hv, fun h x hx => sq_le_sq' (abs_le.1 (h x hx)).1 (abs_le.1 (h x hx)).2⟩

/-- **C174.** All weights may be multiplied by the same number. -/
theorem C174_common_factor (k : ℝ) (objs : List (String × UnitArg × ℝ)) :
    userObjective reg (objs.map fun o => (o.1, o.2.1, k * o.2.2)) Q d = k * userObjective reg objs Q d := by
  rw [userObjective, userObjective, ← List.sum_map_mul_left, List.map_map]
  congr 1
  exact List.map_congr_left fun o _ => by simp only [Function.comp_apply]; ring

/-! ## Calls -/

variable (Q) (others : List String)

/-- **C174.** Two calls whose constraints allow the same potentials, and whose objectives order the allowed ones in the same way, have the same
solution, whatever their modes, units, initial potentials and scales of the potential. -/
theorem C174_calls {A B : ℕ} (R : Resolved Q A B) (hB : ∀ c, Q.bnormal c ≠ []) {a b : QuadcoilArgs} (ha : ConvexCall a) (hb : ConvexCall b)
    {phiUnit phiUnit' : ℝ} (hu : phiUnit ≠ 0) (hu' : phiUnit' ≠ 0) (hinit : ∀ p, a.phiInit = some p → p.length = HasQp.ndofs Q)
    (hinit' : ∀ p, b.phiInit = some p → p.length = HasQp.ndofs Q) {S S' : Setup}
    (hs : quadcoilSetup (shippedRegistry FieldProblem.fns others) Q a phiUnit = .ok S)
    (hs' : quadcoilSetup (shippedRegistry FieldProblem.fns others) Q b phiUnit' = .ok S')
    (hfeas : ∃ d, Pot Q d ∧ UserFeasible (shippedRegistry FieldProblem.fns others) a.requests Q d)
    (hcons : ∀ d, Pot Q d → (UserFeasible (shippedRegistry FieldProblem.fns others) a.requests Q d ↔
      UserFeasible (shippedRegistry FieldProblem.fns others) b.requests Q d))
    (hobj : ∀ d e, Pot Q d → Pot Q e → UserFeasible (shippedRegistry FieldProblem.fns others) a.requests Q d →
      UserFeasible (shippedRegistry FieldProblem.fns others) a.requests Q e →
      (userObjective (shippedRegistry FieldProblem.fns others) a.objectives Q d ≤ userObjective (shippedRegistry FieldProblem.fns others) a.objectives Q e ↔
        userObjective (shippedRegistry FieldProblem.fns others) b.objectives Q d ≤
          userObjective (shippedRegistry FieldProblem.fns others) b.objectives Q e)) :
    ∃ c : List ℝ, c.length = HasQp.ndofs Q ∧ (∃ x, FlatMinimiser S x) ∧ (∃ y, FlatMinimiser S' y) ∧
      (∀ x, FlatMinimiser S x → dofsOf S.template S.phiUnit x "phi" = .array c) ∧
      ∀ y, FlatMinimiser S' y → dofsOf S'.template S'.phiUnit y "phi" = .array c := by
  obtain ⟨c, hcl, hex, hall, huser⟩ := C129_solver_problem_has_one_potential Q others R hB ha hu hinit hs hfeas
  obtain ⟨c', -, hex', hall', huser'⟩ := C129_solver_problem_has_one_potential Q others R hB hb hu' hinit' hs'
    (hfeas.imp fun d hd => ⟨hd.1, (hcons d hd.1).1 hd.2⟩)
  obtain ⟨h1, h2, h3⟩ := (huser (phiOnly (.array c))).2 (by simp [phiOnly])
  have hmin : UserMinimiser (shippedRegistry FieldProblem.fns others) b.objectives b.requests Q (Pot Q) (phiOnly (.array c)) :=
    ⟨h1, (hcons _ h1).1 h2, fun e hp he => (hobj _ e h1 hp h2 ((hcons e hp).2 he)).1 (h3 e hp ((hcons e hp).2 he))⟩
  have hcc := (huser' _).1 hmin
  simp only [phiOnly, if_true, Val.array.injEq] at hcc
  exact ⟨c, hcl, hex, hex', fun x hx => (hall x hx).1, fun y hy => by rw [(hall' y hy).1, hcc]⟩

/-- **C174.** In particular: the same requests in any order, with any units, any number of times, in either mode, with objectives that have the same
ratios of weight and unit up to a common factor. -/
theorem C174_rewritten {A B : ℕ} (R : Resolved Q A B) (hB : ∀ c, Q.bnormal c ≠ []) {a b : QuadcoilArgs} (ha : ConvexCall a) (hb : ConvexCall b)
    {phiUnit phiUnit' : ℝ} (hu : phiUnit ≠ 0) (hu' : phiUnit' ≠ 0) (hinit : ∀ p, a.phiInit = some p → p.length = HasQp.ndofs Q)
    (hinit' : ∀ p, b.phiInit = some p → p.length = HasQp.ndofs Q) {S S' : Setup}
    (hs : quadcoilSetup (shippedRegistry FieldProblem.fns others) Q a phiUnit = .ok S)
    (hs' : quadcoilSetup (shippedRegistry FieldProblem.fns others) Q b phiUnit' = .ok S')
    (hfeas : ∃ d, Pot Q d ∧ UserFeasible (shippedRegistry FieldProblem.fns others) a.requests Q d)
    (hcons : ∀ k, k ∈ a.requests.map Request.key ↔ k ∈ b.requests.map Request.key) {k : ℝ} (hk : 0 < k)
    (hobj : ∀ n, totalRatio (b.objectives.map fun o => ⟨o.1, o.2.1, o.2.2⟩) n = k * totalRatio (a.objectives.map fun o => ⟨o.1, o.2.1, o.2.2⟩) n) :
    ∃ c : List ℝ, c.length = HasQp.ndofs Q ∧ (∃ x, FlatMinimiser S x) ∧ (∃ y, FlatMinimiser S' y) ∧
      (∀ x, FlatMinimiser S x → dofsOf S.template S.phiUnit x "phi" = .array c) ∧
      ∀ y, FlatMinimiser S' y → dofsOf S'.template S'.phiUnit y "phi" = .array c := by
  have hsame : ∀ d, userObjective (shippedRegistry FieldProblem.fns others) b.objectives Q d =
      k * userObjective (shippedRegistry FieldProblem.fns others) a.objectives Q d := by
    intro d
    have hr : ∀ n, totalRatio (b.objectives.map fun o => ⟨o.1, o.2.1, o.2.2⟩) n =
        totalRatio (a.objectives.map fun o => ⟨o.1, o.2.1, k * o.2.2⟩) n := by
      intro n
      rw [hobj, totalRatio, totalRatio, List.filter_map, List.filter_map, List.map_map, List.map_map, ← List.sum_map_mul_left]
      congr 1
      exact List.map_congr_left fun o _ => by simp only [Function.comp_apply]; ring
    have h := C165_user_objective (shippedRegistry FieldProblem.fns others) Q d hr
    simp only [List.map_map, Function.comp_def, Prod.mk.eta, List.map_id'] at h
    rw [h, C174_common_factor]
  exact C174_calls Q others R hB ha hb hu hu' hinit hinit' hs hs' hfeas (fun d _ => C174_same_requests hcons)
    fun d e _ _ _ _ => by rw [hsame, hsame, mul_le_mul_iff_right₀ hk]

/-! ## Example -/

/-- The call on the torus with other units, other weights, one constraint twice, and with auxiliary variables. -/
noncomputable def rewrittenArgs : QuadcoilArgs :=
  { weightedArgs 1 with
    smoothing := some "slack"
    objectiveName := .many ["f_Phi", "f_K", "f_B"]
    objectiveUnit := .many [.scalar 2, .scalar 5, .scalar 1]
    objectiveWeight := .many [1, 1 / 5, 1]
    constraintName := ["Phi", "Phi", "Phi"]
    constraintType := [">=", "<=", ">="]
    constraintUnit := [.scalar 3, .scalar (-1), .scalar 8]
    constraintValue := [-2, 1, -2] }

theorem rewrittenArgs_convex : ConvexCall rewrittenArgs where
  mode := .inr rfl
  merge := rfl
  objectives := by
    intro o ho
    simp only [QuadcoilArgs.objectives, rewrittenArgs, objectiveList, List.zip, List.zipWith, List.mem_cons, List.not_mem_nil, or_false] at ho
    rcases ho with rfl | rfl | rfl
    · exact ⟨(by decide : "f_Phi" ∈ objectiveNames), ⟨2, rfl, by norm_num⟩, by norm_num⟩
    · exact ⟨by decide, ⟨5, rfl, by norm_num⟩, by norm_num⟩
    · exact ⟨by decide, ⟨1, rfl, by norm_num⟩, by norm_num⟩
  current := ⟨("f_K", .scalar 5, 1 / 5), by simp [QuadcoilArgs.objectives, rewrittenArgs, objectiveList], rfl, by norm_num⟩
  constraints := by
    intro r hr
    simp only [QuadcoilArgs.requests, rewrittenArgs, zipRequests, List.zip, List.zipWith, List.mem_cons, List.not_mem_nil, or_false] at hr
    rcases hr with rfl | rfl | rfl
    · exact ⟨by decide, 3, rfl, by norm_num⟩
    · exact ⟨by decide, -1, rfl, by norm_num⟩
    · exact ⟨by decide, 8, rfl, by norm_num⟩
  huber := by simp [QuadcoilArgs.objectives, QuadcoilArgs.requests, rewrittenArgs, objectiveList, zipRequests]
  once := by simp [QuadcoilArgs.objectives, QuadcoilArgs.requests, rewrittenArgs, objectiveList, zipRequests, auxTable]

theorem rewrittenArgs_ok : ∃ S, quadcoilSetup (shippedRegistry FieldProblem.fns []) resolvedTorus rewrittenArgs 9 = .ok S := by
  have L : ∀ {n uc : String} {q : Quantity FieldProblem}, (shipped FieldProblem.fns).lookup n = some q → uc ∈ q.compatibility →
      ∀ {u : UnitArg}, u ≠ .other → LegalUse (shippedRegistry FieldProblem.fns []) (some "slack") n u uc := fun h1 h2 _ h3 =>
    legal_shipped FieldProblem.fns [] (sm := some "slack") (by simp [knownSmoothing]) h1 h2 h3
  rw [C131_setup_succeeds_iff_legal]
  refine ⟨⟨rfl, by decide, fun i h1 h2 => ?_⟩, ⟨rfl, rfl, fun _ => rfl, fun r hr => ?_⟩, fun h => by cases h⟩
  · match i, h1 with
    | 0, _ => exact L rfl (by decide) (by simp)
    | 1, _ => exact L rfl (by decide) (by simp)
    | 2, _ => exact L rfl (by decide) (by simp)
  · simp only [QuadcoilArgs.requests, rewrittenArgs, zipRequests, List.zip, List.zipWith, List.mem_cons, List.not_mem_nil, or_false] at hr
    rcases hr with rfl | rfl | rfl
    · exact ⟨L rfl (by decide) (by simp), by simp⟩
    · exact ⟨L rfl (by decide) (by simp), by simp⟩
    · exact ⟨L rfl (by decide) (by simp), by simp⟩

/-- The two calls have the same solution. -/
example : ∃ S S', quadcoilSetup (shippedRegistry FieldProblem.fns []) resolvedTorus (weightedArgs 1) 7 = .ok S ∧
    quadcoilSetup (shippedRegistry FieldProblem.fns []) resolvedTorus rewrittenArgs 9 = .ok S' ∧
    ∃ c : List ℝ, (∃ x, FlatMinimiser S x) ∧ (∃ y, FlatMinimiser S' y) ∧ (∀ x, FlatMinimiser S x → dofsOf S.template S.phiUnit x "phi" = .array c) ∧
      ∀ y, FlatMinimiser S' y → dofsOf S'.template S'.phiUnit y "phi" = .array c := by
  obtain ⟨S, hS⟩ := weightedArgs_ok 1
  obtain ⟨S', hS'⟩ := rewrittenArgs_ok
  have hzero : UserFeasible (shippedRegistry FieldProblem.fns []) (weightedArgs 1).requests resolvedTorus (phiOnly (.array [0])) := by
    have h := (smoothArgs_strict none (.inl rfl)).feasible
    have e : (smoothArgs none).requests = (weightedArgs 1).requests ++ [⟨"f_Phi", "<=", .scalar 4, 3⟩] := by
      simp [QuadcoilArgs.requests, smoothArgs, weightedArgs, zipRequests]
    rw [e] at h
    exact ((userFeasible_append resolvedTorus).1 h).1
  obtain ⟨c, -, h⟩ := C174_rewritten resolvedTorus [] resolvedTorus_resolved torus_bnormal (weightedArgs_convex zero_le_one) rewrittenArgs_convex
    (by norm_num) (by norm_num) (by simp [weightedArgs, smoothArgs]) (by simp [rewrittenArgs, weightedArgs, smoothArgs]) hS hS'
    ⟨_, ⟨[0], by simp [phiOnly], by rfl⟩, hzero⟩ (fun k => by
      simp only [QuadcoilArgs.requests, weightedArgs, rewrittenArgs, zipRequests, List.zip, List.zipWith, List.map_cons, List.map_nil, Request.key,
        List.mem_cons, List.not_mem_nil, or_false]
      constructor
      · rintro (h | h)
        · exact .inr (.inl h)
        · exact .inl h
      · rintro (h | h | h)
        · exact .inr h
        · exact .inl h
        · exact .inr h) (k := 2) (by norm_num) (fun n => by
      simp only [QuadcoilArgs.objectives, weightedArgs, rewrittenArgs, objectiveList, List.zip, List.zipWith, List.map_cons, List.map_nil, totalRatio]
      by_cases h1 : "f_B" = n
      · subst h1
        simp only [List.filter_cons, String.reduceEq, decide_true, decide_false, if_true, Bool.false_eq_true, if_false, List.filter_nil]
        norm_num [UnitArg.size]
      · by_cases h2 : "f_K" = n
        · subst h2
          simp only [List.filter_cons, String.reduceEq, decide_true, decide_false, if_true, Bool.false_eq_true, if_false, List.filter_nil]
          norm_num [UnitArg.size]
        · by_cases h3 : "f_Phi" = n
          · subst h3
            simp only [List.filter_cons, String.reduceEq, decide_true, decide_false, if_true, Bool.false_eq_true, if_false, List.filter_nil]
            norm_num [UnitArg.size]
          · simp [h1, h2, h3])
  exact ⟨S, S', hS, hS', c, h⟩

/-- The potential on the torus has values. -/
example (d : Dofs) : UserFeasible (shippedRegistry FieldProblem.fns []) [⟨"f_max_Phi", "<=", .scalar 3, 1⟩] resolvedTorus d ↔
    UserFeasible (shippedRegistry FieldProblem.fns []) [⟨"Phi", "<=", .scalar 1, 1⟩, ⟨"Phi", ">=", .scalar 2, -1⟩] resolvedTorus d :=
  (C174_maximum [] 1 _ _ _).1 fun h => resolvedTorus_resolved.evalGrid_ne (by
    have h' : (resolvedTorus.evalGrid.map fun q => resolvedTorus.cp.Phi (coefs d) q.1 q.2) = [] := h
    exact List.map_eq_nil_iff.1 h')

end Verif
