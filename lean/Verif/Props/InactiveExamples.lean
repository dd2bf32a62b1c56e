import Verif.Props.Inactive
import Verif.Props.WeightLimitExamples

/-!
# C166 on the torus
-/

namespace Verif

/-- The call on the torus with one more limit. -/
noncomputable def limitedArgs (v : ℝ) : QuadcoilArgs :=
  { weightedArgs 1 with
    constraintName := ["Phi", "Phi", "f_K"]
    constraintType := ["<=", ">=", "<="]
    constraintUnit := [.scalar 1, .scalar 1, .scalar 7]
    constraintValue := [1, -2, v] }

theorem limitedArgs_convex (v : ℝ) : ConvexCall (limitedArgs v) where
  mode := .inl rfl
  merge := rfl
  objectives := (weightedArgs_convex zero_le_one).objectives
  current := (weightedArgs_convex zero_le_one).current
  constraints := by
    intro r hr
    simp only [QuadcoilArgs.requests, limitedArgs, zipRequests, List.zip, List.zipWith, List.mem_cons, List.not_mem_nil, or_false] at hr
    rcases hr with rfl | rfl | rfl
    · exact ⟨by decide, 1, rfl, by norm_num⟩
    · exact ⟨by decide, 1, rfl, by norm_num⟩
    · exact ⟨(by decide : "f_K" ∈ affineNames ++ convexNames), 7, rfl, by norm_num⟩
  huber := by simp [limitedArgs, weightedArgs, smoothArgs]
  once := by simp [QuadcoilArgs.objectives, QuadcoilArgs.requests, limitedArgs, weightedArgs, objectiveList, zipRequests, auxTable]

theorem limitedArgs_ok (v : ℝ) : ∃ S, quadcoilSetup (shippedRegistry FieldProblem.fns []) resolvedTorus (limitedArgs v) 7 = .ok S := by
  have L : ∀ {n uc : String} {q : Quantity FieldProblem}, (shipped FieldProblem.fns).lookup n = some q → uc ∈ q.compatibility →
      ∀ {u : UnitArg}, u ≠ .other → LegalUse (shippedRegistry FieldProblem.fns []) none n u uc := fun h1 h2 _ h3 =>
    legal_shipped FieldProblem.fns [] (sm := none) (by simp [knownSmoothing]) h1 h2 h3
  rw [C131_setup_succeeds_iff_legal]
  refine ⟨⟨rfl, by decide, fun i h1 h2 => ?_⟩, ⟨rfl, rfl, fun _ => rfl, fun r hr => ?_⟩, fun h => by cases h⟩
  · match i, h1 with
    | 0, _ => exact L rfl (by decide) (by simp)
    | 1, _ => exact L rfl (by decide) (by simp)
    | 2, _ => exact L rfl (by decide) (by simp)
  · simp only [QuadcoilArgs.requests, limitedArgs, zipRequests, List.zip, List.zipWith, List.mem_cons, List.not_mem_nil, or_false] at hr
    rcases hr with rfl | rfl | rfl
    · exact ⟨L rfl (by decide) (by simp), by simp⟩
    · exact ⟨L rfl (by decide) (by simp), by simp⟩
    · exact ⟨L rfl (by simp [Quantity.generateC2]) (by simp), by simp⟩

theorem limitedArgs_requests (v : ℝ) : (limitedArgs v).requests = (weightedArgs 1).requests ++ [⟨"f_K", "<=", .scalar 7, v⟩] := by
  simp [QuadcoilArgs.requests, limitedArgs, weightedArgs, zipRequests]

/-- There is a limit of `f_K` that the solution satisfies strictly, and the call with this limit and the call without it agree. -/
example : ∃ v, ∃ S S', quadcoilSetup (shippedRegistry FieldProblem.fns []) resolvedTorus (limitedArgs v) 7 = .ok S ∧
    quadcoilSetup (shippedRegistry FieldProblem.fns []) resolvedTorus (weightedArgs 1) 7 = .ok S' ∧ (∃ x, FlatMinimiser S x) ∧ (∃ y, FlatMinimiser S' y) ∧
    ∀ x, FlatMinimiser S x →
      StrictlyFeasible (shippedRegistry FieldProblem.fns []) [⟨"f_K", "<=", .scalar 7, v⟩] resolvedTorus (dofsOf S.template S.phiUnit x) ∧
      ∀ y, FlatMinimiser S' y → dofsOf S'.template S'.phiUnit y "phi" = dofsOf S.template S.phiUnit x "phi" := by
  have hzero : UserFeasible (shippedRegistry FieldProblem.fns []) (weightedArgs 1).requests resolvedTorus (phiOnly (.array [0])) := by
    have h := (smoothArgs_strict none (.inl rfl)).feasible
    have e : (smoothArgs none).requests = (weightedArgs 1).requests ++ [⟨"f_Phi", "<=", .scalar 4, 3⟩] := by
      simp [QuadcoilArgs.requests, smoothArgs, weightedArgs, zipRequests]
    rw [e] at h
    exact ((userFeasible_append resolvedTorus).1 h).1
  obtain ⟨S', hS'⟩ := weightedArgs_ok 1
  obtain ⟨c, hcl, hex, hall, huser⟩ := C129_solver_problem_has_one_potential resolvedTorus [] resolvedTorus_resolved torus_bnormal
    (weightedArgs_convex zero_le_one) (by norm_num) (by simp [weightedArgs, smoothArgs]) hS' ⟨_, ⟨[0], by simp [phiOnly], by rfl⟩, hzero⟩
  let v := Weighable.value resolvedTorus [] ⟨"f_K", .scalar 7⟩ (phiOnly (.array c)) + 1
  have hent : ∀ d : Dofs, d "phi" = .array c → (rawOf (shippedRegistry FieldProblem.fns []) "f_K" resolvedTorus d).entries =
      [Weighable.value resolvedTorus [] ⟨"f_K", .scalar 7⟩ (phiOnly (.array c))] := by
    intro d hd
    have h1 := weighable_entries resolvedTorus [] resolvedTorus_resolved.plasma resolvedTorus_resolved.eval_nonneg (q := ⟨"f_K", .scalar 7⟩)
      (by decide) (d := phiOnly (.array c)) ⟨c, by simp [phiOnly], hcl⟩
    obtain ⟨q, hq, -⟩ := objective_value resolvedTorus resolvedTorus_resolved.plasma resolvedTorus_resolved.eval_nonneg "f_K" (by decide)
    rw [← h1, rawOf_shipped resolvedTorus [] hq hd, rawOf_shipped resolvedTorus [] hq (c := c) (by simp [phiOnly])]
  have hstrict : ∀ d : Dofs, d "phi" = .array c →
      StrictlyFeasible (shippedRegistry FieldProblem.fns []) [⟨"f_K", "<=", .scalar 7, v⟩] resolvedTorus d := by
    intro d hd r hr
    rw [List.mem_singleton.1 hr]
    refine .inl ⟨rfl, fun x hx => ?_⟩
    simp only at hx
    rw [hent d hd, List.mem_singleton] at hx
    rw [hx]
    simp only [v]
    linarith
  obtain ⟨S, hS⟩ := limitedArgs_ok v
  have hmin : UserMinimiser (shippedRegistry FieldProblem.fns []) (weightedArgs 1).objectives (limitedArgs v).requests resolvedTorus
      (Pot resolvedTorus) (phiOnly (.array c)) := by
    rw [limitedArgs_requests]
    have h1 := (huser (phiOnly (.array c))).2 (by simp [phiOnly])
    have h2 := (hstrict (phiOnly (.array c)) (by simp [phiOnly])).feasible
    exact (C166_add resolvedTorus h1 h2 _).2 ⟨h1, h2⟩
  obtain ⟨c', hcl', hexl, halll, huserl⟩ := C129_solver_problem_has_one_potential resolvedTorus [] resolvedTorus_resolved torus_bnormal
    (limitedArgs_convex v) (by norm_num) (by simp [limitedArgs, weightedArgs, smoothArgs]) hS ⟨_, hmin.1, hmin.2.1⟩
  have hcc := (huserl _).1 hmin
  simp only [phiOnly, if_true] at hcc
  refine ⟨v, S, S', hS, hS', hexl, hex, fun x hx => ?_⟩
  have hxc : dofsOf S.template S.phiUnit x "phi" = .array c := by rw [(halll x hx).1, hcc]
  have hst := hstrict _ hxc
  exact ⟨hst, (C166_calls resolvedTorus [] resolvedTorus_resolved torus_bnormal (limitedArgs_convex v) (weightedArgs_convex zero_le_one)
    (by norm_num) (by norm_num) (by simp [limitedArgs, weightedArgs, smoothArgs]) (by simp [weightedArgs, smoothArgs]) hS hS' rfl
    (limitedArgs_requests v) hx ⟨_, hmin.1, hmin.2.1⟩ hst).2⟩

end Verif
