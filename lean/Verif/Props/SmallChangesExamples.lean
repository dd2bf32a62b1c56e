import Verif.Props.SmallChanges
import Verif.Props.WeightLimitExamples

namespace Verif

/-- The limits of the call on the torus, changed by at most `δ`. -/
example (sm : Option String) (hsm : sm = none ∨ sm = some "slack") : ∃ S, quadcoilSetup (shippedRegistry FieldProblem.fns []) resolvedTorus
    (smoothArgs sm) 7 = .ok S ∧ ∃ c : List ℝ, ∃ F K δ0 : ℝ, 0 ≤ K ∧ 0 < δ0 ∧ (∃ x, FlatMinimiser S x) ∧
      (∀ x, FlatMinimiser S x → dofsOf S.template S.phiUnit x "phi" = .array c ∧ S.problem.f x = F) ∧
      ∀ δ : ℝ, 0 ≤ δ → δ ≤ δ0 →
        ∃ S', quadcoilSetup (shippedRegistry FieldProblem.fns []) resolvedTorus
            ((smoothArgs sm).withValues ((smoothArgs sm).constraintValue.map fun t => t - δ)) 7 = .ok S' ∧ (∃ x, FlatMinimiser S' x) ∧
          ∀ x, FlatMinimiser S' x → ∃ k, dofsOf S'.template S'.phiUnit x "phi" = .array k ∧ sqDist c k ≤ K * δ ∧
            |S'.problem.f x - F| ≤ K * δ := by
  obtain ⟨S, hS⟩ := smoothArgs_ok sm hsm
  obtain ⟨c, F, K, δ0, h1, h2, h3, h4, h⟩ := C176_call_limits resolvedTorus [] resolvedTorus_resolved torus_bnormal (smoothArgs_convex sm hsm)
    (by norm_num) (by simp [smoothArgs]) hS (z := phiOnly (.array [0])) ⟨[0], by simp [phiOnly], by rfl⟩ (smoothArgs_strict sm hsm)
  refine ⟨S, hS, c, F, K, δ0, h1, h2, h3, h4, fun δ h5 h6 => h _ δ h5 h6 ?_⟩
  unfold NearValues
  generalize (smoothArgs sm).constraintValue = l
  induction l with
  | nil => exact .nil
  | cons t l ih => exact .cons (by rw [sub_sub_cancel_left, abs_neg, abs_of_nonneg h5]) ih

/-- The weight of `f_Phi`, changed from 1 to `1 + ε`. -/
example : ∃ μ > 0, ∀ ε : ℝ, 0 ≤ ε → ε < 1 → ∃ S S', quadcoilSetup (shippedRegistry FieldProblem.fns []) resolvedTorus (weightedArgs 1) 7 = .ok S ∧
    quadcoilSetup (shippedRegistry FieldProblem.fns []) resolvedTorus (weightedArgs (1 + ε)) 7 = .ok S' ∧
    ∃ x x', FlatMinimiser S x ∧ FlatMinimiser S' x' ∧ ∃ c k, dofsOf S.template S.phiUnit x "phi" = .array c ∧
      dofsOf S'.template S'.phiUnit x' "phi" = .array k ∧ 1 / 10 / |(-5 : ℝ)| * μ * sqDist c k ≤ 2 * ε / (1 - ε) * S.problem.f x := by
  obtain ⟨μ, hμ, h⟩ := C176_call_weights resolvedTorus [] resolvedTorus_resolved torus_bnormal
  refine ⟨μ, hμ, fun ε h0 h1 => ?_⟩
  have hzero : UserFeasible (shippedRegistry FieldProblem.fns []) (weightedArgs 1).requests resolvedTorus (phiOnly (.array [0])) := by
    have h := (smoothArgs_strict none (.inl rfl)).feasible
    have e : (smoothArgs none).requests = (weightedArgs 1).requests ++ [⟨"f_Phi", "<=", .scalar 4, 3⟩] := by
      simp [QuadcoilArgs.requests, smoothArgs, weightedArgs, zipRequests]
    rw [e] at h
    exact ((userFeasible_append resolvedTorus).1 h).1
  have hsol : ∀ w : ℝ, 0 ≤ w → ∃ S, quadcoilSetup (shippedRegistry FieldProblem.fns []) resolvedTorus (weightedArgs w) 7 = .ok S ∧
      ∃ x, FlatMinimiser S x := by
    intro w hw
    obtain ⟨S, hS⟩ := weightedArgs_ok w
    obtain ⟨c, -, hex, -⟩ := C129_solver_problem_has_one_potential resolvedTorus [] resolvedTorus_resolved torus_bnormal
      (weightedArgs_convex hw) (by norm_num) (by simp [weightedArgs, smoothArgs]) hS ⟨_, ⟨[0], by simp [phiOnly], by rfl⟩, hzero⟩
    exact ⟨S, hS, hex⟩
  obtain ⟨S, hS, x, hx⟩ := hsol 1 zero_le_one
  obtain ⟨S', hS', x', hx'⟩ := hsol (1 + ε) (by linarith)
  refine ⟨S, S', hS, hS', x, x', hx, hx', ?_⟩
  exact h (weightedArgs_convex zero_le_one) (weightedArgs_convex (w := 1 + ε) (by linarith)) (phiUnit := 7) (by norm_num)
    (by simp [weightedArgs, smoothArgs]) (by simp [weightedArgs, smoothArgs]) rfl (o := ("f_K", .scalar (-5), 1 / 10)) (u := -5)
    (by simp [QuadcoilArgs.objectives, weightedArgs, objectiveList]) rfl (by norm_num) rfl h1
    (by
      simp only [NearWeights, QuadcoilArgs.objectives, weightedArgs, objectiveList, List.zip, List.zipWith, List.forall₂_cons,
        List.forall₂_nil_left_iff, and_true, true_and]
      refine ⟨by simpa using h0, ?_, ?_⟩
      · rw [sub_self, abs_zero]
        positivity
      · rw [add_sub_cancel_left, abs_of_nonneg h0, mul_one])
    hS hS' hx hx'

/-- **C176 (hypothesis).** A potential that satisfies all constraints strictly is needed. On the torus the constraints `Phi <= 0` and `Phi >= 0` have
exactly one solution, and none if the first limit is lowered by any amount. -/
theorem C176_margin_needed : (∃ d, UserMinimiser (shippedRegistry FieldProblem.fns []) (weightedArgs 1).objectives
      [⟨"Phi", "<=", .scalar 1, 0⟩, ⟨"Phi", ">=", .scalar 1, 0⟩] resolvedTorus (Pot resolvedTorus) d) ∧
    ∀ δ > 0, ¬ ∃ d, UserMinimiser (shippedRegistry FieldProblem.fns []) (weightedArgs 1).objectives
      [⟨"Phi", "<=", .scalar 1, -δ⟩, ⟨"Phi", ">=", .scalar 1, 0⟩] resolvedTorus (Pot resolvedTorus) d := by
  have c1 : ∀ x ∈ (rawOf (shippedRegistry FieldProblem.fns []) "Phi" resolvedTorus (phiOnly (.array [0]))).entries, x = 0 := torus_Phi_zero
  constructor
  · obtain ⟨S, hS⟩ := weightedArgs_ok 1
    have hl := ((C131_setup_succeeds_iff_legal [] resolvedTorus (weightedArgs 1) 7).1 ⟨S, hS⟩).2.1.2.2.2
    obtain ⟨c, -, h⟩ := C125_exactly_one_solution resolvedTorus [] resolvedTorus_resolved (weightedArgs_convex zero_le_one).objectives
      (weightedArgs_convex zero_le_one).current (rs := [⟨"Phi", "<=", .scalar 1, 0⟩, ⟨"Phi", ">=", .scalar 1, 0⟩]) (sm := none) (by
        intro r hr
        simp only [List.mem_cons, List.not_mem_nil, or_false] at hr
        rcases hr with rfl | rfl
        · exact ⟨by decide, (hl ⟨"Phi", "<=", .scalar 1, 1⟩ (by simp [QuadcoilArgs.requests, weightedArgs, zipRequests])).1⟩
        · exact ⟨by decide, (hl ⟨"Phi", ">=", .scalar 1, -2⟩ (by simp [QuadcoilArgs.requests, weightedArgs, zipRequests])).1⟩)
      ⟨phiOnly (.array [0]), ⟨[0], by simp [phiOnly], by rfl⟩, by
        intro r hr
        simp only [List.mem_cons, List.not_mem_nil, or_false] at hr
        rcases hr with rfl | rfl
        · simp only [FieldConstraint, String.reduceEq, forall_const, false_imp_iff, and_true]
          exact fun x hx => (c1 x hx).le
        · simp only [FieldConstraint, String.reduceEq, forall_const, false_imp_iff, and_true, true_and]
          exact fun x hx => (c1 x hx).ge⟩
    exact ⟨phiOnly (.array c), (h _).2 (by simp [phiOnly])⟩
  · rintro δ hδ ⟨d, -, hf, -⟩
    have h1 := hf ⟨"Phi", "<=", .scalar 1, -δ⟩ (by simp)
    have h2 := hf ⟨"Phi", ">=", .scalar 1, 0⟩ (by simp)
    simp only [FieldConstraint, String.reduceEq, forall_const, false_imp_iff, and_true, true_and] at h1 h2
    have hne : (rawOf (shippedRegistry FieldProblem.fns []) "Phi" resolvedTorus d).entries ≠ [] := by
      show FieldProblem.fns.Phi resolvedTorus d ≠ []
      simp [FieldProblem.fns, FieldProblem.evalGrid, gridPoints, resolvedTorus, linspace0, List.range_succ]
    obtain ⟨x, hx⟩ := List.exists_mem_of_ne_nil _ hne
    linarith [h1 x hx, h2 x hx]

end Verif
