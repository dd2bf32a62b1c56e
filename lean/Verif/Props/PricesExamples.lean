import Verif.Props.CallPrices
import Verif.Props.ReturnedPotentialExamples

/-!
# C143 on the torus
-/

namespace Verif

theorem smoothArgs_requests_legal (sm : Option String) (hsm : sm = none ∨ sm = some "slack") :
    ∀ r ∈ (smoothArgs sm).requests, r.name ∈ affineNames ++ convexNames ∧
      LegalUse (shippedRegistry FieldProblem.fns []) sm r.name r.unit r.type := by
  obtain ⟨S, hS⟩ := smoothArgs_ok sm hsm
  have h := ((C131_setup_succeeds_iff_legal [] resolvedTorus (smoothArgs sm) 7).1 ⟨S, hS⟩).2.1.2.2.2
  intro r hr
  exact ⟨((smoothArgs_smooth sm hsm).constraints r hr).1.lookup, (h r hr).1⟩

/-- Values that are weaker by `t`. -/
noncomputable def relaxed (rs : List Request) (t : ℝ) : Fin rs.length → ℝ :=
  fun i => if rs[i].type = ">=" then rs[i].value - t else rs[i].value + t

theorem relaxed_feasible {reg : Registry FieldProblem} {rs : List Request} {Q : FieldProblem} {d : Dofs} (h : StrictlyFeasible reg rs Q d)
    {t : ℝ} (ht : 0 ≤ t) : UserFeasible reg (withValues rs (relaxed rs t)) Q d := by
  rw [feasible_withValues]
  intro i
  rcases h rs[i] (List.getElem_mem _) with ⟨hty, h1⟩ | ⟨hty, h1⟩
  · simp only [FieldConstraint, relaxed, hty, String.reduceEq, if_false, forall_const, false_imp_iff, and_true]
    exact fun x hx => by linarith [h1 x hx]
  · simp only [FieldConstraint, relaxed, hty, String.reduceEq, if_true, forall_const, false_imp_iff, and_true, true_and]
    exact fun x hx => by linarith [h1 x hx]

/-- The call on the torus has a solution for the given values and for weaker values. -/
theorem relaxed_minimiser (sm : Option String) (hsm : sm = none ∨ sm = some "slack") {t : ℝ} (ht : 0 ≤ t) :
    ∃ d, UserMinimiser (shippedRegistry FieldProblem.fns []) (smoothArgs sm).objectives
      (withValues (smoothArgs sm).requests (relaxed (smoothArgs sm).requests t)) resolvedTorus (Pot resolvedTorus) d := by
  obtain ⟨c, -, h⟩ := C125_exactly_one_solution resolvedTorus [] resolvedTorus_resolved (smoothArgs_smooth sm hsm).objectives
    (smoothArgs_convex sm hsm).current (withValues_legal [] (smoothArgs_requests_legal sm hsm) (relaxed (smoothArgs sm).requests t))
    ⟨phiOnly (.array [0]), ⟨[0], by simp [phiOnly], by rfl⟩, relaxed_feasible (smoothArgs_strict sm hsm) ht⟩
  exact ⟨phiOnly (.array c), (h _).2 (by simp [phiOnly])⟩

/-- Half way between the given values and values weaker by 1. -/
example (sm : Option String) (hsm : sm = none ∨ sm = some "slack") : ∃ d e m,
    UserMinimiser (shippedRegistry FieldProblem.fns []) (smoothArgs sm).objectives
      (withValues (smoothArgs sm).requests (relaxed (smoothArgs sm).requests 0)) resolvedTorus (Pot resolvedTorus) d ∧
    UserMinimiser (shippedRegistry FieldProblem.fns []) (smoothArgs sm).objectives
      (withValues (smoothArgs sm).requests (relaxed (smoothArgs sm).requests 1)) resolvedTorus (Pot resolvedTorus) e ∧
    UserMinimiser (shippedRegistry FieldProblem.fns []) (smoothArgs sm).objectives
      (withValues (smoothArgs sm).requests (relaxed (smoothArgs sm).requests (1 / 2))) resolvedTorus (Pot resolvedTorus) m ∧
    userObjective (shippedRegistry FieldProblem.fns []) (smoothArgs sm).objectives resolvedTorus m ≤
      1 / 2 * userObjective (shippedRegistry FieldProblem.fns []) (smoothArgs sm).objectives resolvedTorus d +
        (1 - 1 / 2) * userObjective (shippedRegistry FieldProblem.fns []) (smoothArgs sm).objectives resolvedTorus e := by
  obtain ⟨d, hd⟩ := relaxed_minimiser sm hsm (t := 0) le_rfl
  obtain ⟨e, he⟩ := relaxed_minimiser sm hsm (t := 1) zero_le_one
  obtain ⟨m, hm⟩ := relaxed_minimiser sm hsm (t := 1 / 2) (by norm_num)
  refine ⟨d, e, m, hd, he, hm, C143_optimum_convex resolvedTorus [] resolvedTorus_resolved.plasma resolvedTorus_resolved.eval_nonneg
    (smoothArgs_smooth sm hsm).objectives (smoothArgs_requests_legal sm hsm) (by norm_num) (by norm_num) hd he ?_⟩
  convert hm using 2
  funext i
  simp only [relaxed]
  split <;> ring

/-- Weaker values, no larger optimum. -/
example (sm : Option String) (hsm : sm = none ∨ sm = some "slack") : ∃ d e,
    UserMinimiser (shippedRegistry FieldProblem.fns []) (smoothArgs sm).objectives
      (withValues (smoothArgs sm).requests (relaxed (smoothArgs sm).requests 0)) resolvedTorus (Pot resolvedTorus) d ∧
    UserMinimiser (shippedRegistry FieldProblem.fns []) (smoothArgs sm).objectives
      (withValues (smoothArgs sm).requests (relaxed (smoothArgs sm).requests 1)) resolvedTorus (Pot resolvedTorus) e ∧
    userObjective (shippedRegistry FieldProblem.fns []) (smoothArgs sm).objectives resolvedTorus e ≤
      userObjective (shippedRegistry FieldProblem.fns []) (smoothArgs sm).objectives resolvedTorus d := by
  obtain ⟨d, hd⟩ := relaxed_minimiser sm hsm (t := 0) le_rfl
  obtain ⟨e, he⟩ := relaxed_minimiser sm hsm (t := 1) zero_le_one
  refine ⟨d, e, hd, he, C143_optimum_monotone resolvedTorus (fun i ht => ?_) (fun i ht => ?_) (fun i ht => ?_) hd he⟩
  · simp only [relaxed, ht, String.reduceEq, if_false]
    linarith
  · simp only [relaxed, ht, if_true]
    linarith
  · exfalso
    rcases smoothArgs_strict sm hsm _ (List.getElem_mem i.2) with ⟨h, -⟩ | ⟨h, -⟩
    · simp only [Fin.getElem_fin] at ht
      rw [h] at ht
      simp at ht
    · simp only [Fin.getElem_fin] at ht
      rw [h] at ht
      simp at ht

/-- The constraints of the call on the torus have prices. -/
example (sm : Option String) (hsm : sm = none ∨ sm = some "slack") : ∃ d, ∃ price : Fin (smoothArgs sm).requests.length → ℝ,
    UserMinimiser (shippedRegistry FieldProblem.fns []) (smoothArgs sm).objectives (smoothArgs sm).requests resolvedTorus
      (Pot resolvedTorus) d ∧ (∀ i, 0 ≤ price i) ∧
      ∀ (v : Fin (smoothArgs sm).requests.length → ℝ) (e : Dofs), Pot resolvedTorus e →
        UserFeasible (shippedRegistry FieldProblem.fns []) (withValues (smoothArgs sm).requests v) resolvedTorus e →
        userObjective (shippedRegistry FieldProblem.fns []) (smoothArgs sm).objectives resolvedTorus d -
          ∑ i, price i * (smoothArgs sm).requests[i].relief (v i) ≤
          userObjective (shippedRegistry FieldProblem.fns []) (smoothArgs sm).objectives resolvedTorus e := by
  obtain ⟨d, hd⟩ := relaxed_minimiser sm hsm (t := 0) le_rfl
  have h0 : relaxed (smoothArgs sm).requests 0 = fun i => (smoothArgs sm).requests[i].value := by
    funext i
    simp [relaxed]
  rw [h0, withValues_self] at hd
  obtain ⟨price, h1, h2, -⟩ := C143_prices resolvedTorus [] resolvedTorus_resolved.plasma resolvedTorus_resolved.eval_nonneg
    (smoothArgs_smooth sm hsm).objectives (smoothArgs_requests_legal sm hsm) (z := phiOnly (.array [0])) ⟨[0], by simp [phiOnly], by rfl⟩
    (smoothArgs_strict sm hsm) hd
  exact ⟨d, price, hd, h1, h2⟩

/-- Gradient descent on the torus: what it reports bounds the objective of the potential 0 for the given constraint values. -/
example (sm : Option String) (hsm : sm = none ∨ sm = some "slack") :
    ∃ S, quadcoilSetup (shippedRegistry FieldProblem.fns []) resolvedTorus (smoothArgs sm) 7 = .ok S ∧ ∃ r s, ∃ y : List ℝ,
      solveConstrained (gradientDescent realGrad (1 / 4)) realGrad S.problem gplusHard S.x0 = some r ∧
      outerLoop (gradientDescent realGrad (1 / 4)) realGrad S.problem gplusHard S.x0 = some s ∧
      r.finF + Num.dot r.finMu r.finG - 1 / 100 * r.finMu.sum - r.finGradLAug * Num.norm (Num.vsub y r.finX) / s.xUnit ≤
        userObjective (shippedRegistry FieldProblem.fns []) (smoothArgs sm).objectives resolvedTorus (phiOnly (.array [0])) := by
  obtain ⟨S, hS⟩ := smoothArgs_ok sm hsm
  obtain ⟨_, _, r, _, _, _, hr, _⟩ := C04_outer_terminates (gradientDescent realGrad (1 / 4)) (gradientDescent_count _ _) realGrad
    S.problem gplusHard S.x0
  obtain ⟨s, h1, -, -, h2⟩ := C143_call_prices_partial resolvedTorus [] resolvedTorus_resolved torus_bnormal (smoothArgs_smooth sm hsm)
    (smoothArgs_convex sm hsm) (by norm_num) (by simp [smoothArgs]) hS (opt := gradientDescent realGrad (1 / 4)) (gradientDescent_count _ _)
    (gradientDescent_value _ _) (fun _ _ _ _ _ => rfl) (gradientDescent_shape realGrad (fun f p => by simp [realGrad]) _)
    (by simp [smoothArgs]) (by simp [smoothArgs]) hr
  obtain ⟨y, -, -, hy⟩ := h2 (smoothArgs sm).constraintValue rfl (1 / 100) (by norm_num) (by
    intro p hp
    have hself : p.1 = p.2 := by
      rw [show (smoothArgs sm).withValues (smoothArgs sm).constraintValue = smoothArgs sm from rfl] at hp
      obtain ⟨k, hk, rfl⟩ := List.mem_iff_getElem.1 hp
      simp
    have hz : p.1.relief p.2.value = 0 := by
      rw [← hself]
      unfold Request.relief
      split <;> ring
    rw [hz]
    refine mul_nonneg (by norm_num) ?_
    cases p.1.unit <;> simp [UnitArg.size]) (phiOnly (.array [0])) ⟨[0], by simp [phiOnly], by rfl⟩
    (smoothArgs_strict sm hsm).feasible
  exact ⟨S, hS, r, s, y, hr, h1, hy⟩

/-- The small problem with two unknowns: the bound at the point `(0, 0)`, which violates the inequality. -/
example : ∃ r s, solveConstrained (gradientDescent realGrad (1 / 4)) realGrad gapProblem gplusHard [3, 3] = some r ∧ 0 < s ∧
    r.finF - Num.dot r.finMu (Num.vsub [1] r.finG) - Num.dot r.finLam (Num.vsub [0] r.finH)
      - r.finGradLAug * Num.norm (Num.vsub [0, 0] r.finX) / s ≤ 0 := by
  obtain ⟨_, _, r, _, _, _, hr, _⟩ := C04_outer_terminates (gradientDescent realGrad (1 / 4)) (gradientDescent_count _ _) realGrad
    gapProblem gplusHard [3, 3]
  have hfform : (fun y : Fin 2 → ℝ => gapProblem.f (List.ofFn y)) = fun y => y 0 * y 0 + y 1 * y 1 := by
    funext y
    simp [gapProblem, List.ofFn_succ]
  have hsq : ∀ k : Fin 2, ConvexOn ℝ Set.univ fun y : Fin 2 → ℝ => y k * y k := by
    intro k
    refine ⟨convex_univ, fun x _ y _ a b ha hb hab => ?_⟩
    simp only [Pi.add_apply, Pi.smul_apply, smul_eq_mul]
    have hb' : b = 1 - a := by linarith
    subst hb'
    nlinarith [mul_nonneg (mul_nonneg ha hb) (mul_self_nonneg (x k - y k))]
  obtain ⟨s, -, hs, -, -, -, h⟩ := C143_reported_multipliers (opt := gradientDescent realGrad (1 / 4)) (gradientDescent_count _ _)
    (gradientDescent_value _ _) (fun _ _ _ _ _ => rfl)
    (gradientDescent_shape realGrad (fun f p => by simp [realGrad]) _) (N := 2) (m := 1) (n := 1) (p := gapProblem)
    (x0 := [3, 3]) rfl (G := fun y _ => 1 - y 0) (by intro y; simp [gapProblem, List.ofFn_succ])
    (A := fun _ => ContinuousLinearMap.proj 0 - (2 : ℝ) • ContinuousLinearMap.proj 1) (b := fun _ => 0)
    (by intro y; simp [gapProblem, List.ofFn_succ])
    (by rw [hfform]; exact (hsq 0).add (hsq 1)) (by rw [hfform]; fun_prop)
    (by
      intro _
      refine ⟨convex_univ, fun x _ y _ a b ha hb hab => le_of_eq ?_⟩
      simp only [Pi.add_apply, Pi.smul_apply, smul_eq_mul]
      linear_combination (-1 : ℝ) * hab)
    (by intro _; fun_prop) rfl rfl (by simp [gapProblem]) (by simp [gapProblem]) hr
  exact ⟨r, s.xUnit, hr, hs, by simpa [gapProblem] using h [0, 0] rfl⟩

end Verif
