import Verif.Props.ReturnedPotential
import Verif.Props.SmoothFlatExamples

/-!
# C132 and C133 on the torus
-/

namespace Verif

theorem smoothArgs_convex (sm : Option String) (hsm : sm = none ∨ sm = some "slack") : ConvexCall (smoothArgs sm) where
  mode := hsm
  merge := rfl
  objectives := (smoothArgs_smooth sm hsm).objectives
  current := ⟨("f_K", .scalar (-5), 1 / 10), by
    rcases hsm with rfl | rfl <;> simp [QuadcoilArgs.objectives, smoothArgs, objectiveList], rfl, by norm_num⟩
  constraints := fun r hr => ⟨((smoothArgs_smooth sm hsm).constraints r hr).1.lookup, ((smoothArgs_smooth sm hsm).constraints r hr).2⟩
  huber := by
    rintro -
    rcases hsm with rfl | rfl <;>
      simp [QuadcoilArgs.objectives, QuadcoilArgs.requests, smoothArgs, objectiveList, zipRequests]
  once := by
    rcases hsm with rfl | rfl <;>
      simp [QuadcoilArgs.objectives, QuadcoilArgs.requests, smoothArgs, objectiveList, zipRequests, auxTable]

theorem smoothArgs_strict (sm : Option String) (hsm : sm = none ∨ sm = some "slack") :
    StrictlyFeasible (shippedRegistry FieldProblem.fns []) (smoothArgs sm).requests resolvedTorus (phiOnly (.array [0])) := by
  have h0 := torus_Phi_zero
  have hlen : FieldProblem.fns.Phi resolvedTorus (phiOnly (.array [0])) ≠ [] := by
    simp [FieldProblem.fns, FieldProblem.evalGrid, gridPoints, resolvedTorus, linspace0, List.range_succ]
  have c1 : ∀ x ∈ (rawOf (shippedRegistry FieldProblem.fns []) "Phi" resolvedTorus (phiOnly (.array [0]))).entries, x = 0 := h0
  have c2 : ∀ x ∈ (rawOf (shippedRegistry FieldProblem.fns []) "f_max_Phi" resolvedTorus (phiOnly (.array [0]))).entries, x ≤ 0 := by
    intro z hz
    have hz : z = Quantity.maxAbs (.array (FieldProblem.fns.Phi resolvedTorus (phiOnly (.array [0])))) := List.mem_singleton.1 hz
    rw [hz]
    refine (maxAbs_spec (by simpa [Val.entries] using hlen) _).2 fun x hx => ?_
    rw [h0 x hx]
    norm_num
  have c3 : ∀ x ∈ (rawOf (shippedRegistry FieldProblem.fns []) "f_Phi" resolvedTorus (phiOnly (.array [0]))).entries, x = 0 := by
    intro z hz
    have hz : z = FieldProblem.fns.fPhi resolvedTorus (phiOnly (.array [0])) := List.mem_singleton.1 hz
    have hsum : ∀ (da : List ℝ) (l : List (ℝ × ℝ)), (List.zipWith (· * ·) (l.map fun q => resolvedTorus.cp.Phi (coefs (phiOnly (.array [0]))) q.1 q.2 ^ 2 / 2) da).sum = 0 := by
      intro da l
      induction l generalizing da with
      | nil => simp
      | cons q l ih =>
        cases da with
        | nil => simp
        | cons a da =>
          have hq : resolvedTorus.cp.Phi (coefs (phiOnly (.array [0]))) q.1 q.2 = 0 := by
            rw [coefs_phiOnly, CpParams.Phi, CpParams.app]
            cases resolvedTorus.cp.trig q.1 q.2 <;> simp
          simp only [List.map_cons, List.zipWith_cons_cons, List.sum_cons, ih, hq]
          norm_num
    rw [hz]
    simp only [FieldProblem.fns, GridSurface.integrate]
    rw [hsum]
    simp
  intro r hr
  rcases hsm with rfl | rfl <;>
    simp only [QuadcoilArgs.requests, smoothArgs, zipRequests, if_true, if_false, List.cons_append, List.nil_append, List.append_nil,
      List.zip, List.zipWith, List.mem_cons, List.not_mem_nil, or_false, reduceCtorEq] at hr
  · rcases hr with rfl | rfl | rfl
    · exact .inl ⟨rfl, fun x hx => by rw [c1 x hx]; norm_num⟩
    · exact .inr ⟨rfl, fun x hx => by rw [c1 x hx]; norm_num⟩
    · exact .inl ⟨rfl, fun x hx => by rw [c3 x hx]; norm_num⟩
  · rcases hr with rfl | rfl | rfl | rfl
    · exact .inl ⟨rfl, fun x hx => by rw [c1 x hx]; norm_num⟩
    · exact .inr ⟨rfl, fun x hx => by rw [c1 x hx]; norm_num⟩
    · exact .inl ⟨rfl, fun x hx => by rw [c3 x hx]; norm_num⟩
    · exact .inl ⟨rfl, fun x hx => lt_of_le_of_lt (c2 x hx) (by norm_num)⟩

theorem torus_bnormal (c : List ℝ) : resolvedTorus.bnormal c ≠ [] := fun h => by
  simp [FieldProblem.bnormal, gridPoints, resolvedTorus, torusProblem, linspace0, List.range_succ] at h

/-- The call on the torus has multipliers, with and without auxiliary variables. -/
example (sm : Option String) (hsm : sm = none ∨ sm = some "slack") :
    ∃ S, quadcoilSetup (shippedRegistry FieldProblem.fns []) resolvedTorus (smoothArgs sm) 7 = .ok S ∧ ∃ x mu, FlatMinimiser S x ∧
      IsSaddle S.x0.length S.problem.f S.problem.g S.problem.h x [] mu := by
  obtain ⟨S, hS⟩ := smoothArgs_ok sm hsm
  obtain ⟨μ, -, h⟩ := C133_distance_bound_partial resolvedTorus [] resolvedTorus_resolved torus_bnormal
  obtain ⟨c, -, x, mu, h1, h2, -⟩ := h (smoothArgs_smooth sm hsm) (smoothArgs_convex sm hsm) (o := ("f_K", .scalar (-5), 1 / 10))
    (by rcases hsm with rfl | rfl <;> simp [QuadcoilArgs.objectives, smoothArgs, objectiveList]) rfl (by norm_num) rfl
    (phiUnit := 7) (by norm_num) (by simp [smoothArgs]) hS (d := phiOnly (.array [0])) ⟨[0], by simp [phiOnly], by rfl⟩
    (smoothArgs_strict sm hsm)
  exact ⟨S, hS, x, mu, h1, h2⟩

/-- Gradient descent on the torus: the run ends, and the bound on the distance applies to what it returns. -/
example (sm : Option String) (hsm : sm = none ∨ sm = some "slack") :
    ∃ μ > 0, ∃ S, quadcoilSetup (shippedRegistry FieldProblem.fns []) resolvedTorus (smoothArgs sm) 7 = .ok S ∧ ∃ c xs mu r s k,
      solveConstrained (gradientDescent realGrad (1 / 4)) realGrad S.problem gplusHard S.x0 = some r ∧
      outerLoop (gradientDescent realGrad (1 / 4)) realGrad S.problem gplusHard S.x0 = some s ∧
      (∀ e, UserMinimiser (shippedRegistry FieldProblem.fns []) (smoothArgs sm).objectives (smoothArgs sm).requests resolvedTorus
        (Pot resolvedTorus) e ↔ e "phi" = .array c) ∧ dofsOf S.template S.phiUnit r.finX "phi" = .array k ∧
      (1 / 10 : ℝ) / |(-5 : ℝ)| * μ * sqDist c k ≤ r.finGradLAug * Num.norm (Num.vsub xs r.finX) / s.xUnit - Num.dot r.finMu r.finG
        + Real.sqrt (sumSq mu) * Real.sqrt (sqViolation r.finG r.finH) := by
  obtain ⟨S, hS⟩ := smoothArgs_ok sm hsm
  obtain ⟨μ, hμ, h⟩ := C133_distance_bound_partial resolvedTorus [] resolvedTorus_resolved torus_bnormal
  obtain ⟨c, hc, xs, mu, -, -, -, hall⟩ := h (smoothArgs_smooth sm hsm) (smoothArgs_convex sm hsm) (o := ("f_K", .scalar (-5), 1 / 10))
    (by rcases hsm with rfl | rfl <;> simp [QuadcoilArgs.objectives, smoothArgs, objectiveList]) rfl (by norm_num) rfl
    (phiUnit := 7) (by norm_num) (by simp [smoothArgs]) hS (d := phiOnly (.array [0])) ⟨[0], by simp [phiOnly], by rfl⟩
    (smoothArgs_strict sm hsm)
  obtain ⟨_, _, r, _, _, _, hr, _⟩ := C04_outer_terminates (gradientDescent realGrad (1 / 4)) (gradientDescent_count _ _) realGrad
    S.problem gplusHard S.x0
  obtain ⟨s, k, h1, -, h2, h3, -⟩ := hall (opt := gradientDescent realGrad (1 / 4)) (gradientDescent_count _ _)
    (gradientDescent_value _ _) (fun _ _ _ _ _ => rfl) (gradientDescent_shape realGrad (fun f p => by simp [realGrad]) _)
    (by simp [smoothArgs]) (by simp [smoothArgs]) hr
  exact ⟨μ, hμ, S, hS, c, xs, mu, r, s, k, hr, h1, hc, h2, h3⟩

/-- A point with the margin 1 of the small problem with the constraint `1 - x <= 0` and the objective `x ^ 2`. -/
example : (1 : ℝ) * ([2] : List ℝ).sum ≤ (fun x : List ℝ => (x.headD 0) ^ 2) [2] - (fun x : List ℝ => (x.headD 0) ^ 2) [1] :=
  C132_multiplier_size (N := 1) (f := fun x => (x.headD 0) ^ 2) (g := fun x => [1 - x.headD 0]) (h := fun _ => []) (x := [1]) (mu := [2])
    { length := rfl
      lam_length := rfl
      mu_length := rfl
      mu_nonneg := by simp
      ineq := by simp
      eq := by simp
      lagrangian := fun y _ => by
        simp only [listDot, List.zipWith_nil_left, List.sum_nil, List.zipWith_cons_cons, List.sum_cons, List.headD_cons, add_zero]
        nlinarith [sq_nonneg (y.headD 0 - 1)] }
    (z := [2]) rfl rfl (δ := 1) (by simp; norm_num)

end Verif
