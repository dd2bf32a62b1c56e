import Verif.Props.InnerProblemCalls
import Verif.Props.ApproxRateExamples

/-!
# C136, C137 and C138 on the torus
-/

namespace Verif

theorem approxArgs_weight (merge : Bool) : ("f_K", .scalar (-5), 1 / 10) ∈ (approxArgs merge).objectives := by
  rw [approxArgs_objectives]
  simp

/-- An optimiser that solves every inner problem exactly, in approx mode on the torus, with and without merged constraints. The run ends, and
the squared distance of the returned potential from the solution is at most a constant times the sum of the smoothing parameter and the
inverse penalty. The constant is the same for all smoothing parameters. -/
example (merge : Bool) : ∃ c : List ℝ, ∃ K ≥ 0, ∃ eps0 > 0, ∀ eps, 0 < eps → eps ≤ eps0 →
    ∃ S, quadcoilSetup (shippedRegistry FieldProblem.fns []) resolvedTorus ((approxArgs merge).withEps eps) 7 = .ok S ∧
    ∃ r s k, solveConstrained exactOptimizer realGrad S.problem gplusHard S.x0 = some r ∧
      outerLoop exactOptimizer realGrad S.problem gplusHard S.x0 = some s ∧ dofsOf S.template S.phiUnit r.finX "phi" = .array k ∧
      1 ≤ s.finC ∧ sqDist c k ≤ K * (eps + 1 / s.finC) := by
  obtain ⟨c, -, K, hK, eps0, h0, h⟩ := C136_approx_distance_partial resolvedTorus [] resolvedTorus_resolved torus_bnormal (approxArgs_call merge)
    ⟨("f_K", .scalar (-5), 1 / 10), approxArgs_weight merge, rfl, by norm_num⟩
    (by
      intro o ho
      rw [approxArgs_objectives] at ho
      simp only [List.mem_cons, List.not_mem_nil, or_false] at ho
      rcases ho with rfl | rfl | rfl | rfl <;> simp [ExactUnit, UnitArg.size])
    (by
      intro r hr
      rw [approxArgs_requests] at hr
      simp only [List.mem_cons, List.not_mem_nil, or_false] at hr
      rcases hr with rfl | rfl | rfl | rfl <;> simp [ExactUnit])
    (phiUnit := 7) (by norm_num) (by simp [approxArgs, smoothArgs]) (approxArgs_ok merge) (d := phiOnly (.array [0]))
    ⟨[0], by simp [phiOnly], by rfl⟩ (smoothArgs_strict (some "slack") (.inr rfl))
  obtain ⟨μ, -, hμ⟩ := C137_call_inner_partial resolvedTorus [] resolvedTorus_resolved
  refine ⟨c, K, hK, eps0, h0, fun eps he hle => ?_⟩
  obtain ⟨S, hS, xs, mu, -, -, -, -, hall⟩ := h eps he hle
  have ha' : ApproxCall ((approxArgs merge).withEps eps) :=
    ⟨(approxArgs_call merge).mode, (approxArgs_call merge).objectives, (approxArgs_call merge).objective_use, (approxArgs_call merge).constraints⟩
  obtain ⟨ν, hν, -, hp, hstrong, -⟩ := hμ (.inr ⟨ha', he⟩) (o := ("f_K", .scalar (-5), 1 / 10)) (approxArgs_weight merge) rfl (by norm_num) rfl
    (phiUnit := 7) (by norm_num) (by simp [QuadcoilArgs.withEps, approxArgs, smoothArgs]) hS
  obtain ⟨_, _, r, _, _, _, hr, _⟩ := C04_outer_terminates exactOptimizer exactOptimizer_count realGrad S.problem gplusHard S.x0
  obtain ⟨s, k, h1, -, h2, -, h3⟩ := hall exactOptimizer_count exactOptimizer_value (fun _ _ _ _ _ => rfl) exactOptimizer_shape
    (by simp [approxArgs, smoothArgs]) (by simp [approxArgs, smoothArgs]) hr
  obtain ⟨h4, h5⟩ := h3 fun tol s t hx hc hu hl hm ht => C137_exact_inner hp hν hstrong tol s t hx hc hu hl hm ht
  exact ⟨S, hS, r, s, k, hr, h1, h2, by simpa [approxArgs, smoothArgs] using h4, h5⟩

/-- The same optimiser without smoothing: the distance falls with the penalty alone (C133). -/
example : ∃ S, quadcoilSetup (shippedRegistry FieldProblem.fns []) resolvedTorus (smoothArgs none) 7 = .ok S ∧
    ∀ tol s t, s.finX.length = S.x0.length → 0 < s.finC → 0 < s.xUnit → s.finLam.length = 0 → s.finMu.length = S.problem.muInit.length →
      outerBody exactOptimizer realGrad S.problem gplusHard tol s = some t → t.finGradLAug = 0 := by
  obtain ⟨S, hS⟩ := smoothArgs_ok none (.inl rfl)
  obtain ⟨μ, -, hμ⟩ := C137_call_inner_partial resolvedTorus [] resolvedTorus_resolved
  obtain ⟨ν, hν, -, hp, hstrong, -⟩ := hμ (.inl ⟨smoothArgs_smooth none (.inl rfl), rfl⟩) (o := ("f_K", .scalar (-5), 1 / 10))
    (by simp [QuadcoilArgs.objectives, smoothArgs, objectiveList]) rfl (by norm_num) rfl (phiUnit := 7) (by norm_num)
    (by simp [smoothArgs]) hS
  exact ⟨S, hS, fun tol s t hx hc hu hl hm ht => C137_exact_inner hp hν hstrong tol s t hx hc hu hl hm ht⟩

/-! ## No constraints -/

/-- Minimise the field error and the current, and nothing else. -/
noncomputable def freeArgs : QuadcoilArgs :=
  { smoothArgs none with
    constraintName := []
    constraintType := []
    constraintUnit := []
    constraintValue := [] }

theorem freeArgs_requests : freeArgs.requests = [] := by
  simp [QuadcoilArgs.requests, freeArgs, zipRequests]

theorem freeArgs_smooth : SmoothCall freeArgs :=
  ⟨.inl rfl, rfl, (smoothArgs_smooth none (.inl rfl)).objectives, (smoothArgs_smooth none (.inl rfl)).objective_smooth, by
    rw [freeArgs_requests]
    simp⟩

theorem freeArgs_convex : ConvexCall freeArgs where
  mode := .inl rfl
  merge := rfl
  objectives := freeArgs_smooth.objectives
  current := (smoothArgs_convex none (.inl rfl)).current
  constraints := by
    rw [freeArgs_requests]
    simp
  huber := by
    rintro -
    simp [QuadcoilArgs.objectives, QuadcoilArgs.requests, freeArgs, smoothArgs, objectiveList, zipRequests]
  once := by
    simp [QuadcoilArgs.objectives, QuadcoilArgs.requests, freeArgs, smoothArgs, objectiveList, zipRequests, auxTable]

theorem freeArgs_ok : ∃ S, quadcoilSetup (shippedRegistry FieldProblem.fns []) resolvedTorus freeArgs 7 = .ok S := by
  have L : ∀ {n uc : String} {q : Quantity FieldProblem}, (shipped FieldProblem.fns).lookup n = some q → uc ∈ q.compatibility →
      ∀ {u : UnitArg}, u ≠ .other → LegalUse (shippedRegistry FieldProblem.fns []) none n u uc := fun h1 h2 _ h3 =>
    legal_shipped FieldProblem.fns [] (sm := none) (by simp [knownSmoothing]) h1 h2 h3
  rw [C131_setup_succeeds_iff_legal]
  refine ⟨⟨rfl, by decide, fun i h1 h2 => ?_⟩, ⟨rfl, rfl, fun h => by simp [freeArgs] at h, fun r hr => ?_⟩, fun h => by cases h⟩
  · match i, h1 with
    | 0, _ => exact L rfl (by decide) (by simp)
    | 1, _ => exact L rfl (by decide) (by simp)
  · rw [freeArgs_requests] at hr
    cases hr

/-- Gradient descent without constraints on the torus: the run ends, and the reported gradient bounds the distance from the solution. -/
example : ∃ μ > 0, ∃ S, quadcoilSetup (shippedRegistry FieldProblem.fns []) resolvedTorus freeArgs 7 = .ok S ∧ ∃ c i d k,
    quadcoilSolve (gradientDescent realGrad (1 / 4)) realGrad S = some (.inner i, d) ∧
    (∀ e, UserMinimiser (shippedRegistry FieldProblem.fns []) freeArgs.objectives [] resolvedTorus (Pot resolvedTorus) e ↔ e "phi" = .array c) ∧
    d "phi" = .array k ∧ 2 * ((1 / 10 : ℝ) / |(-5 : ℝ)|) * μ * |(7 : ℝ)| * Real.sqrt (sqDist c k) ≤ Num.norm i.grad := by
  obtain ⟨S, hS⟩ := freeArgs_ok
  obtain ⟨μ, hμ, h⟩ := C138_unconstrained_distance_partial resolvedTorus [] resolvedTorus_resolved torus_bnormal
  obtain ⟨c, hc, hall⟩ := h freeArgs_smooth freeArgs_convex rfl freeArgs_requests (o := ("f_K", .scalar (-5), 1 / 10))
    (by simp [QuadcoilArgs.objectives, freeArgs, smoothArgs, objectiveList]) rfl (by norm_num) rfl (phiUnit := 7) (by norm_num)
    (by simp [freeArgs, smoothArgs]) hS
  rw [freeArgs_requests] at hc
  have hun := ((setup_plain hS (by simp [freeArgs, smoothArgs])).2 freeArgs_requests rfl).1
  obtain ⟨i, hi⟩ : ∃ i, runOpt (gradientDescent realGrad (1 / 4)) realGrad S.problem.f S.x0 ⟨S.problem.maxiterTot, S.problem.fstopInnerLast,
      S.problem.xstopInnerLast, S.problem.gtolInner⟩ = some i := by
    obtain ⟨i, hi, -⟩ := C01_inner_terminates (gradientDescent realGrad (1 / 4)) (gradientDescent_count _ _) realGrad S.problem.f S.x0
      ⟨S.problem.maxiterTot, S.problem.fstopInnerLast, S.problem.xstopInnerLast, S.problem.gtolInner⟩
    exact ⟨i, hi⟩
  have hr : quadcoilSolve (gradientDescent realGrad (1 / 4)) realGrad S = some (.inner i, dofsOf S.template S.phiUnit i.x) := by
    unfold quadcoilSolve
    rw [if_pos hun, hi]
    rfl
  obtain ⟨i', k, hi', hk, -, hb⟩ := hall (gradientDescent_count _ _) (gradientDescent_value _ _) (fun _ _ _ _ _ => rfl)
    (gradientDescent_shape realGrad (fun f p => by simp [realGrad]) _) hr
  cases hi'
  exact ⟨μ, hμ, S, hS, c, i, _, k, hr, hc, hk, hb⟩

end Verif
