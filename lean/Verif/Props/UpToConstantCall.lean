import Verif.Props.CallExamples
import Verif.Props.UpToConstant

/-!
# C150: whole calls, and examples
-/

namespace Verif

open CpParams

/-- **C150 (the usual call).** C142 without stellarator symmetry: the best potentials of the usual call differ by the constant mode, they
have the same current, and the returned potential is at most a multiple of the final gradient away from one of them. Missing: as for C142. -/
theorem C150_standard_call_partial {a : CallArgs} (others : List String) (hstell : a.stellsym = false) (hg : AllDefaultGrids a)
    (hone : a.plasmaCoilDistance.isSome ≠ a.windingDofs.isSome)
    (hpd : a.plasmaDofs.length = (⟨a.nfp, a.plasmaStellsym, a.plasmaMpol, a.plasmaNtor⟩ : SurfaceShape).size)
    (hwd : a.described.cp.wdofs.length = a.described.cp.surf.size)
    (hplasma : ∀ q ∈ gridPoints (linspace0 (1 / a.nfp) 32) (linspace0 1 34), a.described.plasma.shape.normal a.plasmaDofs q.1 q.2 ≠ 0)
    (hfield : ∃ b ∈ a.described.bnormal (List.replicate (HasQp.ndofs a.described) 0), b ≠ 0) (hnet : a.netPoloidal ≠ 0 ∨ a.netToroidal ≠ 0)
    (hunit : UsableUnit a) (hmet : KnownMetrics (shippedRegistry FieldProblem.fns others) a) :
    ∃ μ > 0, ∀ {w : ℝ} (_ : 0 < w),
      ∃ c, (∀ k, IsBest (relativeObjective a.described w) (HasQp.ndofs a.described) k ↔ ∃ t, k = addConstant a.described.cp t c) ∧
      (∀ k, IsBest (relativeObjective a.described w) (HasQp.ndofs a.described) k → a.described.cp.K k = a.described.cp.K c) ∧
      ∀ {opt : Optimizer ℝ} (_ : opt.CountContract) (_ : opt.ValueContract) (_ : opt.GradContract realGrad) (_ : opt.ShapeContract realGrad),
        ∃ R i k t S, quadcoilCall opt realGrad (shippedRegistry FieldProblem.fns others) (a.standard w) = .ok (some R) ∧
          R.results = .inner i ∧ R.dofs "phi" = .array k ∧
          (a.standard w).setup (shippedRegistry FieldProblem.fns others) = .ok (a.described, S) ∧
          StopsBy opt S.problem.f S.x0 10000 0 1e-10 1e-6 i ∧ i.grad = realGrad S.problem.f i.x ∧
          2 * (w / a.described.fK (List.replicate (HasQp.ndofs a.described) 0)) * μ * |(a.standard w).unit a.described| *
            Real.sqrt (sqDist (addConstant a.described.cp t c) k) ≤ Num.norm i.grad ∧
          ("f_B" ∈ a.metrics → ∃ v, R.out.lookup "f_B" = some v ∧ v.value = .scalar (a.described.fB k)) ∧
          ("f_K" ∈ a.metrics → ∃ v, R.out.lookup "f_K" = some v ∧ v.value = .scalar (a.described.fK k)) := by
  obtain ⟨μ, hμ, hall⟩ := C150_unconstrained_partial (Q := a.described) hstell others hg.resolving hg.bnormal_ne
  refine ⟨μ, hμ, ?_⟩
  intro w hw
  obtain ⟨b, k0, S, hb, rfl, hk0, hu, hS, hset, hbest, hrun⟩ := standard_call others hg hone hpd hwd hplasma hfield hnet hunit hmet w
  obtain ⟨c, huser, hopt⟩ := hall (standardResolved_smooth hw hb hk0) (standardResolved_convex hw hb hk0)
    (by
      rw [standardResolved_objectives, standardResolved_requests]
      constructor <;> simp [potentialNames]) rfl (standardResolved_requests _ _ _)
    (o := ("f_K", .scalar (a.described.fK (List.replicate (HasQp.ndofs a.described) 0)), w)) (by rw [standardResolved_objectives]; simp) rfl hw rfl
    hu (fun p h => by cases h) hset
  have hiff : ∀ k, IsBest (relativeObjective a.described w) (HasQp.ndofs a.described) k ↔ ∃ t, k = addConstant a.described.cp t c := by
    intro k
    rw [hbest, huser]
    simp [phiOnly]
  refine ⟨c, hiff, fun k hk => ?_, ?_⟩
  · obtain ⟨t, rfl⟩ := (hiff k).1 hk
    refine (addConstant_same a.described.cp hstell t c ?_).derivs.K
    rw [← addConstant_length a.described.cp t c]
    exact hk.1
  · intro opt hc hv hgr hsh
    obtain ⟨R, hR, hsol, hval⟩ := hrun hc hv hgr
    obtain ⟨i, k, t, hi, hk, hgrad, hb⟩ := hopt hc hv hgr hsh hsol
    obtain ⟨h1, h2, h3⟩ := hval i k hi hk
    rw [abs_of_pos hk0] at hb
    exact ⟨R, i, k, t, S, hR, hi, hk, hS, h1, hgrad, hb, h2, h3⟩

/-! ## Examples -/

theorem generalTorus_resolving : ResolvingGrid generalTorus 2 3 where
  nfp := by decide
  two_le_A := le_rfl
  two_le_B := by norm_num
  ntor := by decide
  mpol := by decide
  ePhis := rfl
  eThetas := rfl
  regular := fun q _ => (circularTorus_regular q.1 q.2).1
  plasma := by
    simp only [generalTorus, resolvedTorus, torusProblem, gridStep_linspace0 _ _ (le_refl 2)]
    norm_num

theorem generalTorus_bnormal (c : List ℝ) : generalTorus.bnormal c ≠ [] := fun h => by
  simp [FieldProblem.bnormal, gridPoints, generalTorus, resolvedTorus, torusProblem, linspace0, List.range_succ] at h

/-- Field error and current, with a bound of the current. -/
noncomputable def currentArgs : QuadcoilArgs :=
  { smoothArgs none with
    constraintName := ["f_K"]
    constraintType := ["<="]
    constraintUnit := [.scalar 1]
    constraintValue := [generalTorus.fK [0, 0, 0] + 1] }

theorem currentArgs_requests : currentArgs.requests = [⟨"f_K", "<=", .scalar 1, generalTorus.fK [0, 0, 0] + 1⟩] := by
  simp [QuadcoilArgs.requests, currentArgs, zipRequests]

theorem currentArgs_objectives : currentArgs.objectives = [("f_B", .scalar 2, 1), ("f_K", .scalar (-5), 1 / 10)] := by
  simp [QuadcoilArgs.objectives, currentArgs, smoothArgs, objectiveList]

theorem currentArgs_only : CurrentOnly currentArgs.objectives currentArgs.requests := by
  rw [currentArgs_objectives, currentArgs_requests]
  constructor <;> simp [potentialNames]

theorem currentArgs_smooth : SmoothCall currentArgs :=
  ⟨.inl rfl, rfl, (smoothArgs_smooth none (.inl rfl)).objectives, (smoothArgs_smooth none (.inl rfl)).objective_smooth, by
    rw [currentArgs_requests]
    intro r hr
    rw [List.mem_singleton.1 hr]
    exact ⟨.inr (.inl (by decide)), 1, rfl, by norm_num⟩⟩

theorem currentArgs_convex : ConvexCall currentArgs where
  mode := .inl rfl
  merge := rfl
  objectives := currentArgs_smooth.objectives
  current := (smoothArgs_convex none (.inl rfl)).current
  constraints := fun r hr => ⟨(currentArgs_smooth.constraints r hr).1.lookup, (currentArgs_smooth.constraints r hr).2⟩
  huber := by
    rintro -
    rw [currentArgs_objectives, currentArgs_requests]
    simp
  once := by
    rw [currentArgs_objectives, currentArgs_requests]
    simp [auxTable]

theorem currentArgs_ok : ∃ S, quadcoilSetup (shippedRegistry FieldProblem.fns []) generalTorus currentArgs 7 = .ok S := by
  have L : ∀ {n uc : String} {q : Quantity FieldProblem}, (shipped FieldProblem.fns).lookup n = some q → uc ∈ q.compatibility →
      ∀ {u : UnitArg}, u ≠ .other → LegalUse (shippedRegistry FieldProblem.fns []) none n u uc := fun h1 h2 _ h3 =>
    legal_shipped FieldProblem.fns [] (sm := none) (by simp [knownSmoothing]) h1 h2 h3
  rw [C131_setup_succeeds_iff_legal]
  refine ⟨⟨rfl, by decide, fun i h1 h2 => ?_⟩, ⟨rfl, rfl, fun _ => rfl, fun r hr => ?_⟩, fun h => by cases h⟩
  · match i, h1 with
    | 0, _ => exact L rfl (by decide) (by simp)
    | 1, _ => exact L rfl (by decide) (by simp)
  · rw [currentArgs_requests] at hr
    obtain rfl := List.mem_singleton.1 hr
    exact ⟨L rfl (by decide) (by simp), by simp⟩

theorem currentArgs_strict :
    StrictlyFeasible (shippedRegistry FieldProblem.fns []) currentArgs.requests generalTorus (phiOnly (.array [0, 0, 0])) := by
  intro r hr
  rw [currentArgs_requests] at hr
  rw [List.mem_singleton.1 hr]
  refine .inl ⟨rfl, fun x hx => ?_⟩
  have hx : x = generalTorus.fK [0, 0, 0] := List.mem_singleton.1 hx
  rw [hx]
  simp

/-- The bound of the current on the torus: the solutions are a line, and they have the same current. -/
example : ∃ c : List ℝ, c.length = 3 ∧ ∀ d, UserMinimiser (shippedRegistry FieldProblem.fns []) currentArgs.objectives currentArgs.requests
    generalTorus (Pot generalTorus) d ↔ ∃ t, d "phi" = .array (addConstant generalTorus.cp t c) := by
  obtain ⟨S, hS⟩ := currentArgs_ok
  exact C150_solutions rfl [] generalTorus_resolving currentArgs_convex.objectives currentArgs_convex.current currentArgs_only
    (fun r hr => ⟨(currentArgs_convex.constraints r hr).1, requests_legal hS r hr⟩)
    ⟨_, ⟨[0, 0, 0], by simp [phiOnly], by rfl⟩, currentArgs_strict.feasible⟩

/-- Gradient descent with the bound of the current: the run ends, and the bound on the distance from a solution applies to what it returns. -/
example : ∃ μ > 0, ∃ S, quadcoilSetup (shippedRegistry FieldProblem.fns []) generalTorus currentArgs 7 = .ok S ∧ ∃ c xs mu r s k t,
      solveConstrained (gradientDescent realGrad (1 / 4)) realGrad S.problem gplusHard S.x0 = some r ∧
      outerLoop (gradientDescent realGrad (1 / 4)) realGrad S.problem gplusHard S.x0 = some s ∧
      (∀ e, UserMinimiser (shippedRegistry FieldProblem.fns []) currentArgs.objectives currentArgs.requests generalTorus
        (Pot generalTorus) e ↔ ∃ t, e "phi" = .array (addConstant generalTorus.cp t c)) ∧
      dofsOf S.template S.phiUnit r.finX "phi" = .array k ∧
      (1 / 10 : ℝ) / |(-5 : ℝ)| * μ * sqDist (addConstant generalTorus.cp t c) k ≤
        r.finGradLAug * Num.norm (Num.vsub xs r.finX) / s.xUnit - Num.dot r.finMu r.finG
          + Real.sqrt (sumSq mu) * Real.sqrt (sqViolation r.finG r.finH) := by
  obtain ⟨S, hS⟩ := currentArgs_ok
  obtain ⟨μ, hμ, h⟩ := C150_distance_bound_partial (Q := generalTorus) rfl [] generalTorus_resolving generalTorus_bnormal
  obtain ⟨c, hc, xs, mu, -, -, -, hall⟩ := h currentArgs_smooth currentArgs_convex currentArgs_only (o := ("f_K", .scalar (-5), 1 / 10))
    (by rw [currentArgs_objectives]; simp) rfl (by norm_num) rfl
    (phiUnit := 7) (by norm_num) (by simp [currentArgs, smoothArgs]) hS (d := phiOnly (.array [0, 0, 0])) ⟨[0, 0, 0], by simp [phiOnly], by rfl⟩
    currentArgs_strict
  obtain ⟨_, _, r, _, _, _, hr, _⟩ := C04_outer_terminates (gradientDescent realGrad (1 / 4)) (gradientDescent_count _ _) realGrad
    S.problem gplusHard S.x0
  obtain ⟨s, k, t, h1, -, h2, h3, -⟩ := hall (opt := gradientDescent realGrad (1 / 4)) (gradientDescent_count _ _)
    (gradientDescent_value _ _) (fun _ _ _ _ _ => rfl) (gradientDescent_shape realGrad (fun f p => by simp [realGrad]) _)
    (by simp [currentArgs, smoothArgs]) (by simp [currentArgs, smoothArgs]) hr
  exact ⟨μ, hμ, S, hS, c, xs, mu, r, s, k, t, hr, h1, hc, h2, h3⟩

/-- The call for the torus with a potential that is not stellarator symmetric. -/
noncomputable def generalCall (b : ℝ) : CallArgs := { torusCall b with stellsym := false }

theorem generalCall_grids (b : ℝ) : AllDefaultGrids (generalCall b) where
  nfp := one_ne_zero
  phi := rfl
  theta := rfl
  winding_phi := rfl
  winding_theta := rfl
  plasma_phi := rfl
  plasma_theta := rfl
  mpol := by show 1 ≤ 16; norm_num
  ntor := by show 0 ≤ 15; norm_num
  regular := fun q _ => (circularTorus_regular q.1 q.2).1
  normal_field := (torusCall_grids b).normal_field

/-- For some plasma field this torus meets all hypotheses: gradient descent returns a potential near a best one. -/
example : ∃ b, ∃ μ > 0, ∀ w > 0, ∃ c R i k t,
    (∀ k, IsBest (relativeObjective (generalCall b).described w) 3 k ↔ ∃ t, k = addConstant (generalCall b).described.cp t c) ∧
    quadcoilCall (gradientDescent realGrad (1 / 4)) realGrad (shippedRegistry FieldProblem.fns []) ((generalCall b).standard w) = .ok (some R) ∧
    R.results = .inner i ∧ R.dofs "phi" = .array k ∧
    2 * (w / (generalCall b).described.fK [0, 0, 0]) * μ * |((generalCall b).standard w).unit (generalCall b).described| *
      Real.sqrt (sqDist (addConstant (generalCall b).described.cp t c) k) ≤ Num.norm i.grad := by
  obtain ⟨b, hb⟩ : ∃ b, ∃ t ∈ (generalCall b).described.bnormal [0, 0, 0], t ≠ 0 := by
    have hmem : ∀ b : ℝ, ((generalCall b).described.bnWinding [0, 0, 0] (0, 0) + b) ∈ (generalCall b).described.bnormal [0, 0, 0] := by
      intro b
      refine List.mem_map.2 ⟨((0, 0), b), ?_, rfl⟩
      have e1 : (generalCall b).described.bPlasma = List.replicate 1088 b := by
        show (List.replicate 32 (List.replicate 34 b)).flatten = _
        simp
      have e2 : gridPoints (generalCall b).described.plasma.phis (generalCall b).described.plasma.thetas =
          gridPoints (linspace0 (1 / (1 : ℕ)) (31 + 1)) (linspace0 1 (33 + 1)) := rfl
      obtain ⟨rest, e3⟩ := gridPoints_head (1 / (1 : ℕ)) 1 31 33
      rw [e1, e2, e3, List.replicate_succ, List.zip_cons_cons]
      exact List.mem_cons_self
    by_cases h : (generalCall 0).described.bnWinding [0, 0, 0] (0, 0) = 0
    · refine ⟨1, _, hmem 1, ?_⟩
      have e : (generalCall 1).described.bnWinding [0, 0, 0] (0, 0) = (generalCall 0).described.bnWinding [0, 0, 0] (0, 0) := rfl
      rw [e, h]
      norm_num
    · exact ⟨0, _, hmem 0, by rwa [add_zero]⟩
  obtain ⟨μ, hμ, h⟩ := C150_standard_call_partial (a := generalCall b) [] rfl (generalCall_grids b) (by simp [generalCall, torusCall])
    (by simp [generalCall, torusCall, SurfaceShape.size]) (by simp [generalCall, torusCall, CallArgs.described, SurfaceShape.size])
    (fun q _ => torus_normal 2 (1 / 2) q.1 q.2 (by norm_num) (by norm_num)) hb (.inl (by simp [generalCall, torusCall]))
    (.inr ⟨rfl, by simp [generalCall, torusCall], fun _ => by norm_num [generalCall, torusCall, minorRadius]⟩) (torusCall_metrics b)
  refine ⟨b, μ, hμ, fun w hw => ?_⟩
  obtain ⟨c, hc, -, hall⟩ := h hw
  obtain ⟨R, i, k, t, S, h1, h2, h3, -, -, -, h4, -⟩ := hall (gradientDescent_count _ _) (gradientDescent_value _ _) (fun _ _ _ _ _ => rfl)
    (gradientDescent_shape realGrad (fun f p => by simp [realGrad]) (1 / 4))
  exact ⟨c, R, i, k, t, hc, h1, h2, h3, h4⟩

end Verif
