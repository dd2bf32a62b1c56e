import Verif.Props.ApproxRate
import Verif.Props.ReturnedPotentialExamples
import Verif.Spec.ToyQp
import Mathlib.Analysis.Calculus.Deriv.Abs

/-!
# C134 and C135 on the torus
-/

namespace Verif

/-- Minimise the field error, the current, the largest squared current and the largest squared potential, with bounds on the potential. -/
noncomputable def approxArgs (merge : Bool) : QuadcoilArgs :=
  { smoothArgs (some "slack") with
    objectiveName := .many ["f_B", "f_K", "f_max_K2", "f_max_Phi2"]
    objectiveUnit := .many [.scalar 2, .scalar (-5), .scalar 3, .scalar (-1)]
    smoothing := some "approx"
    mergeConstraints := merge }

theorem approxArgs_objectives (merge : Bool) : (approxArgs merge).objectives =
    [("f_B", .scalar 2, 1), ("f_K", .scalar (-5), 1 / 10), ("f_max_K2", .scalar 3, 2), ("f_max_Phi2", .scalar (-1), 3)] := by
  simp [QuadcoilArgs.objectives, approxArgs, smoothArgs, objectiveList]

theorem approxArgs_requests (merge : Bool) : (approxArgs merge).requests =
    [⟨"Phi", "<=", .scalar 1, 1⟩, ⟨"Phi", ">=", .scalar 1, -2⟩, ⟨"f_Phi", "<=", .scalar 4, 3⟩, ⟨"f_max_Phi", "<=", .scalar (-3), 4⟩] := by
  simp [QuadcoilArgs.requests, approxArgs, smoothArgs, zipRequests]

theorem approxArgs_call (merge : Bool) : ApproxCall (approxArgs merge) where
  mode := rfl
  objectives := by
    intro o ho
    rw [approxArgs_objectives] at ho
    simp only [List.mem_cons, List.not_mem_nil, or_false] at ho
    rcases ho with rfl | rfl | rfl | rfl
    · exact ⟨by decide, ⟨2, rfl, by norm_num⟩, by norm_num⟩
    · exact ⟨by decide, ⟨-5, rfl, by norm_num⟩, by norm_num⟩
    · exact ⟨by decide, ⟨3, rfl, by norm_num⟩, by norm_num⟩
    · exact ⟨by decide, ⟨-1, rfl, by norm_num⟩, by norm_num⟩
  objective_use := by
    intro o ho
    rw [approxArgs_objectives] at ho
    simp only [List.mem_cons, List.not_mem_nil, or_false] at ho
    rcases ho with rfl | rfl | rfl | rfl <;> decide
  constraints := by
    intro r hr
    rw [approxArgs_requests] at hr
    simp only [List.mem_cons, List.not_mem_nil, or_false] at hr
    rcases hr with rfl | rfl | rfl | rfl
    · exact ⟨.inl (by decide), 1, rfl, by norm_num⟩
    · exact ⟨.inl (by decide), 1, rfl, by norm_num⟩
    · exact ⟨.inr (.inl (by decide)), 4, rfl, by norm_num⟩
    · exact ⟨.inr (.inr (by decide)), -3, rfl, by norm_num⟩

theorem approxArgs_ok (merge : Bool) : ∃ S, quadcoilSetup (shippedRegistry FieldProblem.fns []) resolvedTorus (approxArgs merge) 7 = .ok S := by
  have L : ∀ {n uc : String} {q : Quantity FieldProblem}, (shipped FieldProblem.fns).lookup n = some q → uc ∈ q.compatibility →
      ∀ {u : UnitArg}, u ≠ .other → LegalUse (shippedRegistry FieldProblem.fns []) (some "approx") n u uc := fun h1 h2 _ h3 =>
    legal_shipped FieldProblem.fns [] (sm := some "approx") (by simp [knownSmoothing]) h1 h2 h3
  rw [C131_setup_succeeds_iff_legal]
  refine ⟨⟨rfl, by simp, fun i h1 h2 => ?_⟩, ⟨rfl, rfl, fun _ => rfl, fun r hr => ?_⟩, fun _ => .inl rfl⟩
  · match i, h1 with
    | 0, _ => exact L rfl (by decide) (by simp)
    | 1, _ => exact L rfl (by decide) (by simp)
    | 2, _ => exact L rfl (by decide) (by simp)
    | 3, _ => exact L rfl (by decide) (by simp)
  · rw [approxArgs_requests] at hr
    simp only [List.mem_cons, List.not_mem_nil, or_false] at hr
    rcases hr with rfl | rfl | rfl | rfl
    · exact ⟨L rfl (by decide) (by simp), by simp⟩
    · exact ⟨L rfl (by decide) (by simp), by simp⟩
    · exact ⟨L rfl (by decide) (by simp), by simp⟩
    · exact ⟨L rfl (by decide) (by simp), by simp⟩

/-- The problem on the torus is convex, with and without merged constraints. -/
example (merge : Bool) : ∃ S, quadcoilSetup (shippedRegistry FieldProblem.fns []) resolvedTorus (approxArgs merge) 7 = .ok S ∧
    IsConvexProblem S.x0.length 0 S.problem.muInit.length S.problem := by
  obtain ⟨S, hS⟩ := approxArgs_ok merge
  exact ⟨S, hS, C134_approx_convex_partial resolvedTorus [] resolvedTorus_resolved.plasma resolvedTorus_resolved.eval_nonneg
    (approxArgs_call merge) (by simp [approxArgs, smoothArgs]) hS⟩

/-- The torus meets all hypotheses of the rate, with and without merged constraints. -/
example (merge : Bool) : ∃ c : List ℝ, ∃ K ≥ 0, ∃ eps0 > 0, ∀ eps, 0 < eps → eps ≤ eps0 →
    ∃ S, quadcoilSetup (shippedRegistry FieldProblem.fns []) resolvedTorus ((approxArgs merge).withEps eps) 7 = .ok S ∧ ∃ x k,
      FlatMinimiser S x ∧ dofsOf S.template S.phiUnit x "phi" = .array k ∧ sqDist c k ≤ K * eps := by
  obtain ⟨c, -, K, hK, eps0, h0, h⟩ := C135_approx_rate_partial resolvedTorus [] resolvedTorus_resolved torus_bnormal (approxArgs_call merge)
    ⟨("f_K", .scalar (-5), 1 / 10), by rw [approxArgs_objectives]; simp, rfl, by norm_num⟩
    (by
      intro o ho
      rw [approxArgs_objectives] at ho
      simp only [List.mem_cons, List.not_mem_nil, or_false] at ho
      rcases ho with rfl | rfl | rfl | rfl <;> simp [ExactUnit, UnitArg.size])
    (by
      intro r hr
      rw [approxArgs_requests] at hr
      simp only [List.mem_cons, List.not_mem_nil, or_false] at hr
      rcases hr with rfl | rfl | rfl | rfl <;> simp [ExactUnit])
    (phiUnit := 7) (by norm_num) (by simp [approxArgs, smoothArgs]) (approxArgs_ok merge) (d := phiOnly (.array [0]))
    ⟨[0], by simp [phiOnly], by rfl⟩ (smoothArgs_strict (some "slack") (.inr rfl))
  refine ⟨c, K, hK, eps0, h0, fun eps he hle => ?_⟩
  obtain ⟨S, hS, k, ⟨x, hx⟩, hall, -, -, hd⟩ := h eps he hle
  exact ⟨S, hS, x, k, hx, (hall x hx).1, hd⟩

/-! ## The smoothed Huber loss -/

/-- A field with three equal components at every point. -/
def equalComponents (_ : ToyQp) (d : Dofs) : List (List ℝ) := (d "phi").entries.map fun x => [x, x, x]

/-- **C134, false of the smoothed Huber loss.** It has a kink where the field is `- unit * eps ^ 2` in all components, so it is not smooth
whatever the smoothing parameter. -/
theorem C134_huber_violated_partial (u eps : ℝ) (hu : u ≠ 0) : ¬ DifferentiableAt ℝ (fun t : ℝ =>
    ((Quantity.generateHuber equalComponents).approxF ⟨0⟩ (phiOnly (.array [t, 0])) (.scalar u) ⟨eps⟩).entries.headD 0) (-(u * eps ^ 2)) := by
  have hn : ∀ a : ℝ, Quantity.vecNorm [a, a, a] = Real.sqrt 3 * |a| := by
    intro a
    rw [← Real.sqrt_sq_eq_abs, ← Real.sqrt_mul (by norm_num), Quantity.vecNorm]
    congr 1
    simp only [List.map_cons, List.map_nil, List.sum_cons, List.sum_nil]
    ring
  have e : (fun t : ℝ => ((Quantity.generateHuber equalComponents).approxF ⟨0⟩ (phiOnly (.array [t, 0])) (.scalar u) ⟨eps⟩).entries.headD 0) =
      fun t => (Real.sqrt 3 * |t / u + eps ^ 2| - eps + (2 * (Real.sqrt 3 * |0 / u + eps ^ 2| - eps) + 0)) * 3 := by
    funext t
    simp only [Quantity.generateHuber, Quantity.generateHuber.huberSmooth, Quantity.l1Integral, equalComponents, phiOnly, if_true, Val.entries,
      List.map_cons, List.map_nil, hn, HasQp.da, HasQp.nfp, List.zipWith_cons_cons, List.zipWith_nil_right, List.sum_cons, List.sum_nil,
      List.headD_cons, one_mul]
  rw [e]
  intro h
  apply not_differentiableAt_abs_zero
  have h3 : Real.sqrt 3 ≠ 0 := by
    rw [Real.sqrt_ne_zero']
    norm_num
  have hcomp : DifferentiableAt ℝ (fun t : ℝ => (Real.sqrt 3 * |(u * (t - eps ^ 2)) / u + eps ^ 2| - eps +
      (2 * (Real.sqrt 3 * |0 / u + eps ^ 2| - eps) + 0)) * 3) 0 := by
    have hf : DifferentiableAt ℝ (fun t : ℝ => u * (t - eps ^ 2)) 0 := by fun_prop
    have h0 : -(u * eps ^ 2) = u * (0 - eps ^ 2) := by ring
    rw [h0] at h
    exact DifferentiableAt.comp (𝕜 := ℝ) (f := fun t : ℝ => u * (t - eps ^ 2)) (0 : ℝ) h hf
  have h2 := ((hcomp.div_const (3 * Real.sqrt 3)).sub_const ((-eps + (2 * (Real.sqrt 3 * |0 / u + eps ^ 2| - eps) + 0)) / Real.sqrt 3))
  refine (congrArg (fun f : ℝ → ℝ => DifferentiableAt ℝ f 0) (funext fun t => ?_)).mp h2
  have : u * (t - eps ^ 2) / u + eps ^ 2 = t := by
    field_simp
    ring
  rw [this]
  field_simp
  ring

end Verif
