import Verif.Props.SmoothFlatExamples
import Verif.Props.Mirror
import Mathlib.Analysis.Calculus.Deriv.Abs

/-!
# C130: the slack form of the L1 norm is convex, but has a kink where the solver starts
-/

namespace Verif

open Real CpParams

/-- Minimise the L1 norm of the potential in units of `v`, with auxiliary variables. -/
noncomputable def l1Args (v : ℝ) : QuadcoilArgs :=
  { maxCurrentArgs with objectiveName := .one "f_l1_Phi", objectiveUnit := .one (.scalar v) }

/-- The weighted sum of absolute values that the code integrates. -/
theorem sum_abs_formula (da : List ℝ) {N : ℕ} (j : Fin da.length → Fin N) (x : Fin N → ℝ) :
    (List.zipWith (· * ·) da ((List.ofFn fun l => x (j l)).map fun t => |t|)).sum = ∑ l, da[l] * |x (j l)| := by
  have : List.zipWith (· * ·) da ((List.ofFn fun l => x (j l)).map fun t => |t|) = List.ofFn fun l => da[l] * |x (j l)| := by
    apply List.ext_getElem <;> simp
  rw [this, List.sum_ofFn]

/-- The objective of that call, and the values of the auxiliary variables at the start. -/
theorem l1_objective (Q : FieldProblem) (others : List String) {u v : ℝ} {S : Setup}
    (hs : quadcoilSetup (shippedRegistry FieldProblem.fns others) Q (l1Args v) u = .ok S) :
    ∃ j : Fin Q.evalSurface.da.length → Fin S.x0.length, Function.Injective j ∧
      (∀ x : Fin S.x0.length → ℝ, S.problem.f (List.ofFn x) = (∑ l, Q.evalSurface.da[l] * |x (j l)|) * Q.cp.nfp) ∧
      ∀ l, S.x0[j l] = 0 := by
  obtain ⟨o, c, ho, hc, hpu, ht, hx0, -, -, -, hf, -, -⟩ := quadcoilSetup_ok hs
  have hreg := shipped_auxNames FieldProblem.fns others
  have hok : SlackOk (shippedRegistry FieldProblem.fns others) (joinParsed o c).slack :=
    slackOk_union (slackOk_objectives hreg ho) (slackOk_constraints hreg hc)
  obtain ⟨sl, hsl⟩ : ∃ sl, sl = (joinParsed o c).slack := ⟨_, rfl⟩
  rw [← hsl] at ht hok
  have hval : ∀ d : Dofs, ((joinParsed o c).f Q d).entries.headD 0 = Quantity.l1Integral Q ((d "scaled_abs_Phi").entries.map fun t => |t|) := by
    intro d
    cases ho
    cases hc
    show (0 : ℝ) + _ * 1 = _
    rw [zero_add, mul_one]
  have hlook : sl.lookup "scaled_abs_Phi" = some fun Q d => Val.map2 (· / ·) (Val.map (fun t => |t|)
      (Val.array (arr FieldProblem.fns.Phi Q d).entries)) (.scalar |v|) := by
    cases ho
    cases hc
    rw [hsl]
    rfl
  obtain ⟨p, hp⟩ : ∃ p, p = List.replicate (HasQp.ndofs Q) (0 : ℝ) := ⟨_, rfl⟩
  have ht' : S.template = xTemplate Q p u sl := by rw [ht, hp]; rfl
  have hphi := xTemplate_phi hreg hok Q p u
  have hl := xTemplate_lookup hreg hok Q p u "scaled_abs_Phi" (by decide)
  have hzero : Val.map2 (· / ·) (Val.map (fun t => |t|) (Val.array (arr FieldProblem.fns.Phi Q (phiOnly (.array p))).entries)) (.scalar |v|) =
      .array (List.replicate Q.evalSurface.da.length 0) := by
    have h0 : ∀ row : List ℝ, app row p = 0 := by
      intro row
      rw [hp]
      exact app_replicate_zero _ _
    simp only [arr, FieldProblem.fns, Val.entries, coefs_phiOnly, CpParams.Phi, h0]
    simp [Val.map, Val.map2, GridSurface.da, FieldProblem.evalSurface, FieldProblem.evalGrid]
  rw [hlook, Option.map_some] at hl
  simp only [hzero] at hl
  obtain ⟨j, hj, hx⟩ := unravel_array_fin (N := S.x0.length) hl (by rw [hx0, ht']) List.length_replicate
  have haux : ∀ x : Fin S.x0.length → ℝ, dofsOf S.template u (List.ofFn x) "scaled_abs_Phi" = .array (List.ofFn fun l => x (j l)) := by
    intro x
    rw [ht', dofsOf_other hphi (by decide) (by decide), hx x, Option.getD_some]
  refine ⟨j, hj, fun x => ?_, fun l => ?_⟩
  · rw [hf, hval, haux, Quantity.l1Integral]
    exact congrArg (· * (Q.cp.nfp : ℝ)) (sum_abs_formula _ j x)
  · have hself : unravelLike S.template S.x0 = S.template := by
      rw [hx0]
      apply C73_flatten_roundtrip
      rw [List.forall₂_same]
      rintro ⟨k, v⟩ -
      refine ⟨rfl, ?_⟩
      cases v with
      | scalar x => exact Or.inl ⟨x, x, rfl, rfl⟩
      | array x => exact Or.inr ⟨x, x, rfl, rfl, rfl⟩
    have h1 := hx fun i => S.x0[i]
    have e : List.ofFn (fun i : Fin S.x0.length => S.x0[i]) = S.x0 := List.ofFn_getElem
    rw [e, ← ht', hself, ht', hl] at h1
    have h2 := Val.array.inj (Option.some.inj h1)
    have h3 := congrArg (fun t => t.getD l 0) h2
    simpa using h3.symm

/-- **C130.** With `f_l1_Phi` in slack mode the objective is convex, but it is not differentiable where the solver starts by default,
on any grid with a point of positive area: the code integrates the absolute values of the auxiliary variables, which all start at 0. -/
theorem C130_l1_kink_violated_partial (Q : FieldProblem) (others : List String) (hgrid : 0 < gridStep Q.ePhis * gridStep Q.eThetas)
    (hreg : ∃ q ∈ Q.evalGrid, Q.cp.N q.1 q.2 ≠ 0) (hn : Q.cp.nfp ≠ 0) {u v : ℝ} {S : Setup}
    (hs : quadcoilSetup (shippedRegistry FieldProblem.fns others) Q (l1Args v) u = .ok S) :
    ConvexOn ℝ Set.univ (fun x : Fin S.x0.length → ℝ => S.problem.f (List.ofFn x)) ∧
      ¬ DifferentiableAt ℝ (fun x : Fin S.x0.length → ℝ => S.problem.f (List.ofFn x)) (fun i => S.x0[i]) := by
  have hda : ∀ t ∈ Q.evalSurface.da, 0 ≤ t := by
    intro t ht
    obtain ⟨q, -, rfl⟩ := List.mem_map.1 ht
    exact mul_nonneg hgrid.le (Real.sqrt_nonneg _)
  have hpos : ∃ t ∈ Q.evalSurface.da, 0 < t := by
    obtain ⟨q, hq, hN⟩ := hreg
    exact ⟨_, List.mem_map.2 ⟨q, hq, rfl⟩, mul_pos hgrid ((V3.norm_pos_iff _).2 hN)⟩
  obtain ⟨j, hj, hf, h0⟩ := l1_objective Q others hs
  simp only [hf]
  have hnfp : (0 : ℝ) < Q.cp.nfp := by exact_mod_cast Nat.pos_of_ne_zero hn
  constructor
  · have key : ∀ l : Fin Q.evalSurface.da.length, ConvexOn ℝ Set.univ fun x : Fin S.x0.length → ℝ => Q.evalSurface.da[l] * |x (j l)| := by
      intro l
      refine ⟨convex_univ, fun x _ y _ a b ha hb _ => ?_⟩
      have hd : 0 ≤ Q.evalSurface.da[l] := hda _ (List.getElem_mem _)
      simp only [Pi.add_apply, Pi.smul_apply, smul_eq_mul]
      have := abs_add_le (a * x (j l)) (b * y (j l))
      rw [abs_mul, abs_mul, abs_of_nonneg ha, abs_of_nonneg hb] at this
      nlinarith
    refine ⟨convex_univ, fun x hx y hy a b ha hb hab => ?_⟩
    have hsum : ∑ l, Q.evalSurface.da[l] * |(a • x + b • y) (j l)| ≤
        ∑ l, (a * (Q.evalSurface.da[l] * |x (j l)|) + b * (Q.evalSurface.da[l] * |y (j l)|)) :=
      Finset.sum_le_sum fun l _ => (key l).2 hx hy ha hb hab
    rw [Finset.sum_add_distrib, ← Finset.mul_sum, ← Finset.mul_sum] at hsum
    simp only [smul_eq_mul]
    nlinarith
  · intro hd
    obtain ⟨t, ht, htpos⟩ := hpos
    obtain ⟨k, hk, rfl⟩ := List.mem_iff_getElem.1 ht
    -- along one auxiliary variable
    let γ : ℝ → Fin S.x0.length → ℝ := fun s i => S.x0[i] + if i = j ⟨k, hk⟩ then s else 0
    have hγ : DifferentiableAt ℝ γ 0 := by
      rw [differentiableAt_pi]
      intro i
      by_cases h : i = j ⟨k, hk⟩
      · simp only [γ, if_pos h]
        exact (differentiableAt_const _).add differentiableAt_id
      · simp only [γ, if_neg h]
        exact differentiableAt_const _
    have hγ0 : γ 0 = fun i => S.x0[i] := by
      funext i
      simp [γ]
    rw [← hγ0] at hd
    have hcomp := hd.comp (0 : ℝ) hγ
    have hform : ∀ s : ℝ, (∑ l, Q.evalSurface.da[l] * |γ s (j l)|) * Q.cp.nfp = Q.evalSurface.da[k] * Q.cp.nfp * |s| := by
      intro s
      rw [Finset.sum_eq_single (⟨k, hk⟩ : Fin Q.evalSurface.da.length)]
      · simp only [γ, h0, if_true, zero_add]
        show Q.evalSurface.da[k] * |s| * _ = _
        ring
      · intro l _ hl
        have : j l ≠ j ⟨k, hk⟩ := fun h => hl (hj h)
        simp only [γ, h0, if_neg this, add_zero, abs_zero, mul_zero]
      · simp
    have hc : DifferentiableAt ℝ (fun s : ℝ => Q.evalSurface.da[k] * Q.cp.nfp * |s|) 0 := by
      refine hcomp.congr_of_eventuallyEq (Filter.Eventually.of_forall fun s => ?_)
      exact (hform s).symm
    have hne : Q.evalSurface.da[k] * (Q.cp.nfp : ℝ) ≠ 0 := (mul_pos htpos hnfp).ne'
    have habs : DifferentiableAt ℝ (fun s : ℝ => |s|) 0 := by
      have := hc.const_mul (Q.evalSurface.da[k] * (Q.cp.nfp : ℝ))⁻¹
      simpa only [← mul_assoc, inv_mul_cancel₀ hne, one_mul] using this
    exact not_differentiableAt_abs_zero habs

/-- The call is legal for every problem, and the torus meets the hypotheses. -/
example (v : ℝ) : ∃ S, quadcoilSetup (shippedRegistry FieldProblem.fns []) resolvedTorus (l1Args v) 7 = .ok S ∧
    ¬ DifferentiableAt ℝ (fun x : Fin S.x0.length → ℝ => S.problem.f (List.ofFn x)) (fun i => S.x0[i]) := by
  have hok : ∃ S, quadcoilSetup (shippedRegistry FieldProblem.fns []) resolvedTorus (l1Args v) 7 = .ok S := by
    rw [C131_setup_succeeds_iff_legal]
    refine ⟨?_, ⟨rfl, rfl, by simp [l1Args, maxCurrentArgs], by simp [QuadcoilArgs.requests, l1Args, maxCurrentArgs, zipRequests]⟩,
      fun h => by cases h⟩
    have h : LegalUse (shippedRegistry FieldProblem.fns []) (some "slack") "f_l1_Phi" (.scalar v) "f" :=
      legal_shipped FieldProblem.fns [] (.inr (.inl rfl)) rfl (by decide) (by simp)
    exact h
  obtain ⟨S, hS⟩ := hok
  refine ⟨S, hS, (C130_l1_kink_violated_partial resolvedTorus [] ?_ ⟨(0, 0), ?_, (circularTorus_regular 0 0).1⟩ (by decide) hS).2⟩
  · rw [show resolvedTorus.ePhis = linspace0 (1 / (1 : ℕ)) 2 from rfl, show resolvedTorus.eThetas = linspace0 1 3 from rfl,
      gridStep_linspace0 _ _ (le_refl 2), gridStep_linspace0 _ _ (by norm_num : 2 ≤ 3)]
    norm_num
  · simp [FieldProblem.evalGrid, gridPoints, resolvedTorus, linspace0, List.range_succ]

end Verif
