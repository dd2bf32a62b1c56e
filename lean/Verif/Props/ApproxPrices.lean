import Verif.Props.CallPrices
import Verif.Props.ApproxReturned
import Verif.Props.ApproxRateExamples

/-!
# C143 in approx mode: the multipliers that a call reports, and other constraint values
-/

namespace Verif

/-- If the values exceed the limits by at most `δ` units, what the solver keeps below zero is at most `δ` plus a multiple of the
smoothing parameter, with and without merged constraints. -/
theorem approx_relaxed {Q : FieldProblem} (hp : 0 ≤ gridStep Q.plasma.phis * gridStep Q.plasma.thetas)
    (he : 0 ≤ gridStep Q.ePhis * gridStep Q.eThetas) (hE : Q.evalGrid ≠ []) (hB : ∀ c, Q.bnormal c ≠ []) {rs : List Request}
    (good : ∀ r ∈ rs, ∃ q, GoodRequest Q r q) {n : ℕ} (z : Fin n → ℝ) (merge : Bool) :
    ∃ C ≥ 0, ∀ eps, 0 < eps → eps ≤ 1 → ∀ δ, (∀ r ∈ rs, ∀ q, GoodRequest Q r q → ∀ x ∈ requestExcess Q q r z, x ≤ δ) →
      ∀ v ∈ approxConstraints Q merge rs eps z, v ≤ δ + eps * C := by
  obtain ⟨C, hC, h⟩ : ∃ C ≥ 0, ∀ eps, 0 < eps → eps ≤ 1 → ∀ δ,
      (∀ r ∈ rs, ∀ q, GoodRequest Q r q → ∀ x ∈ requestExcess Q q r z, x ≤ δ) →
      ∀ r ∈ rs, approxConstraint Q r eps z ≤ δ + eps * C := by
    clear merge
    induction rs with
    | nil => exact ⟨0, le_rfl, by simp⟩
    | cons r rs ih =>
      obtain ⟨C, hC, h⟩ := ih fun r hr => good r (by simp [hr])
      obtain ⟨q, G⟩ := good r (by simp)
      obtain ⟨D, hD⟩ := G.constraint hp he hE hB z
      refine ⟨max C D, hC.trans (le_max_left _ _), fun eps h0 h1 δ hδ r' hr' => ?_⟩
      rcases List.mem_cons.1 hr' with rfl | hr'
      · exact ((hD eps h0 h1).2 δ (hδ _ (by simp) q G)).trans
          (add_le_add le_rfl (mul_le_mul_of_nonneg_left (le_max_right _ _) h0.le))
      · exact (h eps h0 h1 δ (fun r hr => hδ r (by simp [hr])) r' hr').trans
          (add_le_add le_rfl (mul_le_mul_of_nonneg_left (le_max_left _ _) h0.le))
  refine ⟨C + Real.log rs.length, add_nonneg hC (Real.log_natCast_nonneg _), fun eps h0 h1 δ hδ v hv => ?_⟩
  have h2 := h eps h0 h1 δ hδ
  have hlog : 0 ≤ eps * Real.log rs.length := mul_nonneg h0.le (Real.log_natCast_nonneg _)
  unfold approxConstraints at hv
  split at hv
  · rename_i hm
    rw [List.mem_singleton.1 hv]
    have hne : (rs.map fun r => approxConstraint Q r eps z) ≠ [] := by simpa using hm.2
    have h3 := maxLse_le (t := δ + eps * C) h0 hne (by
      intro x hx
      obtain ⟨r, hr, rfl⟩ := List.mem_map.1 hx
      exact h2 r hr)
    rw [List.length_map] at h3
    rw [mul_add]
    linarith
  · obtain ⟨r, hr, rfl⟩ := List.mem_map.1 hv
    have := h2 r hr
    rw [mul_add]
    linarith

/-- **C143 (calls in approx mode).** A run of a call in approx mode, converged or not, bounds what other constraint values can bring.
For every potential there is a `C` that does not depend on the smoothing parameter, the run or the new values: if no constraint is
relaxed by more than `δ` times its unit and the potential satisfies the new constraints, its objective is at least the reported one,
plus the reported products of multipliers and constraint values, minus `δ + eps C` times the sum of the reported multipliers, minus
the reported gradient norm times the distance of the unknowns, minus `eps C`. -/
theorem C143_approx_prices_partial (Q : FieldProblem) (others : List String) {A B : ℕ} (R : Resolved Q A B) (hB : ∀ c, Q.bnormal c ≠ [])
    {a : QuadcoilArgs} (ha : ApproxCall a)
    (hexo : ∀ o ∈ a.objectives, ExactUnit o.1 o.2.1.size) (hexr : ∀ r ∈ a.requests, ExactUnit r.name r.unit.size)
    {phiUnit : ℝ} (hu : phiUnit ≠ 0) (hinit : ∀ p, a.phiInit = some p → p.length = HasQp.ndofs Q)
    (hlegal : ∃ S, quadcoilSetup (shippedRegistry FieldProblem.fns others) Q a phiUnit = .ok S) {d : Dofs} (hd : Pot Q d) :
    ∃ C ≥ 0, ∀ eps, 0 < eps → eps ≤ 1 →
      ∃ S, quadcoilSetup (shippedRegistry FieldProblem.fns others) Q (a.withEps eps) phiUnit = .ok S ∧
        ∀ {opt : Optimizer ℝ} (_ : opt.CountContract) (_ : opt.ValueContract) (_ : opt.GradContract realGrad)
          (_ : opt.ShapeContract realGrad) (_ : 1 ≤ a.cGrowth) (_ : 0 < a.cInit)
          {r : Status ℝ} (_ : solveConstrained opt realGrad S.problem gplusHard S.x0 = some r),
          ∃ s, outerLoop opt realGrad S.problem gplusHard S.x0 = some s ∧ 0 < s.xUnit ∧ (∀ t ∈ r.finMu, 0 ≤ t) ∧
            ∃ y : List ℝ, y.length = S.x0.length ∧ dofsOf S.template S.phiUnit y "phi" = d "phi" ∧
              ∀ (w : List ℝ), w.length = a.constraintValue.length → ∀ δ : ℝ,
                (∀ p ∈ a.requests.zip (a.withValues w).requests, p.1.relief p.2.value ≤ δ * p.1.unit.size) →
                UserFeasible (shippedRegistry FieldProblem.fns others) (a.withValues w).requests Q d →
                r.finF + Num.dot r.finMu r.finG - (δ + eps * C) * r.finMu.sum -
                    r.finGradLAug * Num.norm (Num.vsub y r.finX) / s.xUnit - eps * C ≤
                  userObjective (shippedRegistry FieldProblem.fns others) a.objectives Q d := by
  obtain ⟨S0, hS0⟩ := hlegal
  have hl := setup_legal hS0
  have hside : ∀ r ∈ a.requests, r.type = "<=" ∨ r.type = ">=" := by
    intro r hr
    obtain ⟨h1, h2⟩ := hl r hr
    have := (legal_side (ha.constraints r hr).1 h1).1
    rcases h2 with h | h | h
    · exact .inl h
    · exact .inr h
    · exact absurd h this
  have good := approx_good (Q := Q) (others := others) R.plasma R.eval_nonneg (rs := a.requests)
    fun r hr => ⟨(ha.constraints r hr).1, (ha.constraints r hr).2, hexr r hr, hside r hr, (hl r hr).1⟩
  have hphi : ∀ c : List ℝ, phiOnly (.array c) "phi" = .array c := fun c => by simp [phiOnly]
  obtain ⟨z, hdz, hzl⟩ := hd
  obtain ⟨z, rfl⟩ := eq_ofFn z hzl
  obtain ⟨C, hC, hcon⟩ := approx_relaxed R.plasma R.eval_nonneg R.evalGrid_ne hB good z a.mergeConstraints
  obtain ⟨D, hD, hobj⟩ := approxObjective_error Q others R.plasma R.eval_nonneg ha.objectives ha.objective_use hexo z
  refine ⟨max C D, hC.trans (le_max_left _ _), fun eps h0 h1 => ?_⟩
  obtain ⟨S, hS⟩ : ∃ S, quadcoilSetup (shippedRegistry FieldProblem.fns others) Q (a.withEps eps) phiUnit = .ok S := by
    have := (C131_setup_succeeds_iff_legal others Q a phiUnit).1 ⟨S0, hS0⟩
    exact (C131_setup_succeeds_iff_legal others Q (a.withEps eps) phiUnit).2 this
  refine ⟨S, hS, fun {opt} hc hv hgr hshape hgrow hcinit {r} hr => ?_⟩
  have ha' : ApproxCall (a.withEps eps) := ⟨ha.mode, ha.objectives, ha.objective_use, ha.constraints⟩
  obtain ⟨T⟩ := approx_data Q others R.plasma R.eval_nonneg ha' hS
  have hn : ((a.withEps eps).phiInit.getD (List.replicate (HasQp.ndofs Q) 0)).length = (cpNdofs Q.cp.stellsym Q.cp.mpol Q.cp.ntor).1 := by
    show (a.phiInit.getD (List.replicate (HasQp.ndofs Q) 0)).length = HasQp.ndofs Q
    cases hpi : a.phiInit with
    | none => simp
    | some p => exact hinit p hpi
  obtain ⟨back, forth⟩ := T.flat_iff hu hn
  obtain ⟨G, M, b, hG, hH, hf, hfd, hGc, hGd⟩ := C134_approx_convex_partial Q others R.plasma R.eval_nonneg ha' h0 hS
  obtain ⟨hci, hcg, hl0, hm0⟩ := setup_params hS
  have hlam : S.problem.lamInit.length = 0 := by
    rw [hl0, T.h]
    rfl
  obtain ⟨s, hs1, hxu, hmul, hmu0, -, hbound⟩ := C143_reported_multipliers hc hv hgr hshape rfl hG hH hf hfd hGc hGd hlam rfl
    (hgrow.trans_eq hcg.symm) (hcinit.trans_eq hci.symm) hr
  obtain ⟨y, hyl, hyphi, hyf, hyg⟩ := forth z
  refine ⟨s, hs1, hxu, hmu0, y, hyl, hyphi.trans hdz.symm, fun w hw δ hrel hfeas => ?_⟩
  -- the constraint functions of the first call at this vector
  have hzip : List.Forall₂ SameButValue a.requests (a.withValues w).requests := zipRequests_values _ _ _ _ _ hw.symm
  have hexc : ∀ r ∈ a.requests, ∀ q, GoodRequest Q r q → ∀ x ∈ requestExcess Q q r z, x ≤ δ := by
    intro r hr q Gr
    obtain ⟨i, hi, rfl⟩ := List.mem_iff_getElem.1 hr
    have hlen := hzip.length_eq
    obtain ⟨e1, e2, e3⟩ := List.forall₂_iff_get.1 hzip |>.2 i hi (by omega)
    simp only [List.get_eq_getElem] at e1 e2 e3
    have hr1 := hrel (a.requests[i], (a.withValues w).requests[i]) (List.mem_iff_getElem.2 ⟨i, by simp; omega, by simp⟩)
    have hfi := hfeas (a.withValues w).requests[i] (List.getElem_mem _)
    rw [e1, e2, rawOf_shipped Q others Gr.quantity hdz] at hfi
    rw [Gr.excess]
    simp only at hr1
    rcases Gr.type with ht | ⟨ht, -⟩
    · refine .inl ⟨ht, fun v hv => (hfi.1 ht v hv).trans ?_⟩
      simp only [Request.relief, ht, String.reduceEq, if_false] at hr1
      linarith
    · refine .inr ⟨ht, fun v hv => le_trans ?_ (hfi.2.1 ht v hv)⟩
      simp only [Request.relief, ht, if_true] at hr1
      linarith
  have hle : ∀ t ∈ S.problem.g y, t ≤ δ + eps * max C D := by
    intro t ht
    rw [hyg] at ht
    exact (hcon eps h0 h1 δ hexc t ht).trans (add_le_add le_rfl (mul_le_mul_of_nonneg_left (le_max_left _ _) h0.le))
  have h5 := hbound y hyl
  have h2 : Num.dot r.finLam (Num.vsub (S.problem.h y) r.finH) = 0 := by
    rw [T.h]
    simp [Num.dot, Num.vsub, num_sum]
  have hgl : (S.problem.g y).length = S.problem.muInit.length := by
    obtain ⟨y, rfl⟩ := exists_ofFn hyl
    rw [hG]
    simp
  have hGl : r.finG.length = S.problem.muInit.length := by
    obtain ⟨-, hG', -⟩ := C08_status_consistent opt hc realGrad S.problem gplusHard S.x0 r hr
    obtain ⟨x, hx⟩ := exists_ofFn (solve_length hshape hr)
    rw [hG', hx, hG]
    simp
  obtain ⟨γ, hγ⟩ := exists_ofFn hgl
  obtain ⟨γ', hγ'⟩ := exists_ofFn hGl
  obtain ⟨mu, hmu⟩ := exists_ofFn hmul
  have h3 : Num.dot r.finMu (Num.vsub (S.problem.g y) r.finG) ≤ (δ + eps * max C D) * r.finMu.sum - Num.dot r.finMu r.finG := by
    rw [hγ] at hle ⊢
    rw [hγ']
    rw [hmu] at hmu0 ⊢
    simp only [Num.vsub, zipWith_ofFn, num_dot_ofFn, num_sub, mul_sub, Finset.sum_sub_distrib, List.sum_ofFn, Finset.mul_sum]
    refine sub_le_sub_right (Finset.sum_le_sum fun i _ => ?_) _
    rw [mul_comm (δ + eps * max C D)]
    exact mul_le_mul_of_nonneg_left (hle _ (by rw [List.mem_ofFn']; exact ⟨i, rfl⟩)) (hmu0 _ (by rw [List.mem_ofFn']; exact ⟨i, rfl⟩))
  have h4 : S.problem.f y ≤ userObjective (shippedRegistry FieldProblem.fns others) a.objectives Q d + eps * max C D := by
    rw [hyf]
    have h6 := (hobj eps h0 h1).2
    have h7 : userObjective (shippedRegistry FieldProblem.fns others) a.objectives Q (phiOnly (.array (List.ofFn z))) =
        userObjective (shippedRegistry FieldProblem.fns others) a.objectives Q d := by
      rw [objective_congr Q others ha.objectives R.plasma R.eval_nonneg ((hphi _).trans hdz.symm)]
    rw [h7] at h6
    refine h6.trans (add_le_add le_rfl (mul_le_mul_of_nonneg_left (le_max_right _ _) h0.le))
  linarith

/-- The torus meets all hypotheses, with and without merged constraints. -/
example (merge : Bool) : ∃ C ≥ 0, ∀ eps, 0 < eps → eps ≤ 1 → ∃ S,
    quadcoilSetup (shippedRegistry FieldProblem.fns []) resolvedTorus ((approxArgs merge).withEps eps) 7 = .ok S ∧
      ∀ {opt : Optimizer ℝ} (_ : opt.CountContract) (_ : opt.ValueContract) (_ : opt.GradContract realGrad)
        (_ : opt.ShapeContract realGrad) (_ : 1 ≤ (approxArgs merge).cGrowth) (_ : 0 < (approxArgs merge).cInit)
        {r : Status ℝ} (_ : solveConstrained opt realGrad S.problem gplusHard S.x0 = some r),
        ∃ s y, 0 < s.xUnit ∧
          (UserFeasible (shippedRegistry FieldProblem.fns []) ((approxArgs merge).withValues (approxArgs merge).constraintValue).requests
            resolvedTorus (phiOnly (.array [0])) →
          r.finF + Num.dot r.finMu r.finG - (0 + eps * C) * r.finMu.sum -
            r.finGradLAug * Num.norm (Num.vsub y r.finX) / Status.xUnit s - eps * C ≤
              userObjective (shippedRegistry FieldProblem.fns []) (approxArgs merge).objectives resolvedTorus (phiOnly (.array [0]))) := by
  obtain ⟨C, hC, h⟩ := C143_approx_prices_partial resolvedTorus [] resolvedTorus_resolved torus_bnormal (approxArgs_call merge)
    (by
      intro o ho
      rw [approxArgs_objectives] at ho
      simp only [List.mem_cons, List.not_mem_nil, or_false] at ho
      rcases ho with rfl | rfl | rfl | rfl <;> simp [ExactUnit, UnitArg.size])
    (by
      intro r hr
      rw [approxArgs_requests] at hr
      simp only [List.mem_cons, List.not_mem_nil, or_false] at hr
      rcases hr with rfl | rfl | rfl | rfl <;> simp [ExactUnit])
    (phiUnit := 7) (by norm_num) (by simp [approxArgs, smoothArgs]) (approxArgs_ok merge) (d := phiOnly (.array [0]))
    ⟨[0], by simp [phiOnly], by rfl⟩
  refine ⟨C, hC, fun eps h0 h1 => ?_⟩
  obtain ⟨S, hS, hrun⟩ := h eps h0 h1
  refine ⟨S, hS, fun hc hv hgr hsh hg hci r hr => ?_⟩
  obtain ⟨s, -, hx, -, y, -, -, hb⟩ := hrun hc hv hgr hsh hg hci hr
  refine ⟨s, y, hx, fun hf => hb _ rfl 0 ?_ hf⟩
  intro p hp
  change p ∈ (approxArgs merge).requests.zip (approxArgs merge).requests at hp
  obtain ⟨i, hi, rfl⟩ := List.mem_iff_getElem.1 hp
  simp [Request.relief]

end Verif
