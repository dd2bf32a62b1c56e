import Verif.Props.ApproxRate
import Verif.Props.ReturnedPotential

/-!
# C136: how far the potential returned in approx mode is from the solution of the user's problem
-/

namespace Verif

open Real CpParams

section
variable {Q : FieldProblem} {others : List String} {a : QuadcoilArgs} {phiUnit : ℝ} {S : Setup}

/-- The Lagrangian of the smoothed problem grows at least like the squared distance of the potential. -/
theorem ApproxData.lagrangian_growth (T : ApproxData Q a phiUnit S) (hp : 0 ≤ gridStep Q.plasma.phis * gridStep Q.plasma.thetas)
    (he : 0 ≤ gridStep Q.ePhis * gridStep Q.eThetas) (ha : ApproxCall a) (heps : 0 < a.sp.lseEpsilon)
    (hs : quadcoilSetup (shippedRegistry FieldProblem.fns others) Q a phiUnit = .ok S) {n : ℕ}
    (hn : (a.phiInit.getD (List.replicate (HasQp.ndofs Q) 0)).length = n) {o : String × UnitArg × ℝ} {u : ℝ} (ho : o ∈ a.objectives)
    (hK : o.1 = "f_K") (hw : 0 ≤ o.2.2) (hu : o.2.1 = .scalar u) {μ : ℝ}
    (hco : ∀ x y : Fin n → ℝ, μ * ∑ i, (x i - y i) ^ 2 ≤ diffSq (kTerms Q 1 _) x y)
    {x mu : List ℝ} (hsad : IsSaddle S.x0.length S.problem.f S.problem.g S.problem.h x [] mu)
    (hcompl : listDot mu (S.problem.g x) = 0) {c : List ℝ} (hc : dofsOf S.template phiUnit x "phi" = .array c)
    {y k : List ℝ} (hy : y.length = S.x0.length) (hk : dofsOf S.template phiUnit y "phi" = .array k) :
    o.2.2 / |u| * μ * sqDist c k ≤ S.problem.f y + listDot mu (S.problem.g y) - S.problem.f x := by
  subst hn
  obtain ⟨rest, hrest, hsplit⟩ := approxObjective_split Q _ ho hK hu
  have hH := (approxObjective_smooth Q hp he (objs := rest) (fun o ho => ha.objectives o (hrest o ho))
    (fun o ho => ha.objective_use o (hrest o ho)) heps (a.phiInit.getD (List.replicate (HasQp.ndofs Q) 0)).length).comp_coords
    T.flat.pos T.flat.unit
  have hG : EachFn SmoothConvex fun x : Fin S.x0.length → ℝ => S.problem.g (List.ofFn x) := by
    rw [funext T.g]
    refine (approxConstraints_smooth Q hp he (rs := a.requests) (fun r hr => ?_) a.mergeConstraints heps _).comp T.flat.coef fun f hf =>
      hf.comp_coords T.flat.pos T.flat.unit
    obtain ⟨h1, h2⟩ := ha.constraints r hr
    exact ⟨h1, h2, (legal_side h1 (setup_legal hs r hr).1).2⟩
  obtain ⟨fs, hfs, hfc⟩ := hG
  replace hfs : ∀ x : Fin S.x0.length → ℝ, S.problem.g (List.ofFn x) = fs.map fun f => f x := hfs
  have hR := hH.add (SmoothConvex.wsum mu hsad.mu_nonneg fs hfc)
  obtain ⟨x, rfl⟩ := exists_ofFn hsad.length
  obtain ⟨y, rfl⟩ := exists_ofFn hy
  let D : List (ℝ × ((Fin S.x0.length → ℝ) → ℝ)) :=
    (kTerms Q (o.2.2 / |u|) (a.phiInit.getD (List.replicate (HasQp.ndofs Q) 0)).length).map fun t => (t.1, fun x => t.2 (T.flat.coef x))
  have hDs : ∀ x, termsSq D x = termsSq (kTerms Q (o.2.2 / |u|) _) (T.flat.coef x) := by
    intro x
    simp only [termsSq, D, List.map_map, Function.comp_def]
  have hDd : ∀ x y, diffSq D x y = diffSq (kTerms Q (o.2.2 / |u|) _) (T.flat.coef x) (T.flat.coef y) := by
    intro x y
    simp only [diffSq, D, List.map_map, Function.comp_def]
  have hL : ∀ z : Fin S.x0.length → ℝ, termsSq D z +
      (approxObjective Q rest a.sp.lseEpsilon (T.flat.coef z) + (List.zipWith (· * ·) mu (fs.map fun f => f z)).sum) =
      S.problem.f (List.ofFn z) + listDot mu (S.problem.g (List.ofFn z)) := by
    intro z
    rw [hDs, T.f, hfs, listDot, hsplit]
    ring
  have hh : ∀ z, listDot [] (S.problem.h z) = 0 := fun z => by simp [listDot]
  have hgrow := growth (T := D) (by
    intro t ht
    obtain ⟨t, ht', rfl⟩ := List.mem_map.1 ht
    exact (kTerms_affine Q _ _ t ht').comp_coords T.flat.pos T.flat.unit) hR.convex (S := Set.univ) (fun _ _ _ _ _ _ _ => trivial)
    (x := x) trivial (fun z _ => by
      have := hsad.lagrangian (List.ofFn z) (by simp)
      rw [hh, add_zero] at this
      have e1 := hL x
      have e2 := hL z
      rw [hcompl, add_zero] at e1
      exact (e1.trans_le this).trans_eq e2.symm) y trivial
  have e1 := hL x
  have e2 := hL y
  rw [hcompl, add_zero] at e1
  replace hgrow := hgrow.trans_eq (congrArg₂ (· - ·) e2 e1)
  rw [hDd, kTerms_scale] at hgrow
  have key : ∀ x : Fin S.x0.length → ℝ, dofsOf S.template phiUnit (List.ofFn x) "phi" = .array (List.ofFn (T.flat.coef x)) := fun x => by
    rw [T.flat.phi x]
    rfl
  rw [Val.array.inj (hc.symm.trans (key x)), Val.array.inj (hk.symm.trans (key y)), sqDist_ofFn, mul_assoc]
  exact (mul_le_mul_of_nonneg_left (hco _ _) (div_nonneg hw (abs_nonneg _))).trans hgrow

end

/-- The size of nonnegative numbers is at most their sum. -/
theorem sumSq_le_sum_sq {mu : List ℝ} (h : ∀ m ∈ mu, 0 ≤ m) : sumSq mu ≤ mu.sum ^ 2 := by
  induction mu with
  | nil => simp [sumSq]
  | cons m mu ih =>
    have h1 := ih fun m hm => h m (by simp [hm])
    have h2 : 0 ≤ mu.sum := List.sum_nonneg fun m hm => h m (by simp [hm])
    have h3 := h m (by simp)
    have e : sumSq (m :: mu) = m ^ 2 + sumSq mu := by simp [sumSq]
    rw [e, List.sum_cons]
    nlinarith

theorem sqDist_triangle {n : ℕ} (c k y : Fin n → ℝ) : sqDist (List.ofFn c) (List.ofFn y) ≤
    2 * sqDist (List.ofFn c) (List.ofFn k) + 2 * sqDist (List.ofFn k) (List.ofFn y) := by
  rw [sqDist_ofFn, sqDist_ofFn, sqDist_ofFn, Finset.mul_sum, Finset.mul_sum, ← Finset.sum_add_distrib]
  exact Finset.sum_le_sum fun i _ => by nlinarith [sq_nonneg (c i - k i - (k i - y i))]

/-- A strictly feasible potential stays so in approx mode, with a margin and a value that do not depend on the smoothing parameter. -/
theorem approx_strict {Q : FieldProblem} {others : List String} {A B : ℕ} (R : Resolved Q A B) (hB : ∀ c, Q.bnormal c ≠ [])
    {objs : List (String × UnitArg × ℝ)}
    (h : ConvexObjectives objs) (hne : ∀ o ∈ objs, o.1 ≠ "f_huber_K") (hex : ∀ o ∈ objs, ExactUnit o.1 o.2.1.size) {rs : List Request}
    (good : ∀ r ∈ rs, ∃ q, GoodRequest Q r q) {n : ℕ} {z : Fin n → ℝ}
    (hz : StrictlyFeasible (shippedRegistry FieldProblem.fns others) rs Q (phiOnly (.array (List.ofFn z)))) (merge : Bool) :
    ∃ δ > 0, ∃ M, ∃ eps0 > 0, ∀ eps, 0 < eps → eps ≤ eps0 →
      (∀ v ∈ approxConstraints Q merge rs eps z, v ≤ -δ) ∧ approxObjective Q objs eps z ≤ M := by
  obtain ⟨δ, hδ, C, hC, h1⟩ := common_margin _ z (approx_margin R.plasma R.eval_nonneg R.evalGrid_ne hB good hz merge)
  obtain ⟨D, hD, h2⟩ := approxObjective_error Q others R.plasma R.eval_nonneg h hne hex z
  refine ⟨δ / 2, by positivity, userObjective (shippedRegistry FieldProblem.fns others) objs Q (phiOnly (.array (List.ofFn z))) + D,
    min 1 (δ / (2 * (C + 1))), by positivity, fun eps h0 hle => ?_⟩
  have e1 : eps ≤ 1 := hle.trans (min_le_left _ _)
  have e2 : eps ≤ δ / (2 * (C + 1)) := hle.trans (min_le_right _ _)
  rw [le_div_iff₀ (by positivity)] at e2
  constructor
  · rw [approxFamilies_eq, List.forall_mem_map]
    intro g hg
    have := h1 g hg eps h0 e1
    nlinarith
  · have := (h2 eps h0 e1).2
    nlinarith

/-- **C136.** For a legal call in approx mode with convex objectives that contain `f_K` with a positive weight, and a potential that
satisfies the constraints strictly: let `c` be the solution of the problem of the user. There are `K` and `eps0 > 0` such that with every
smoothing parameter `eps` in `(0, eps0]`, with or without merged constraints, the problem passed to the solver has a minimiser with
multipliers whose sum is at most `K`, and

* for every vector, feasible or not, the squared distance of its potential from `c` is at most `K` times the sum of `eps`, the excess of
  the smoothed objective, and `K` times the violation;
* for the vector returned by the solver, whatever the optimiser does, the excess may be replaced by the final gradient norm times the
  distance to the minimiser, minus the final products of multipliers and constraints;
* if every inner problem is solved exactly, it is at most `K` times the sum of `eps` and one over the final penalty.

`K` is the same for all smoothing parameters, all optimisers and all penalties. -/
theorem C136_approx_distance_partial (Q : FieldProblem) (others : List String) {A B : ℕ} (R : Resolved Q A B) (hB : ∀ c, Q.bnormal c ≠ [])
    {a : QuadcoilArgs} (ha : ApproxCall a) (hK : ∃ o ∈ a.objectives, o.1 = "f_K" ∧ 0 < o.2.2)
    (hexo : ∀ o ∈ a.objectives, ExactUnit o.1 o.2.1.size) (hexr : ∀ r ∈ a.requests, ExactUnit r.name r.unit.size)
    {phiUnit : ℝ} (hu : phiUnit ≠ 0) (hinit : ∀ p, a.phiInit = some p → p.length = HasQp.ndofs Q)
    (hlegal : ∃ S, quadcoilSetup (shippedRegistry FieldProblem.fns others) Q a phiUnit = .ok S) {d : Dofs} (hd : Pot Q d)
    (hstrict : StrictlyFeasible (shippedRegistry FieldProblem.fns others) a.requests Q d) :
    ∃ c : List ℝ, (∀ e, UserMinimiser (shippedRegistry FieldProblem.fns others) a.objectives a.requests Q (Pot Q) e ↔ e "phi" = .array c) ∧
      ∃ K ≥ 0, ∃ eps0 > 0, ∀ eps, 0 < eps → eps ≤ eps0 →
        ∃ S, quadcoilSetup (shippedRegistry FieldProblem.fns others) Q (a.withEps eps) phiUnit = .ok S ∧
        ∃ xs mu, FlatMinimiser S xs ∧ IsSaddle S.x0.length S.problem.f S.problem.g S.problem.h xs [] mu ∧ mu.sum ≤ K ∧
        (∀ y : List ℝ, y.length = S.x0.length → ∃ k, dofsOf S.template S.phiUnit y "phi" = .array k ∧ sqDist c k ≤
          K * (eps + (S.problem.f y - S.problem.f xs + K * Real.sqrt (sqViolation (S.problem.g y) (S.problem.h y))))) ∧
        ∀ {opt : Optimizer ℝ} (_ : opt.CountContract) (_ : opt.ValueContract) (_ : opt.GradContract realGrad)
          (_ : opt.ShapeContract realGrad) (_ : 1 ≤ a.cGrowth) (_ : 0 < a.cInit)
          {r : Status ℝ} (_ : solveConstrained opt realGrad S.problem gplusHard S.x0 = some r),
          ∃ s k, outerLoop opt realGrad S.problem gplusHard S.x0 = some s ∧ 0 < s.xUnit ∧
            dofsOf S.template S.phiUnit r.finX "phi" = .array k ∧
            sqDist c k ≤ K * (eps + (r.finGradLAug * Num.norm (Num.vsub xs r.finX) / s.xUnit - Num.dot r.finMu r.finG
              + K * Real.sqrt (sqViolation r.finG r.finH))) ∧
            ((∀ tol s t, s.finX.length = S.x0.length → 0 < s.finC → 0 < s.xUnit → s.finLam.length = 0 →
              s.finMu.length = S.problem.muInit.length → outerBody opt realGrad S.problem gplusHard tol s = some t → t.finGradLAug = 0) →
              a.cInit ≤ s.finC ∧ sqDist c k ≤ K * (eps + 1 / s.finC)) := by
  obtain ⟨c, huser, K1, hK1, eps1, he1, hrate⟩ := C135_approx_rate_partial Q others R hB ha hK hexo hexr hu hinit hlegal hd hstrict
  obtain ⟨S0, hS0⟩ := hlegal
  have hl := setup_legal hS0
  have hside : ∀ r ∈ a.requests, r.type = "<=" ∨ r.type = ">=" := by
    intro r hr
    obtain ⟨h1, h2⟩ := hl r hr
    have := (legal_side (ha.constraints r hr).1 h1).1
    rcases h2 with h | h | h
    · exact .inl h
    · exact .inr h
    · exact absurd h this
  have good := approx_good (Q := Q) (others := others) R.plasma R.eval_nonneg (rs := a.requests)
    fun r hr => ⟨(ha.constraints r hr).1, (ha.constraints r hr).2, hexr r hr, hside r hr, (hl r hr).1⟩
  have hphi : ∀ c : List ℝ, phiOnly (.array c) "phi" = .array c := fun c => by simp [phiOnly]
  have hcl : c.length = (cpNdofs Q.cp.stellsym Q.cp.mpol Q.cp.ntor).1 := by
    obtain ⟨⟨c', hc', hl'⟩, -⟩ := (huser (phiOnly (.array c))).2 (hphi c)
    rw [hphi] at hc'
    rw [Val.array.inj hc']
    exact hl'
  obtain ⟨c, rfl⟩ := eq_ofFn c hcl
  obtain ⟨z, hdz, hzl⟩ := hd
  obtain ⟨z, rfl⟩ := eq_ofFn z hzl
  have hz : StrictlyFeasible (shippedRegistry FieldProblem.fns others) a.requests Q (phiOnly (.array (List.ofFn z))) := by
    intro r hr
    obtain ⟨q, hq⟩ := approx_registered Q R.plasma R.eval_nonneg (ha.constraints r hr).1
    have := hstrict r hr
    rwa [rawOf_shipped Q others hq hdz, ← rawOf_shipped Q others hq (hphi _)] at this
  obtain ⟨δ, hδ, M, eps2, he2, hmargin⟩ := approx_strict R hB ha.objectives ha.objective_use hexo good hz a.mergeConstraints
  obtain ⟨o, ho, hKo, hw⟩ := hK
  obtain ⟨-, ⟨u, hou, hu0⟩, -⟩ := ha.objectives o ho
  obtain ⟨hdef, hnn⟩ := R.definite one_pos
  obtain ⟨μ, hμ, hco⟩ := hdef.coercive (kTerms_affine Q _ _) hnn
  have hν : 0 < o.2.2 / |u| * μ := mul_pos (div_pos hw (abs_pos.2 hu0)) hμ
  generalize hνd : o.2.2 / |u| * μ = ν at hν
  generalize hUd : userObjective (shippedRegistry FieldProblem.fns others) a.objectives Q (phiOnly (.array (List.ofFn c))) = U at hrate
  have hN : 0 ≤ max ((M - U) / δ) 0 := le_max_right _ _
  generalize hNd : max ((M - U) / δ) 0 = N at hN
  refine ⟨List.ofFn c, huser, 2 * K1 + 2 / ν + N + 4 * N ^ 2 / ν, by positivity, min eps1 eps2, lt_min he1 he2, fun eps h0 hle => ?_⟩
  obtain ⟨S, hS, k, ⟨xs, hxs⟩, hmin, -, -, hck⟩ := hrate eps h0 (hle.trans (min_le_left _ _))
  obtain ⟨hmar, hobj⟩ := hmargin eps h0 (hle.trans (min_le_right _ _))
  have ha' : ApproxCall (a.withEps eps) := ⟨ha.mode, ha.objectives, ha.objective_use, ha.constraints⟩
  obtain ⟨T⟩ := approx_data Q others R.plasma R.eval_nonneg ha' hS
  have hn : ((a.withEps eps).phiInit.getD (List.replicate (HasQp.ndofs Q) 0)).length = (cpNdofs Q.cp.stellsym Q.cp.mpol Q.cp.ntor).1 := by
    show (a.phiInit.getD (List.replicate (HasQp.ndofs Q) 0)).length = HasQp.ndofs Q
    cases hpi : a.phiInit with
    | none => simp
    | some p => exact hinit p hpi
  obtain ⟨back, forth⟩ := T.flat_iff hu hn
  have hconv := C134_approx_convex_partial Q others R.plasma R.eval_nonneg ha' h0 hS
  obtain ⟨zf, hzfl, -, hzf, hzg⟩ := forth z
  replace hzf : S.problem.f zf ≤ M := hzf.trans_le hobj
  replace hzg : ∀ v ∈ S.problem.g zf, v ≤ -δ := by
    rw [hzg]
    exact hmar
  obtain ⟨mu, hsad, hcompl⟩ := C132_minimiser_is_saddle hconv hzfl (fun v hv => (hzg v hv).trans_lt (by linarith)) hxs.1.1 hxs.1.2.1
    fun y hy hg => hxs.2 y ⟨hy, hg, by rw [T.h]; simp [AllZero]⟩
  obtain ⟨hdx, hUf, -⟩ := hmin xs hxs
  have hgl : ∀ y : List ℝ, y.length = S.x0.length → (S.problem.g y).length = (S.problem.g xs).length := by
    intro y hy
    obtain ⟨G, M, b, hG, -⟩ := hconv
    obtain ⟨y, rfl⟩ := exists_ofFn hy
    obtain ⟨z, hz⟩ := exists_ofFn hsad.length
    rw [hz, hG, hG]
    simp
  have hsum : mu.sum ≤ N := by
    have h1 := C132_multiplier_size hsad hzfl (hgl zf hzfl) hzg
    have h2 : mu.sum ≤ (M - U) / δ := by
      rw [le_div_iff₀ hδ]
      linarith
    rw [← hNd]
    exact h2.trans (le_max_left _ _)
  have hsum0 : 0 ≤ mu.sum := List.sum_nonneg hsad.mu_nonneg
  have hsq : sumSq mu ≤ N ^ 2 := (sumSq_le_sum_sq hsad.mu_nonneg).trans (pow_le_pow_left₀ hsum0 hsum 2)
  have hsqrt : Real.sqrt (sumSq mu) ≤ N := by
    rw [← Real.sqrt_sq hN]
    exact Real.sqrt_le_sqrt hsq
  -- the distance from the minimiser of the smoothed problem
  obtain ⟨kv, hkv, -⟩ := back xs hxs.1.1
  obtain rfl : k = List.ofFn kv := Val.array.inj (hdx.symm.trans hkv)
  have hnear : ∀ y : List ℝ, y.length = S.x0.length → ν * sqDist (List.ofFn kv) (dofsOf S.template S.phiUnit y "phi").entries ≤
      S.problem.f y - S.problem.f xs + Real.sqrt (sumSq mu) * Real.sqrt (sqViolation (S.problem.g y) (S.problem.h y)) := by
    intro y hy
    obtain ⟨yv, hyv, -⟩ := back y hy
    have h2 := T.lagrangian_growth R.plasma R.eval_nonneg ha' h0 hS hn ho hKo hw.le hou hco hsad hcompl
      (by rw [← T.unit']; exact hdx) hy (by rw [← T.unit']; exact hyv)
    have h3 := listDot_le_violation hsad.mu_nonneg (hsad.mu_length.trans (hgl y hy).symm)
    rw [T.h, hyv, ← hνd]
    simp only [Val.entries]
    linarith
  -- the distance from the solution of the user's problem
  have hfin : ∀ (y : List ℝ), y.length = S.x0.length → ∃ k', dofsOf S.template S.phiUnit y "phi" = .array k' ∧
      sqDist (List.ofFn c) k' ≤ 2 * K1 * eps + 2 / ν * (ν * sqDist (List.ofFn kv) (dofsOf S.template S.phiUnit y "phi").entries) ∧
      0 ≤ ν * sqDist (List.ofFn kv) (dofsOf S.template S.phiUnit y "phi").entries := by
    intro y hy
    obtain ⟨yv, hyv, -⟩ := back y hy
    refine ⟨List.ofFn yv, hyv, ?_, ?_⟩
    · rw [hyv]
      simp only [Val.entries]
      have h1 := sqDist_triangle c kv yv
      have h2 : 2 / ν * (ν * sqDist (List.ofFn kv) (List.ofFn yv)) = 2 * sqDist (List.ofFn kv) (List.ofFn yv) := by
        field_simp
      rw [h2]
      linarith
    · rw [hyv]
      simp only [Val.entries]
      rw [sqDist_ofFn]
      exact mul_nonneg hν.le (Finset.sum_nonneg fun i _ => sq_nonneg _)
  have hq1 : 0 ≤ 2 / ν := by positivity
  have hq2 : 0 ≤ 4 * N ^ 2 / ν := by positivity
  have combine : ∀ (x E V : ℝ), 0 ≤ x → 0 ≤ V → x ≤ E + Real.sqrt (sumSq mu) * V →
      2 * K1 * eps + 2 / ν * x ≤ (2 * K1 + 2 / ν + N + 4 * N ^ 2 / ν) * (eps + (E + (2 * K1 + 2 / ν + N + 4 * N ^ 2 / ν) * V)) := by
    intro x E V hx hV hle
    have h1 : Real.sqrt (sumSq mu) * V ≤ (2 * K1 + 2 / ν + N + 4 * N ^ 2 / ν) * V := mul_le_mul_of_nonneg_right (by linarith) hV
    have h2 : x ≤ E + (2 * K1 + 2 / ν + N + 4 * N ^ 2 / ν) * V := by linarith
    have h3 : 2 / ν * x ≤ (2 * K1 + 2 / ν + N + 4 * N ^ 2 / ν) * (E + (2 * K1 + 2 / ν + N + 4 * N ^ 2 / ν) * V) :=
      mul_le_mul (by linarith) h2 hx (by linarith)
    have h4 : 2 * K1 * eps ≤ (2 * K1 + 2 / ν + N + 4 * N ^ 2 / ν) * eps := mul_le_mul_of_nonneg_right (by linarith) h0.le
    rw [mul_add]
    linarith
  refine ⟨S, hS, xs, mu, hxs, hsad, by linarith, fun y hy => ?_, ?_⟩
  · obtain ⟨k', hk', h1, h2⟩ := hfin y hy
    exact ⟨k', hk', h1.trans (combine _ _ _ h2 (Real.sqrt_nonneg _) (hnear y hy))⟩
  · intro opt hc hv hgr hshape hgrow hcinit r hr
    obtain ⟨hci, hcg, hl0, hm0⟩ := setup_params hS
    have hlam : S.problem.lamInit = [] := by
      rw [hl0, T.h]
      rfl
    obtain ⟨s, hs', hxu, hrl, hd1, hd2⟩ := solver_distance hconv T.h hlam hm0 hsad hnear hc hv hgr hshape
      (hgrow.trans_eq hcg.symm) (hcinit.trans_eq hci.symm) hr
    obtain ⟨k', hk', h1, h2⟩ := hfin r.finX hrl
    refine ⟨s, k', hs', hxu, hk', h1.trans (combine _ _ _ h2 (Real.sqrt_nonneg _) hd1), fun hexact => ?_⟩
    obtain ⟨h3, h4⟩ := hd2 hexact
    have h5 : (a.withEps eps).cInit = a.cInit := rfl
    rw [hci, h5] at h3
    refine ⟨h3, h1.trans ?_⟩
    have hcp : 0 < s.finC := hcinit.trans_le h3
    have h6 : 2 / ν * (ν * sqDist (List.ofFn kv) (dofsOf S.template S.phiUnit r.finX "phi").entries) ≤ 4 * N ^ 2 / ν * (1 / s.finC) := by
      refine (mul_le_mul_of_nonneg_left (h4.trans (div_le_div_of_nonneg_right (mul_le_mul_of_nonneg_left hsq (by norm_num)) hcp.le)) hq1).trans
        (le_of_eq ?_)
      field_simp
      ring
    have h7 : 4 * N ^ 2 / ν * (1 / s.finC) ≤ (2 * K1 + 2 / ν + N + 4 * N ^ 2 / ν) * (1 / s.finC) :=
      mul_le_mul_of_nonneg_right (by linarith) (by positivity)
    have h8 : 2 * K1 * eps ≤ (2 * K1 + 2 / ν + N + 4 * N ^ 2 / ν) * eps := mul_le_mul_of_nonneg_right (by linarith) h0.le
    rw [mul_add]
    linarith

end Verif
