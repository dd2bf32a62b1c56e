import Verif.Props.StrictMultipliers

/-!
# C133: how far the returned potential is from the solution
-/

namespace Verif

/-- What the setup passes to the solver unchanged, and the initial multipliers. -/
theorem setup_params {P : Type} [HasQp P] {reg : Registry P} {qp : P} {a : QuadcoilArgs} {phiUnit : ℝ} {S : Setup}
    (h : quadcoilSetup reg qp a phiUnit = .ok S) : S.problem.cInit = a.cInit ∧ S.problem.cGrowth = a.cGrowth ∧
      S.problem.lamInit = List.replicate (S.problem.h S.x0).length 0 ∧ S.problem.muInit = List.replicate (S.problem.g S.x0).length 0 := by
  unfold quadcoilSetup at h
  simp only [bind, Except.bind] at h
  split at h
  · cases h
  split at h
  · cases h
  rename_i g0 hg0
  split at h
  · cases h
  rename_i h0 hh0
  split at h
  · cases h
  cases h
  refine ⟨rfl, rfl, ?_, ?_⟩
  · simp only [hh0, okList]
  · simp only [hg0, okList]

theorem sqDist_zero (n : ℕ) (l : List ℝ) (h : l.length = n) : sqDist (List.replicate n 0) l = sumSq l := by
  subst h
  induction l with
  | nil => rfl
  | cons t l ih =>
    simp only [sqDist, sumSq, List.length_cons, List.replicate_succ, List.zipWith_cons_cons, List.sum_cons, List.map_cons] at ih ⊢
    rw [ih]
    ring

section
variable {Q : FieldProblem} {others : List String} {a : QuadcoilArgs} {phiUnit : ℝ} {S : Setup}

/-- The objective of the solver's problem is the weighted `f_K` of the potential plus a convex function. -/
theorem SmoothData.current_split (T : SmoothData Q others a phiUnit S) {o : String × UnitArg × ℝ} {u : ℝ} (ho : o ∈ a.objectives)
    (hK : o.1 = "f_K") (hu : o.2.1 = .scalar u) {n : ℕ}
    (F : FlatDofs n (fun x : Fin S.x0.length → ℝ => dofsOf S.template phiUnit (List.ofFn x)) ((dictUnion T.acc.slack T.c.slack).map Prod.fst)) :
    ∃ H : (Fin S.x0.length → ℝ) → ℝ, SmoothConvex H ∧ ∀ x : Fin S.x0.length → ℝ, S.problem.f (List.ofFn x) =
      termsSq (kTerms Q (o.2.2 / |u|) n) (fun l => x (F.pos l) * F.unit) + H x := by
  rw [T.objectives] at ho
  obtain ⟨i, hi⟩ := List.mem_iff_getElem?.1 ho
  obtain ⟨name, ua, w⟩ := o
  simp only at hK hu
  subst hK hu
  rw [List.getElem?_zip_eq_some, List.getElem?_zip_eq_some] at hi
  obtain ⟨hn, hui, hwi⟩ := hi
  obtain ⟨hn', -⟩ := List.getElem?_eq_some_iff.1 hn
  have hiA : i < T.As.length := by rw [T.ns_length]; exact hn'
  obtain ⟨name, q, u', w', -, -, hq, he, hwi', -, hni, hui'⟩ := T.useA i hiA
  obtain rfl : "f_K" = name := Option.some.inj (hn.symm.trans hni)
  obtain rfl : u = u' := UnitArg.scalar.inj (Option.some.inj (hui.symm.trans hui'))
  obtain rfl : q = Quantity.generateC2 (num FieldProblem.fns.fK) ["f", "<="] := (Option.some.inj hq).symm
  have hmem : ((T.As[i]).val, w) ∈ (T.As.map fun A => A.val).zip T.ws := by
    refine List.mem_iff_getElem?.2 ⟨i, ?_⟩
    rw [List.getElem?_zip_eq_some]
    exact ⟨by simp [hiA], hwi⟩
  obtain ⟨l1, l2, hl⟩ := List.append_of_mem hmem
  have hterms := T.objective_terms
  have hf := T.fvalue
  rw [hl] at hterms hf
  have hsm : SmoothConvex fun x : Fin S.x0.length → ℝ => (((l1 ++ l2).map fun fw (x : Fin S.x0.length → ℝ) =>
      fw.2 * (fw.1 Q (dofsOf S.template phiUnit (List.ofFn x))).entries.headD 0).map fun f => f x).sum := by
    refine SmoothConvex.list_sum _ fun f hfm => hterms f ?_
    rw [List.map_append] at hfm ⊢
    rcases List.mem_append.1 hfm with h | h
    · exact List.mem_append_left _ h
    · exact List.mem_append_right _ (List.mem_cons_of_mem _ h)
  refine ⟨_, hsm, fun x => ?_⟩
  have hval : ((T.As[i]).val Q (dofsOf S.template phiUnit (List.ofFn x))).entries.headD 0 =
      Q.fK (List.ofFn fun l => x (F.pos l) * F.unit) / |u| := by
    have hphi : coefs (dofsOf S.template phiUnit (List.ofFn x)) = List.ofFn fun l => x (F.pos l) * F.unit := by
      have : dofsOf S.template phiUnit (List.ofFn x) "phi" = .array (List.ofFn fun l => x (F.pos l) * F.unit) := F.phi x
      rw [coefs, this]
      rfl
    rw [he, ← hphi]
    unfold addedOf
    split
    · rfl
    · split <;> rfl
  rw [hf, kTerms_sum]
  simp only [List.map_append, List.map_cons, List.sum_append, List.sum_cons, hval]
  ring

theorem SmoothData.flat_ndofs (T : SmoothData Q others a phiUnit S) (hinit : ∀ p, a.phiInit = some p → p.length = HasQp.ndofs Q) :
    Nonempty (FlatDofs (cpNdofs Q.cp.stellsym Q.cp.mpol Q.cp.ntor).1
      (fun x : Fin S.x0.length → ℝ => dofsOf S.template phiUnit (List.ofFn x)) ((dictUnion T.acc.slack T.c.slack).map Prod.fst)) := by
  have hL : (a.phiInit.getD (List.replicate (HasQp.ndofs Q) 0)).length = (cpNdofs Q.cp.stellsym Q.cp.mpol Q.cp.ntor).1 := by
    cases hi : a.phiInit with
    | none => simp [HasQp.ndofs]
    | some p => exact hinit p hi
  rw [← hL]
  exact ⟨T.flat⟩

/-- The Lagrangian with the multipliers of a saddle point grows at least like any function `E` of two potentials that the current term
bounds, such as a multiple of the squared distance. -/
theorem SmoothData.lagrangian_growth (T : SmoothData Q others a phiUnit S)
    (hinit : ∀ p, a.phiInit = some p → p.length = HasQp.ndofs Q) {o : String × UnitArg × ℝ} {u : ℝ} (ho : o ∈ a.objectives)
    (hK : o.1 = "f_K") (hw : 0 ≤ o.2.2) (hu : o.2.1 = .scalar u) {E : List ℝ → List ℝ → ℝ}
    (hco : ∀ x y : Fin (cpNdofs Q.cp.stellsym Q.cp.mpol Q.cp.ntor).1 → ℝ, E (List.ofFn x) (List.ofFn y) ≤ diffSq (kTerms Q 1 _) x y)
    {x mu : List ℝ} (hsad : IsSaddle S.x0.length S.problem.f S.problem.g S.problem.h x [] mu)
    (hcompl : listDot mu (S.problem.g x) = 0) {c : List ℝ} (hc : dofsOf S.template phiUnit x "phi" = .array c)
    {y k : List ℝ} (hy : y.length = S.x0.length) (hk : dofsOf S.template phiUnit y "phi" = .array k) :
    o.2.2 / |u| * E c k ≤ S.problem.f y + listDot mu (S.problem.g y) - S.problem.f x := by
  obtain ⟨F⟩ := T.flat_ndofs hinit
  obtain ⟨H, hH, hf⟩ := T.current_split ho hK hu F
  obtain ⟨fs, hfs, hfc⟩ := EachFn.flatMap (T.acc.g ++ T.c.g)
    (fun g (x : Fin S.x0.length → ℝ) => (g Q (dofsOf S.template phiUnit (List.ofFn x))).entries) T.gsmooth
  have hg : ∀ x : Fin S.x0.length → ℝ, S.problem.g (List.ofFn x) = fs.map fun f => f x := fun x => (T.gvalue _).trans (hfs x)
  have hR := hH.add (SmoothConvex.wsum mu hsad.mu_nonneg fs hfc)
  obtain ⟨x, rfl⟩ := exists_ofFn hsad.length
  obtain ⟨y, rfl⟩ := exists_ofFn hy
  let D : List (ℝ × ((Fin S.x0.length → ℝ) → ℝ)) :=
    (kTerms Q (o.2.2 / |u|) (cpNdofs Q.cp.stellsym Q.cp.mpol Q.cp.ntor).1).map fun t => (t.1, fun x => t.2 fun l => x (F.pos l) * F.unit)
  have hDs : ∀ x, termsSq D x = termsSq (kTerms Q (o.2.2 / |u|) _) fun l => x (F.pos l) * F.unit := by
    intro x
    simp only [termsSq, D, List.map_map, Function.comp_def]
  have hDd : ∀ x y, diffSq D x y = diffSq (kTerms Q (o.2.2 / |u|) _) (fun l => x (F.pos l) * F.unit) fun l => y (F.pos l) * F.unit := by
    intro x y
    simp only [diffSq, D, List.map_map, Function.comp_def]
  have hL : ∀ z : Fin S.x0.length → ℝ, termsSq D z + (H z + (List.zipWith (· * ·) mu (fs.map fun f => f z)).sum) =
      S.problem.f (List.ofFn z) + listDot mu (S.problem.g (List.ofFn z)) := by
    intro z
    rw [hDs, hf, hg, listDot]
    ring
  have hh : ∀ z, listDot [] (S.problem.h z) = 0 := fun z => by simp [listDot]
  have hgrow := growth (T := D) (by
    intro t ht
    obtain ⟨t, ht', rfl⟩ := List.mem_map.1 ht
    exact (kTerms_affine Q _ _ t ht').comp_coords F.pos F.unit) hR.convex (S := Set.univ) (fun _ _ _ _ _ _ _ => trivial)
    (x := x) trivial (fun z _ => by
      have := hsad.lagrangian (List.ofFn z) (by simp)
      rw [hh, add_zero] at this
      rw [hL, hL, hcompl, add_zero]
      exact this) y trivial
  rw [hL, hL, hcompl, add_zero, hDd, kTerms_scale] at hgrow
  have e1 : c = List.ofFn fun l => x (F.pos l) * F.unit := Val.array.inj (hc.symm.trans (F.phi x))
  have e2 : k = List.ofFn fun l => y (F.pos l) * F.unit := Val.array.inj (hk.symm.trans (F.phi y))
  rw [e1, e2]
  exact (mul_le_mul_of_nonneg_left (hco _ _) (div_nonneg hw (abs_nonneg _))).trans hgrow

/-- The potential of a flat vector is an array. -/
theorem SmoothData.potential (T : SmoothData Q others a phiUnit S) {x : List ℝ} (hx : x.length = S.x0.length) :
    ∃ c, dofsOf S.template phiUnit x "phi" = .array c := by
  obtain ⟨x, rfl⟩ := exists_ofFn hx
  exact ⟨_, T.flat.phi x⟩

end

/-- The product of multipliers and constraints is at most the size of the multipliers times the violation. -/
theorem listDot_le_violation {mu g : List ℝ} (h : ∀ m ∈ mu, 0 ≤ m) (hl : mu.length = g.length) :
    listDot mu g ≤ Real.sqrt (sumSq mu) * Real.sqrt (sqViolation g []) := by
  obtain ⟨n, hn⟩ : ∃ n, n = g.length := ⟨_, rfl⟩
  obtain ⟨g, rfl⟩ := exists_ofFn hn.symm
  obtain ⟨mu, rfl⟩ := exists_ofFn (hl.trans hn.symm)
  rw [listDot_ofFn]
  have e1 : sumSq (List.ofFn mu) = ∑ i, mu i ^ 2 := by
    rw [sumSq, map_ofFn', List.sum_ofFn]
  have e2 : sqViolation (List.ofFn g) [] = ∑ i, max (g i) 0 ^ 2 := by
    rw [sqViolation, sumSq, sumSq, map_ofFn', map_ofFn', List.sum_ofFn]
    simp
  rw [e1, e2]
  refine le_trans (Finset.sum_le_sum fun i _ => ?_) (Real.sum_mul_le_sqrt_mul_sqrt _ _ _)
  exact mul_le_mul_of_nonneg_left (le_max_left _ _) (h _ (by rw [List.mem_ofFn']; exact ⟨i, rfl⟩))

theorem StrictlyFeasible.feasible {P : Type} {reg : Registry P} {rs : List Request} {qp : P} {d : Dofs}
    (h : StrictlyFeasible reg rs qp d) : UserFeasible reg rs qp d := by
  intro r hr
  rcases h r hr with ⟨ht, h⟩ | ⟨ht, h⟩
  · exact ⟨fun _ x hx => (h x hx).le, fun h' => (by rw [ht] at h'; simp at h'), fun h' => (by rw [ht] at h'; simp at h')⟩
  · exact ⟨fun h' => (by rw [ht] at h'; simp at h'), fun _ x hx => (h x hx).le, fun h' => (by rw [ht] at h'; simp at h')⟩

/-- A bound of a function by excess and violation gives bounds of it at the vector that the solver returns. -/
theorem solver_distance {S : Setup} (hconv : IsConvexProblem S.x0.length 0 S.problem.muInit.length S.problem) (hh : ∀ y, S.problem.h y = [])
    (hlam : S.problem.lamInit = []) (hm0 : S.problem.muInit = List.replicate (S.problem.g S.x0).length 0) {xs mu : List ℝ}
    (hsad : IsSaddle S.x0.length S.problem.f S.problem.g S.problem.h xs [] mu) {D : List ℝ → ℝ}
    (hall : ∀ y : List ℝ, y.length = S.x0.length → D y ≤
      S.problem.f y - S.problem.f xs + Real.sqrt (sumSq mu) * Real.sqrt (sqViolation (S.problem.g y) (S.problem.h y)))
    {opt : Optimizer ℝ} (hc : opt.CountContract) (hv : opt.ValueContract) (hgr : opt.GradContract realGrad)
    (hshape : opt.ShapeContract realGrad) (hgrow : 1 ≤ S.problem.cGrowth) (hcinit : 0 < S.problem.cInit)
    {r : Status ℝ} (hr : solveConstrained opt realGrad S.problem gplusHard S.x0 = some r) :
    ∃ s, outerLoop opt realGrad S.problem gplusHard S.x0 = some s ∧ 0 < s.xUnit ∧ r.finX.length = S.x0.length ∧
      D r.finX ≤ r.finGradLAug * Num.norm (Num.vsub xs r.finX) / s.xUnit - Num.dot r.finMu r.finG
        + Real.sqrt (sumSq mu) * Real.sqrt (sqViolation r.finG r.finH) ∧
      ((∀ tol s t, s.finX.length = S.x0.length → 0 < s.finC → 0 < s.xUnit → s.finLam.length = 0 →
        s.finMu.length = S.problem.muInit.length → outerBody opt realGrad S.problem gplusHard tol s = some t → t.finGradLAug = 0) →
        S.problem.cInit ≤ s.finC ∧ D r.finX ≤ 2 * sumSq mu / s.finC) := by
  have hgl : ∀ y : List ℝ, y.length = S.x0.length → (S.problem.g y).length = (S.problem.g xs).length := by
    intro y hy
    obtain ⟨G, M, b, hG, -⟩ := hconv
    obtain ⟨y, rfl⟩ := exists_ofFn hy
    obtain ⟨z, hz⟩ := exists_ofFn hsad.length
    rw [hz, hG, hG]
    simp
  have hrl := solve_length hshape hr
  obtain ⟨hF, hG', hH', -⟩ := C08_status_consistent opt hc realGrad S.problem gplusHard S.x0 r hr
  have hdist := hall r.finX hrl
  rw [← hF, ← hG', ← hH'] at hdist
  have hconv' := hconv
  obtain ⟨G, M, b, hG, hH, hf, hfd, hGc, hGd⟩ := hconv'
  obtain ⟨s, hs', hxu, hgap⟩ := C108_gap_bound hc hv hgr hshape rfl hG hH hf hfd hGc hGd (by rw [hlam]; rfl) rfl hgrow hcinit hr
  refine ⟨s, hs', hxu, hrl, ?_, fun hexact => ?_⟩
  · have h1 := hgap xs hsad.length hsad.ineq hsad.eq
    have hd0 : Num.dot r.finLam r.finH = 0 := by
      rw [hH', hh]
      simp [Num.dot, num_sum]
    rw [hd0] at h1
    linarith
  · obtain ⟨s', hs'', hcs, hviol, hval⟩ :=
      C111_violation_rate hc hv hgr hshape hconv hgrow rfl (by rw [hlam]; rfl) rfl hcinit hsad hexact hr
    obtain rfl : s = s' := Option.some.inj (hs'.symm.trans hs'')
    refine ⟨hcs, ?_⟩
    have hcp : 0 < s.finC := hcinit.trans_le hcs
    have e0 : sqDist S.problem.lamInit [] = 0 := by rw [hlam]; rfl
    have e1 : sumSq ([] : List ℝ) = 0 := rfl
    have e2 : sqDist S.problem.muInit mu = sumSq mu := by
      rw [hm0, sqDist_zero _ _ (hsad.mu_length.trans (hgl S.x0 rfl).symm)]
    rw [e0, e2, zero_add] at hviol
    rw [e0, e1, e2] at hval
    simp only [zero_add, add_zero] at hval
    have h4 : Real.sqrt (sqViolation r.finG r.finH) ≤ Real.sqrt (sumSq mu) / s.finC := by
      refine (Real.sqrt_le_sqrt hviol).trans_eq ?_
      rw [Real.sqrt_div' _ (sq_nonneg _), Real.sqrt_sq hcp.le]
    have h5 := mul_le_mul_of_nonneg_left h4 (Real.sqrt_nonneg (sumSq mu))
    have h6 := (abs_le.1 hval).2
    have hnn : 0 ≤ sumSq mu := List.sum_nonneg fun x hx => by
      obtain ⟨t, -, rfl⟩ := List.mem_map.1 hx
      positivity
    have h7 : Real.sqrt (sumSq mu) * (Real.sqrt (sumSq mu) / s.finC) = sumSq mu / s.finC := by
      rw [← mul_div_assoc, Real.mul_self_sqrt hnn]
    have h8 : (sumSq mu + sumSq mu) / (2 * s.finC) = sumSq mu / s.finC := by
      field_simp
      ring
    have h9 : 2 * sumSq mu / s.finC = sumSq mu / s.finC + sumSq mu / s.finC := by ring
    rw [h9]
    rw [h7] at h5
    rw [h8] at h6
    linarith

/-- **C133.** There is a positive number `μ` that depends on the geometry and the grid only such that the following holds for every call
with smooth convex quantities, a positive weight `w` of `f_K` with unit `u`, and a strictly feasible potential. The problem of the user has
exactly one solution `c`, the problem passed to the solver has a minimiser with multipliers, and

* for every vector, feasible or not, the squared distance of its potential from `c`, times `w / |u|` and `μ`, is at most the excess of the
  objective plus the size of the multipliers times the violation;
* for the vector returned by the solver, whatever the optimiser does, it is at most the final gradient norm times the distance to the
  minimiser, minus the final products of multipliers and constraints, plus the size of the multipliers times the final violation;
* if every inner problem is solved exactly, it is at most twice the squared size of the multipliers divided by the final penalty. -/
theorem C133_distance_bound_partial (Q : FieldProblem) (others : List String) {A B : ℕ} (R : Resolved Q A B) (hB : ∀ c, Q.bnormal c ≠ []) :
    ∃ μ > 0, ∀ {a : QuadcoilArgs} (_ : SmoothCall a) (_ : ConvexCall a) {o : String × UnitArg × ℝ} {u : ℝ} (_ : o ∈ a.objectives)
      (_ : o.1 = "f_K") (_ : 0 < o.2.2) (_ : o.2.1 = .scalar u) {phiUnit : ℝ} (_ : phiUnit ≠ 0)
      (_ : ∀ p, a.phiInit = some p → p.length = HasQp.ndofs Q) {S : Setup}
      (_ : quadcoilSetup (shippedRegistry FieldProblem.fns others) Q a phiUnit = .ok S) {d : Dofs} (_ : Pot Q d)
      (_ : StrictlyFeasible (shippedRegistry FieldProblem.fns others) a.requests Q d),
      ∃ c, (∀ e, UserMinimiser (shippedRegistry FieldProblem.fns others) a.objectives a.requests Q (Pot Q) e ↔ e "phi" = .array c) ∧
      ∃ xs mu, FlatMinimiser S xs ∧ IsSaddle S.x0.length S.problem.f S.problem.g S.problem.h xs [] mu ∧
      (∀ y : List ℝ, y.length = S.x0.length → ∃ k, dofsOf S.template S.phiUnit y "phi" = .array k ∧ o.2.2 / |u| * μ * sqDist c k ≤
        S.problem.f y - S.problem.f xs + Real.sqrt (sumSq mu) * Real.sqrt (sqViolation (S.problem.g y) (S.problem.h y))) ∧
      ∀ {opt : Optimizer ℝ} (_ : opt.CountContract) (_ : opt.ValueContract) (_ : opt.GradContract realGrad)
        (_ : opt.ShapeContract realGrad) (_ : 1 ≤ a.cGrowth) (_ : 0 < a.cInit)
        {r : Status ℝ} (_ : solveConstrained opt realGrad S.problem gplusHard S.x0 = some r),
        ∃ s k, outerLoop opt realGrad S.problem gplusHard S.x0 = some s ∧ 0 < s.xUnit ∧
          dofsOf S.template S.phiUnit r.finX "phi" = .array k ∧
          o.2.2 / |u| * μ * sqDist c k ≤ r.finGradLAug * Num.norm (Num.vsub xs r.finX) / s.xUnit - Num.dot r.finMu r.finG
            + Real.sqrt (sumSq mu) * Real.sqrt (sqViolation r.finG r.finH) ∧
          ((∀ tol s t, s.finX.length = S.x0.length → 0 < s.finC → 0 < s.xUnit → s.finLam.length = 0 →
            s.finMu.length = S.problem.muInit.length → outerBody opt realGrad S.problem gplusHard tol s = some t → t.finGradLAug = 0) →
            a.cInit ≤ s.finC ∧ o.2.2 / |u| * μ * sqDist c k ≤ 2 * sumSq mu / s.finC) := by
  obtain ⟨hdef, hnn⟩ := R.definite one_pos
  obtain ⟨μ, hμ, hco⟩ := hdef.coercive (kTerms_affine Q _ _) hnn
  refine ⟨μ, hμ, ?_⟩
  intro a ha hca o u ho hK hw hu phiUnit hpu hinit S hs d hd hstrict
  have hE : Q.ePhis ≠ [] ∧ Q.eThetas ≠ [] := by
    have h1 := R.two_le_A
    have h2 := R.two_le_B
    rw [R.ePhis, R.eThetas]
    constructor <;> (intro h; have := congrArg List.length h; simp [linspace0] at this; omega)
  have hwell := call_wellPosed Q others hE hB R.plasma R.eval_nonneg hca
  obtain ⟨c, hcl, ⟨xs, hxs⟩, hmin, huser⟩ :=
    C129_solver_problem_has_one_potential Q others R hB hca hpu hinit hs ⟨d, hd, hstrict.feasible⟩
  obtain ⟨mu, hsad, hcompl⟩ := C132_multipliers_exist_partial R.plasma R.eval_nonneg ha hpu hinit hwell hs hd hstrict hxs
  obtain ⟨T⟩ := smooth_data Q others R.plasma R.eval_nonneg ha hs
  have hSu : S.phiUnit = phiUnit := by
    obtain ⟨_, _, _, _, h, -⟩ := quadcoilSetup_ok hs
    exact h
  have hconv := C130_smooth_convex_partial Q others R.plasma R.eval_nonneg ha hs
  obtain ⟨hci, hcg, hl0, hm0⟩ := setup_params hs
  have hgl : ∀ y : List ℝ, y.length = S.x0.length → (S.problem.g y).length = (S.problem.g xs).length := by
    intro y hy
    obtain ⟨G, M, b, hG, -⟩ := hconv
    obtain ⟨y, rfl⟩ := exists_ofFn hy
    obtain ⟨z, hz⟩ := exists_ofFn hsad.length
    rw [hz, hG, hG]
    simp
  have hall : ∀ y : List ℝ, y.length = S.x0.length → ∃ k, dofsOf S.template S.phiUnit y "phi" = .array k ∧ o.2.2 / |u| * μ * sqDist c k ≤
      S.problem.f y - S.problem.f xs + Real.sqrt (sumSq mu) * Real.sqrt (sqViolation (S.problem.g y) (S.problem.h y)) := by
    intro y hy
    obtain ⟨k, hk⟩ := T.potential hy
    refine ⟨k, by rw [hSu]; exact hk, ?_⟩
    have h2 := T.lagrangian_growth hinit ho hK hw.le hu (E := fun c k => μ * sqDist c k) (fun x y => by rw [sqDist_ofFn]; exact hco x y)
      hsad hcompl (by rw [← hSu]; exact (hmin xs hxs).1) hy hk
    rw [← mul_assoc] at h2
    have h3 := listDot_le_violation hsad.mu_nonneg (hsad.mu_length.trans (hgl y hy).symm)
    rw [T.hvalue]
    linarith
  refine ⟨c, huser, xs, mu, hxs, hsad, hall, ?_⟩
  intro opt hc hv hgr hshape hgrow hcinit r hr
  have hlam : S.problem.lamInit = [] := by
    rw [hl0, T.hvalue]
    rfl
  obtain ⟨s, hs', hxu, hrl, hd1, hd2⟩ := solver_distance hconv T.hvalue hlam hm0 hsad
    (D := fun y => o.2.2 / |u| * μ * sqDist c (dofsOf S.template S.phiUnit y "phi").entries) (fun y hy => by
      obtain ⟨k, hk, h⟩ := hall y hy
      rw [hk]
      exact h) hc hv hgr hshape (hgrow.trans_eq hcg.symm) (hcinit.trans_eq hci.symm) hr
  obtain ⟨k, hk, -⟩ := hall r.finX hrl
  simp only [hk, Val.entries] at hd1 hd2
  refine ⟨s, k, hs', hxu, hk, hd1, fun hexact => ?_⟩
  rw [← hci]
  exact hd2 hexact

/-- **C133 (converged runs).** If the solver ends with zero gradient, no violation and vanishing products of multipliers and constraints,
the returned potential is the solution of the problem of the user. No strictly feasible potential is needed. -/
theorem C133_converged_partial (Q : FieldProblem) (others : List String) {A B : ℕ} (R : Resolved Q A B) (hB : ∀ c, Q.bnormal c ≠ [])
    {a : QuadcoilArgs} (ha : SmoothCall a) (hca : ConvexCall a) {phiUnit : ℝ} (hpu : phiUnit ≠ 0)
    (hinit : ∀ p, a.phiInit = some p → p.length = HasQp.ndofs Q) {S : Setup}
    (hs : quadcoilSetup (shippedRegistry FieldProblem.fns others) Q a phiUnit = .ok S)
    (hfeas : ∃ d, Pot Q d ∧ UserFeasible (shippedRegistry FieldProblem.fns others) a.requests Q d)
    {opt : Optimizer ℝ} (hc : opt.CountContract) (hv : opt.ValueContract) (hgr : opt.GradContract realGrad)
    (hshape : opt.ShapeContract realGrad) (hgrow : 1 ≤ a.cGrowth) (hcinit : 0 < a.cInit)
    {r : Status ℝ} (hr : solveConstrained opt realGrad S.problem gplusHard S.x0 = some r) (h0 : r.finGradLAug = 0)
    (h1 : AllNonpos r.finG) (h3 : Num.dot r.finMu r.finG = 0) :
    UserMinimiser (shippedRegistry FieldProblem.fns others) a.objectives a.requests Q (Pot Q) (dofsOf S.template S.phiUnit r.finX) ∧
      r.finF = userObjective (shippedRegistry FieldProblem.fns others) a.objectives Q (dofsOf S.template S.phiUnit r.finX) := by
  obtain ⟨T⟩ := smooth_data Q others R.plasma R.eval_nonneg ha hs
  obtain ⟨hci, hcg, hl0, -⟩ := setup_params hs
  rw [← hci] at hcinit
  rw [← hcg] at hgrow
  obtain ⟨G, M, b, hG, hH, hf, hfd, hGc, hGd⟩ := C130_smooth_convex_partial Q others R.plasma R.eval_nonneg ha hs
  obtain ⟨hF, -, hH', -⟩ := C08_status_consistent opt hc realGrad S.problem gplusHard S.x0 r hr
  obtain ⟨hxl, hxg, hxh, hxm⟩ := C108_converged_is_minimiser hc hv hgr hshape rfl hG hH hf hfd hGc hGd (by rw [hl0, T.hvalue]; rfl) rfl
    hgrow hcinit hr h0 h1 (by rw [hH', T.hvalue]; simp [AllZero]) h3
  have hmin : FlatMinimiser S r.finX := ⟨⟨hxl, hxg, hxh⟩, fun y hy => hxm y hy.1 hy.2.1 hy.2.2⟩
  obtain ⟨c, -, -, hone, huser⟩ := C129_solver_problem_has_one_potential Q others R hB hca hpu hinit hs hfeas
  obtain ⟨e1, e2⟩ := hone _ hmin
  refine ⟨(huser _).2 e1, ?_⟩
  rw [hF, e2]
  exact objective_congr Q others hca.objectives R.plasma R.eval_nonneg (by rw [e1]; simp [phiOnly])

end Verif
