import Verif.Props.InnerProblem
import Verif.Props.ApproxReturned

/-!
# C137: the inner problems of calls, and C138: the potential returned without constraints
-/

namespace Verif

open Real CpParams

theorem foldl_slack_nil {P : Type} (As : List (Added P)) (h : ∀ A ∈ As, A.slack = []) :
    As.foldl (fun s A => dictUnion s A.slack) ([] : List (String × (P → Dofs → Val))) = [] := by
  induction As with
  | nil => rfl
  | cons A As ih =>
    rw [List.foldl_cons, h A (by simp)]
    exact ih fun B hB => h B (by simp [hB])

theorem addQuantity_plain {P : Type} [HasQp P] {reg : Registry P} {name : String} {unit : UnitArg} {uc : String} {sm : Option String}
    {sp : SmoothingParams} {A : Added P} (hsm : sm ≠ some "slack") (h : addQuantity reg name unit uc sm sp = .ok A) :
    A.slack = [] ∧ A.g = [] ∧ A.h = [] := by
  obtain ⟨q, u, -, -, -, -, rfl⟩ := addQuantity_ok.1 h
  unfold addedOf
  rw [if_neg hsm]
  split <;> exact ⟨rfl, rfl, rfl⟩

/-- Without auxiliary variables the flat vector has one entry for each coefficient, and without constraints there are no functions. -/
theorem setup_plain {P : Type} [HasQp P] {reg : Registry P} {qp : P} {a : QuadcoilArgs} {phiUnit : ℝ} {S : Setup}
    (h : quadcoilSetup reg qp a phiUnit = .ok S) (hsm : a.smoothing ≠ some "slack") :
    S.x0.length = (a.phiInit.getD (List.replicate (HasQp.ndofs qp) 0)).length ∧
      (a.requests = [] → a.mergeConstraints = false → S.unconstrained = true ∧ (∀ x, S.problem.g x = []) ∧ ∀ x, S.problem.h x = []) := by
  obtain ⟨o, c, ho, hc, -, ht, hx0, hun, -, -, -, hg, hh⟩ := quadcoilSetup_ok h
  obtain ⟨ns, us, ws, acc, hnw, hacc, rfl, -⟩ := parseObjectives_ok ho
  obtain ⟨As, -, -, hA, -, hAs, hAg, hAh⟩ := objLoop_functions _ _ _ _ _ _ _ hacc
  unfold parseConstraints at hc
  rw [zipRequests_value] at hc
  have hc : a.requests.foldlM (parseStep reg a.smoothing a.sp) ⟨[], [], []⟩ = .ok c := by
    by_cases hlen : a.constraintName.length ≠ a.constraintType.length ∨ a.constraintName.length ≠ a.constraintUnit.length ∨
        a.constraintName.length ≠ (if a.constraintName.length > 0 then a.constraintValue else []).length
    · rw [if_pos hlen] at hc
      cases hc
    · rwa [if_neg hlen] at hc
  obtain ⟨Bs, hBf, hBs, -, -⟩ := parse_functions _ _ _ _ _ _ hc
  have hAe : ∀ A ∈ As, A.slack = [] ∧ A.g = [] ∧ A.h = [] := fun A hAm => by
    obtain ⟨i, hi, rfl⟩ := List.mem_iff_getElem.1 hAm
    have hl := hA.length_eq
    exact addQuantity_plain hsm ((List.forall₂_iff_get.1 hA).2 i (by omega) hi)
  have hBe : ∀ B ∈ Bs, B.slack = [] := fun B hBm => by
    obtain ⟨i, hi, rfl⟩ := List.mem_iff_getElem.1 hBm
    have hl := hBf.length_eq
    exact (addQuantity_plain hsm ((List.forall₂_iff_get.1 hBf).2 i (by omega) hi)).1
  have hag : acc.g = [] := List.eq_nil_iff_forall_not_mem.2 fun g hg => by
    rcases hAg g hg with h | ⟨A, hA, h⟩
    · simp at h
    · rw [(hAe A hA).2.1] at h
      simp at h
  have hah : acc.h = [] := List.eq_nil_iff_forall_not_mem.2 fun g hg => by
    rcases hAh g hg with h | ⟨A, hA, h⟩
    · simp at h
    · rw [(hAe A hA).2.2] at h
      simp at h
  have hsl : (joinParsed ⟨fTot acc.f ws, acc.g, acc.h, acc.slack⟩ c).slack = [] := by
    show dictUnion acc.slack c.slack = []
    rw [hAs, hBs, foldl_slack_nil _ fun A hA => (hAe A hA).1, foldl_slack_nil _ hBe]
    rfl
  rw [hsl] at ht
  refine ⟨?_, fun hr hm => ?_⟩
  · rw [hx0, ht]
    simp [xTemplate, sortKeys, ravel, Val.entries]
  · rw [hr, foldlM_except_nil] at hc
    cases hc
    have e1 : (joinParsed ⟨fTot acc.f ws, acc.g, acc.h, acc.slack⟩ ⟨[], [], []⟩).g = [] := by
      show acc.g ++ [] = []
      rw [hag]
      rfl
    have e2 : (joinParsed ⟨fTot acc.f ws, acc.g, acc.h, acc.slack⟩ ⟨[], [], []⟩).h = [] := by
      show acc.h ++ [] = []
      rw [hah]
      rfl
    refine ⟨?_, fun x => ?_, fun x => ?_⟩
    · rw [hun, hm, e1, e2]
      rfl
    · rw [hg, e1, hm, okList_merge]
      rfl
    · rw [hh, e2, okList_merge]
      rfl

/-- The current term makes the objective strongly convex if every entry of the flat vector is a coefficient. -/
theorem strong_flat (Q : FieldProblem) {N n : ℕ} (hN : N = n) {D : (Fin N → ℝ) → Dofs} {ks : List String} (F : FlatDofs n D ks) {w μ : ℝ}
    (hw : 0 ≤ w) (hco : ∀ x y : Fin n → ℝ, μ * ∑ i, (x i - y i) ^ 2 ≤ diffSq (kTerms Q 1 n) x y) {H : (Fin N → ℝ) → ℝ} (hH : SmoothConvex H) :
    StrongConvex (w * μ * F.unit ^ 2) fun x : Fin N → ℝ => termsSq (kTerms Q w n) (fun l => x (F.pos l) * F.unit) + H x := by
  let T : List (ℝ × ((Fin N → ℝ) → ℝ)) := (kTerms Q w n).map fun t => (t.1, fun x => t.2 fun l => x (F.pos l) * F.unit)
  have hDs : ∀ x, termsSq T x = termsSq (kTerms Q w n) fun l => x (F.pos l) * F.unit := by
    intro x
    simp only [termsSq, T, List.map_map, Function.comp_def]
  have hDd : ∀ x y, diffSq T x y = diffSq (kTerms Q w n) (fun l => x (F.pos l) * F.unit) fun l => y (F.pos l) * F.unit := by
    intro x y
    simp only [diffSq, T, List.map_map, Function.comp_def]
  have hb : Function.Bijective F.pos := by
    rw [Fintype.bijective_iff_injective_and_card]
    exact ⟨F.inj, by simp [hN]⟩
  have hT := StrongConvex.terms (T := T) (μ := w * μ * F.unit ^ 2) (by
    intro t ht
    obtain ⟨t, ht', rfl⟩ := List.mem_map.1 ht
    exact (kTerms_affine Q _ _ t ht').comp_coords F.pos F.unit) (by
    intro x y
    rw [hDd, kTerms_scale]
    have h1 := mul_le_mul_of_nonneg_left (hco (fun l => x (F.pos l) * F.unit) fun l => y (F.pos l) * F.unit) hw
    refine le_trans (le_of_eq ?_) h1
    have h2 : ∑ l, (x (F.pos l) * F.unit - y (F.pos l) * F.unit) ^ 2 = F.unit ^ 2 * ∑ i, (x i - y i) ^ 2 := by
      rw [← hb.sum_comp fun i => (x i - y i) ^ 2, Finset.mul_sum]
      exact Finset.sum_congr rfl fun l _ => by ring
    rw [h2]
    ring)
  have h := hT.add hH
  simp only [hDs] at h
  exact h

section
variable {Q : FieldProblem} {others : List String} {a : QuadcoilArgs} {phiUnit : ℝ} {S : Setup}

theorem SmoothData.strong (T : SmoothData Q others a phiUnit S) {n : ℕ}
    (hn : (a.phiInit.getD (List.replicate (HasQp.ndofs Q) 0)).length = n) (hlen : S.x0.length = n) {o : String × UnitArg × ℝ} {u : ℝ}
    (ho : o ∈ a.objectives) (hK : o.1 = "f_K") (hw : 0 ≤ o.2.2) (hu : o.2.1 = .scalar u) {μ : ℝ}
    (hco : ∀ x y : Fin n → ℝ, μ * ∑ i, (x i - y i) ^ 2 ≤ diffSq (kTerms Q 1 _) x y) :
    StrongConvex (o.2.2 / |u| * μ * phiUnit ^ 2) fun x : Fin S.x0.length → ℝ => S.problem.f (List.ofFn x) := by
  subst hn
  obtain ⟨H, hH, hf⟩ := T.current_split ho hK hu T.flat
  have h := strong_flat Q hlen T.flat (div_nonneg hw (abs_nonneg u)) hco hH
  rw [T.flat_unit] at h
  rw [funext hf]
  simp only [T.flat_unit]
  exact h

theorem ApproxData.strong (T : ApproxData Q a phiUnit S) (hp : 0 ≤ gridStep Q.plasma.phis * gridStep Q.plasma.thetas)
    (he : 0 ≤ gridStep Q.ePhis * gridStep Q.eThetas) (ha : ApproxCall a) (heps : 0 < a.sp.lseEpsilon) {n : ℕ}
    (hn : (a.phiInit.getD (List.replicate (HasQp.ndofs Q) 0)).length = n) {o : String × UnitArg × ℝ} {u : ℝ}
    (ho : o ∈ a.objectives) (hK : o.1 = "f_K") (hw : 0 ≤ o.2.2) (hu : o.2.1 = .scalar u) {μ : ℝ}
    (hco : ∀ x y : Fin n → ℝ, μ * ∑ i, (x i - y i) ^ 2 ≤ diffSq (kTerms Q 1 _) x y) :
    StrongConvex (o.2.2 / |u| * μ * phiUnit ^ 2) fun x : Fin S.x0.length → ℝ => S.problem.f (List.ofFn x) := by
  subst hn
  obtain ⟨rest, hrest, hsplit⟩ := approxObjective_split Q _ ho hK hu
  have hH := (approxObjective_smooth Q hp he (objs := rest) (fun o ho => ha.objectives o (hrest o ho))
    (fun o ho => ha.objective_use o (hrest o ho)) heps (a.phiInit.getD (List.replicate (HasQp.ndofs Q) 0)).length).comp_coords
    T.flat.pos T.flat.unit
  have hf : (fun x : Fin S.x0.length → ℝ => S.problem.f (List.ofFn x)) = fun x =>
      termsSq (kTerms Q (o.2.2 / |u|) _) (fun l => x (T.flat.pos l) * T.flat.unit) +
        approxObjective Q rest a.sp.lseEpsilon fun l => x (T.flat.pos l) * T.flat.unit := by
    funext x
    rw [T.f, hsplit]
    rfl
  have h := strong_flat Q T.len T.flat (div_nonneg hw (abs_nonneg u)) hco hH
  rw [T.unit] at h
  rw [hf]
  simp only [T.unit]
  exact h

end

theorem init_length {Q : FieldProblem} {a : QuadcoilArgs} (hinit : ∀ p, a.phiInit = some p → p.length = HasQp.ndofs Q) :
    (a.phiInit.getD (List.replicate (HasQp.ndofs Q) 0)).length = (cpNdofs Q.cp.stellsym Q.cp.mpol Q.cp.ntor).1 := by
  show (a.phiInit.getD (List.replicate (HasQp.ndofs Q) 0)).length = HasQp.ndofs Q
  cases hpi : a.phiInit with
  | none => simp
  | some p => exact hinit p hpi

/-- **C137 (calls).** There is a positive number `μ` that depends on the geometry and the grid only such that the following holds for every
legal call with a positive weight `w` of `f_K` with unit `u`, with smooth quantities and no smoothing, or in approx mode. The objective that
the solver sees stays convex after subtracting `w / |u| * μ * phiUnit ^ 2` times the squared norm. So C137 applies: whatever the multipliers,
the penalty and the scale, the inner problem has exactly one minimiser. It is the only stationary point, and the gradient bounds the distance
to it. -/
theorem C137_call_inner_partial (Q : FieldProblem) (others : List String) {A B : ℕ} (R : Resolved Q A B) :
    ∃ μ > 0, ∀ {a : QuadcoilArgs} (_ : (SmoothCall a ∧ a.smoothing = none) ∨ (ApproxCall a ∧ 0 < a.sp.lseEpsilon))
      {o : String × UnitArg × ℝ} {u : ℝ} (_ : o ∈ a.objectives) (_ : o.1 = "f_K") (_ : 0 < o.2.2) (_ : o.2.1 = .scalar u)
      {phiUnit : ℝ} (_ : phiUnit ≠ 0) (_ : ∀ p, a.phiInit = some p → p.length = HasQp.ndofs Q) {S : Setup}
      (_ : quadcoilSetup (shippedRegistry FieldProblem.fns others) Q a phiUnit = .ok S),
      ∃ ν > 0, ν = o.2.2 / |u| * μ * phiUnit ^ 2 ∧ IsConvexProblem S.x0.length 0 S.problem.muInit.length S.problem ∧
        StrongConvex ν (fun x : Fin S.x0.length → ℝ => S.problem.f (List.ofFn x)) ∧
        ∀ s : Status ℝ, 0 < s.finC → 0 < s.xUnit → s.finLam.length = 0 → s.finMu.length = S.problem.muInit.length →
          ∃ w : List ℝ, w.length = S.x0.length ∧
            (∀ v, v.length = S.x0.length → innerObjective S.problem gplusHard s w ≤ innerObjective S.problem gplusHard s v) ∧
            ∀ v, v.length = S.x0.length → ((∀ d ∈ realGrad (innerObjective S.problem gplusHard s) v, d = 0) ↔ v = w) ∧
              2 * ν * s.xUnit ^ 2 * Num.norm (Num.vsub v w) ≤ Num.norm (realGrad (innerObjective S.problem gplusHard s) v) := by
  obtain ⟨hdef, hnn⟩ := R.definite one_pos
  obtain ⟨μ, hμ, hco⟩ := hdef.coercive (kTerms_affine Q _ _) hnn
  refine ⟨μ, hμ, ?_⟩
  intro a ha o u ho hK hw hu phiUnit hpu hinit S hs
  have hu0 : u ≠ 0 := by
    rcases ha with ⟨h, -⟩ | ⟨h, -⟩
    · obtain ⟨-, ⟨u', hu', h0⟩, -⟩ := h.objectives o ho
      rw [hu] at hu'
      rw [UnitArg.scalar.inj hu']
      exact h0
    · obtain ⟨-, ⟨u', hu', h0⟩, -⟩ := h.objectives o ho
      rw [hu] at hu'
      rw [UnitArg.scalar.inj hu']
      exact h0
  have hν : 0 < o.2.2 / |u| * μ * phiUnit ^ 2 :=
    mul_pos (mul_pos (div_pos hw (abs_pos.2 hu0)) hμ) (lt_of_le_of_ne (sq_nonneg _) (pow_ne_zero 2 hpu).symm)
  have key : IsConvexProblem S.x0.length 0 S.problem.muInit.length S.problem ∧
      StrongConvex (o.2.2 / |u| * μ * phiUnit ^ 2) fun x : Fin S.x0.length → ℝ => S.problem.f (List.ofFn x) := by
    rcases ha with ⟨ha, hsm⟩ | ⟨ha, heps⟩
    · refine ⟨C130_smooth_convex_partial Q others R.plasma R.eval_nonneg ha hs, ?_⟩
      obtain ⟨T⟩ := smooth_data Q others R.plasma R.eval_nonneg ha hs
      exact T.strong (init_length hinit) ((setup_plain hs (by rw [hsm]; simp)).1.trans (init_length hinit)) ho hK hw.le hu hco
    · refine ⟨C134_approx_convex_partial Q others R.plasma R.eval_nonneg ha heps hs, ?_⟩
      obtain ⟨T⟩ := approx_data Q others R.plasma R.eval_nonneg ha hs
      exact T.strong R.plasma R.eval_nonneg ha heps (init_length hinit) ho hK hw.le hu hco
  exact ⟨_, hν, rfl, key.1, key.2, fun s h1 h2 h3 h4 => C137_inner_problem key.1 hν key.2 h1 h2 h3 h4⟩

/-- **C138.** For a call without constraints and without smoothing, with smooth convex objectives and a positive weight `w` of `f_K` with unit
`u`: the problem of the user has exactly one solution `c`. The call takes the unconstrained path. Whatever the optimiser does, the distance
of the returned potential from `c` is at most the norm of the reported gradient over `2 * w / |u| * μ * |phiUnit|`. `μ` depends on the
geometry and the grid only. -/
theorem C138_unconstrained_distance_partial (Q : FieldProblem) (others : List String) {A B : ℕ} (R : Resolved Q A B) (hB : ∀ c, Q.bnormal c ≠ []) :
    ∃ μ > 0, ∀ {a : QuadcoilArgs} (_ : SmoothCall a) (_ : ConvexCall a) (_ : a.smoothing = none) (_ : a.requests = [])
      {o : String × UnitArg × ℝ} {u : ℝ} (_ : o ∈ a.objectives) (_ : o.1 = "f_K") (_ : 0 < o.2.2) (_ : o.2.1 = .scalar u)
      {phiUnit : ℝ} (_ : phiUnit ≠ 0) (_ : ∀ p, a.phiInit = some p → p.length = HasQp.ndofs Q) {S : Setup}
      (_ : quadcoilSetup (shippedRegistry FieldProblem.fns others) Q a phiUnit = .ok S),
      ∃ c, (∀ e, UserMinimiser (shippedRegistry FieldProblem.fns others) a.objectives a.requests Q (Pot Q) e ↔ e "phi" = .array c) ∧
      ∀ {opt : Optimizer ℝ} (_ : opt.CountContract) (_ : opt.ValueContract) (_ : opt.GradContract realGrad)
        (_ : opt.ShapeContract realGrad) {r : SolveResults} {d : Dofs} (_ : quadcoilSolve opt realGrad S = some (r, d)),
        ∃ i k, r = .inner i ∧ d "phi" = .array k ∧ i.grad = realGrad S.problem.f i.x ∧
          2 * (o.2.2 / |u|) * μ * |phiUnit| * Real.sqrt (sqDist c k) ≤ Num.norm i.grad := by
  obtain ⟨μ, hμ, hall⟩ := C137_call_inner_partial Q others R
  refine ⟨μ, hμ, ?_⟩
  intro a ha hca hsm hreq o u ho hK hw hu phiUnit hpu hinit S hs
  obtain ⟨ν, hν, hνe, -, hstrong, -⟩ := hall (.inl ⟨ha, hsm⟩) ho hK hw hu hpu hinit hs
  obtain ⟨-, hplain⟩ := setup_plain hs (by rw [hsm]; simp)
  obtain ⟨hun, hg, hh⟩ := hplain hreq ha.merge
  obtain ⟨c, -, ⟨xs, hxs⟩, hmin, huser⟩ := C129_solver_problem_has_one_potential Q others R hB hca hpu hinit hs
    ⟨phiOnly (.array (List.replicate (HasQp.ndofs Q) 0)), ⟨List.replicate (HasQp.ndofs Q) 0, by simp [phiOnly], by simp⟩, by
      rw [hreq]
      intro r hr
      simp at hr⟩
  obtain ⟨T⟩ := smooth_data Q others R.plasma R.eval_nonneg ha hs
  obtain ⟨hSu, hlen⟩ : S.phiUnit = phiUnit ∧ S.x0.length = (a.phiInit.getD (List.replicate (HasQp.ndofs Q) 0)).length := by
    obtain ⟨_, _, _, _, h, -⟩ := quadcoilSetup_ok hs
    exact ⟨h, (setup_plain hs (by rw [hsm]; simp)).1⟩
  refine ⟨c, huser, ?_⟩
  intro opt hc hv hgr hshape r d hr
  unfold quadcoilSolve at hr
  rw [if_pos hun] at hr
  cases hi : runOpt opt realGrad S.problem.f S.x0 ⟨S.problem.maxiterTot, S.problem.fstopInnerLast, S.problem.xstopInnerLast,
    S.problem.gtolInner⟩ with
  | none => simp [hi] at hr
  | some i =>
    simp only [hi, Option.map_some, Option.some.injEq, Prod.mk.injEq, SolveResults.x] at hr
    obtain ⟨rfl, rfl⟩ := hr
    have hil := runOpt_length hshape hi
    obtain ⟨m, xs', us, ss, -, -, hix, -, hgrad, -⟩ := C84_inner_run opt hc hv realGrad hgr _ _ _ i hi
    rw [← hix] at hgrad
    obtain ⟨z, hz⟩ := exists_ofFn hil
    obtain ⟨x, rfl⟩ := exists_ofFn hxs.1.1
    have hb : Function.Bijective T.flat.pos := by
      rw [Fintype.bijective_iff_injective_and_card]
      exact ⟨T.flat.inj, by simp [hlen]⟩
    have hbound := hstrong.gradient (fun y => hxs.2 (List.ofFn y) ⟨by simp, by rw [hg]; simp [AllNonpos], by rw [hh]; simp [AllZero]⟩)
      (hstrong.diff z).hasFDerivAt
    have e1 : Num.norm i.grad = Real.sqrt (∑ j, fderiv ℝ (fun x : Fin S.x0.length → ℝ => S.problem.f (List.ofFn x)) z (Pi.single j 1) ^ 2) := by
      rw [hgrad, hz, realGrad_ofFn (hstrong.diff z).hasFDerivAt, num_norm_ofFn]
    refine ⟨i, _, rfl, by rw [hSu, hz]; exact T.flat.phi z, hgrad, ?_⟩
    have e2 : c = List.ofFn fun l => x (T.flat.pos l) * T.flat.unit := by
      have h1 := (hmin _ hxs).1
      rw [hSu] at h1
      exact Val.array.inj (h1.symm.trans (T.flat.phi x))
    have e3 : ∑ l, (x (T.flat.pos l) * T.flat.unit - z (T.flat.pos l) * T.flat.unit) ^ 2 = phiUnit ^ 2 * ∑ i, (z i - x i) ^ 2 := by
      rw [← hb.sum_comp fun i => (z i - x i) ^ 2, Finset.mul_sum, T.flat_unit]
      exact Finset.sum_congr rfl fun l _ => by ring
    rw [e1, e2, sqDist_ofFn, e3, Real.sqrt_mul (sq_nonneg _), Real.sqrt_sq_eq_abs]
    refine le_trans (le_of_eq ?_) hbound
    rw [hνe, ← sq_abs phiUnit]
    ring

end Verif
