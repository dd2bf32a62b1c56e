import Verif.Props.RestStart
import Verif.Props.CallReturned
import Verif.Props.CallExamples
import Verif.Props.UpToConstant
import Verif.Props.InnerProblemCalls

/-!
# C163: a call that starts at the best potential returns it
-/

namespace Verif

open Real CpParams

/-- Without auxiliary variables the template holds the scaled potential only. -/
theorem setup_plain_template {P : Type} [HasQp P] {reg : Registry P} {qp : P} {a : QuadcoilArgs} {phiUnit : ℝ} {S : Setup}
    (h : quadcoilSetup reg qp a phiUnit = .ok S) (hsm : a.smoothing ≠ some "slack") :
    S.phiUnit = phiUnit ∧ S.x0 = (a.phiInit.getD (List.replicate (HasQp.ndofs qp) 0)).map (fun t => t / phiUnit) ∧
      S.template = [("phi_scaled", .array ((a.phiInit.getD (List.replicate (HasQp.ndofs qp) 0)).map fun t => t / phiUnit))] := by
  obtain ⟨o, c, ho, hc, hpu, ht, hx0, -⟩ := quadcoilSetup_ok h
  obtain ⟨ns, us, ws, acc, hnw, hacc, rfl, -⟩ := parseObjectives_ok ho
  obtain ⟨As, -, -, hA, -, hAs, -, -⟩ := objLoop_functions _ _ _ _ _ _ _ hacc
  unfold parseConstraints at hc
  rw [zipRequests_value] at hc
  have hc : a.requests.foldlM (parseStep reg a.smoothing a.sp) ⟨[], [], []⟩ = .ok c := by
    by_cases hlen : a.constraintName.length ≠ a.constraintType.length ∨ a.constraintName.length ≠ a.constraintUnit.length ∨
        a.constraintName.length ≠ (if a.constraintName.length > 0 then a.constraintValue else []).length
    · rw [if_pos hlen] at hc
      cases hc
    · rwa [if_neg hlen] at hc
  obtain ⟨Bs, hBf, hBs, -, -⟩ := parse_functions _ _ _ _ _ _ hc
  have hAe : ∀ A ∈ As, A.slack = [] := fun A hAm => by
    obtain ⟨i, hi, rfl⟩ := List.mem_iff_getElem.1 hAm
    have hl := hA.length_eq
    exact (addQuantity_plain hsm ((List.forall₂_iff_get.1 hA).2 i (by omega) hi)).1
  have hBe : ∀ B ∈ Bs, B.slack = [] := fun B hBm => by
    obtain ⟨i, hi, rfl⟩ := List.mem_iff_getElem.1 hBm
    have hl := hBf.length_eq
    exact (addQuantity_plain hsm ((List.forall₂_iff_get.1 hBf).2 i (by omega) hi)).1
  have hsl : (joinParsed ⟨fTot acc.f ws, acc.g, acc.h, acc.slack⟩ c).slack = [] := by
    show dictUnion acc.slack c.slack = []
    rw [hAs, hBs, foldl_slack_nil _ hAe, foldl_slack_nil _ hBe]
    rfl
  rw [hsl] at ht
  have ht' : S.template = [("phi_scaled", .array ((a.phiInit.getD (List.replicate (HasQp.ndofs qp) 0)).map fun t => t / phiUnit))] := by
    rw [ht]
    simp [xTemplate, sortKeys]
  refine ⟨hpu, ?_, ht'⟩
  rw [hx0, ht']
  simp [ravel, Val.entries]

theorem dofsOf_plain {u : ℝ} {x y : List ℝ} (h : x.length = y.length) : dofsOf [("phi_scaled", .array y)] u x "phi" = .array (x.map fun t => t * u) := by
  have hw : (unravelLike [("phi_scaled", .array y)] x).lookup "phi_scaled" = some (.array x) := by
    simp [unravelLike, List.take_of_length_le, h]
  rw [dofsOf_phi hw]
  rfl

theorem headD_map2_scalar (v : Val) (u : ℝ) : (Val.map2 (· / ·) v (.scalar u)).entries.headD 0 = v.entries.headD 0 / u := by
  cases v with
  | scalar t => rfl
  | array l => cases l <;> simp [Val.map2, Val.entries]

/-- The tolerances are passed on unchanged. -/
theorem setup_rest_tolerances {P : Type} [HasQp P] {reg : Registry P} {qp : P} {a : QuadcoilArgs} {phiUnit : ℝ} {S : Setup}
    (h : quadcoilSetup reg qp a phiUnit = .ok S) : S.problem.gtolInner = a.gtolInner ∧ S.problem.gtolInnerLast = a.gtolInnerLast ∧
      S.problem.xstopOuter = a.xstopOuter ∧ S.problem.ctolOuter = a.ctolOuter := by
  unfold quadcoilSetup at h
  simp only [bind, Except.bind] at h
  split at h
  · cases h
  split at h
  · cases h
  split at h
  · cases h
  split at h
  · cases h
  cases h
  exact ⟨rfl, rfl, rfl, rfl⟩

theorem parse_length {P : Type} [HasQp P] (reg : Registry P) (sm : Option String) (sp : SmoothingParams) (rs : List Request) :
    ∀ (acc p : Parsed P), rs.foldlM (parseStep reg sm sp) acc = .ok p → acc.g.length + acc.h.length + rs.length ≤ p.g.length + p.h.length := by
  induction rs with
  | nil =>
    intro acc p h
    rw [foldlM_except_nil] at h
    cases h
    simp
  | cons r rs ih =>
    intro acc p h
    obtain ⟨b, hb, hrest⟩ := (foldlM_except_cons _ _ _ _ _).1 h
    have h1 := ih _ _ hrest
    unfold parseStep at hb
    simp only [bind, Except.bind] at hb
    split at hb
    · cases hb
    split at hb
    · cases hb
      simp at h1 ⊢
      omega
    split at hb
    · cases hb
      simp at h1 ⊢
      omega
    · cases hb

/-- A call that requests a constraint is treated as constrained. -/
theorem setup_constrained {P : Type} [HasQp P] {reg : Registry P} {qp : P} {a : QuadcoilArgs} {phiUnit : ℝ} {S : Setup}
    (h : quadcoilSetup reg qp a phiUnit = .ok S) (hr : a.requests ≠ []) : S.unconstrained = false := by
  obtain ⟨o, c, ho, hc, -, -, -, hun, -⟩ := quadcoilSetup_ok h
  unfold parseConstraints at hc
  rw [zipRequests_value] at hc
  have hc : a.requests.foldlM (parseStep reg a.smoothing a.sp) ⟨[], [], []⟩ = .ok c := by
    by_cases hlen : a.constraintName.length ≠ a.constraintType.length ∨ a.constraintName.length ≠ a.constraintUnit.length ∨
        a.constraintName.length ≠ (if a.constraintName.length > 0 then a.constraintValue else []).length
    · rw [if_pos hlen] at hc
      cases hc
    · rwa [if_neg hlen] at hc
  have h1 := parse_length _ _ _ _ _ _ hc
  have h2 : 0 < a.requests.length := List.length_pos_iff.2 hr
  have h3 : (joinParsed o c).g.length = o.g.length + c.g.length := by simp [joinParsed]
  have h4 : (joinParsed o c).h.length = o.h.length + c.h.length := by simp [joinParsed]
  rw [hun, h3, h4]
  change [].length + [].length + a.requests.length ≤ _ at h1
  simp only [List.length_nil, Nat.add_zero, Nat.zero_add] at h1
  rw [Bool.and_eq_false_iff]
  by_cases hm : a.mergeConstraints = true
  · simp [hm]
  · simp only [hm, Bool.false_eq_true, if_false, beq_eq_false_iff_ne, ne_eq]
    omega

/-- Without smoothing the objective passed to the solver is the user's. -/
theorem SmoothData.objective_user {Q : FieldProblem} {others : List String} {a : QuadcoilArgs} {phiUnit : ℝ} {S : Setup}
    (T : SmoothData Q others a phiUnit S) (hsm : a.smoothing = none) (x : Fin S.x0.length → ℝ) :
    S.problem.f (List.ofFn x) = userObjective (shippedRegistry FieldProblem.fns others) a.objectives Q (dofsOf S.template phiUnit (List.ofFn x)) := by
  rw [T.fvalue, userObjective, T.objectives]
  refine congrArg List.sum (List.ext_getElem? fun i => ?_)
  simp only [List.getElem?_map]
  by_cases hi : i < T.As.length
  · obtain ⟨name, q, u, w, -, -, hq, he, hw, -, hn, hu⟩ := T.useA i hi
    have e1 : ((T.As.map fun A => A.val).zip T.ws)[i]? = some ((T.As[i]).val, w) := by
      rw [List.getElem?_zip_eq_some]
      exact ⟨by simp [hi], hw⟩
    have e2 : (T.ns.zip (T.us.zip T.ws))[i]? = some (name, .scalar u, w) := by
      rw [List.getElem?_zip_eq_some, List.getElem?_zip_eq_some]
      exact ⟨hn, hu, hw⟩
    have e3 : rawOf (shippedRegistry FieldProblem.fns others) name Q (dofsOf S.template phiUnit (List.ofFn x)) =
        q.rawF Q (dofsOf S.template phiUnit (List.ofFn x)) := by
      simp only [rawOf, shippedRegistry, hq]
    rw [e1, e2]
    simp only [Option.map_some, e3, he, hsm, addedOf, UnitArg.size, reduceCtorEq, if_false, if_true]
    rw [headD_map2_scalar]
  · have h1 := T.ws_length
    have h2 := T.ns_length
    rw [List.getElem?_eq_none (by simp; omega), List.getElem?_eq_none (by simp; omega)]
    rfl

/-- **C163 (solve).** If the initial potential has the smallest objective of all potentials and satisfies the constraints, the potential
that is returned is the initial one, after one iteration without constraints and after two runs with constraints. -/
theorem C163_solve (Q : FieldProblem) (others : List String) (hE : Q.ePhis ≠ [] ∧ Q.eThetas ≠ []) (hB : ∀ c, Q.bnormal c ≠ [])
    (hp : 0 ≤ gridStep Q.plasma.phis * gridStep Q.plasma.thetas) (he : 0 ≤ gridStep Q.ePhis * gridStep Q.eThetas) {a : QuadcoilArgs}
    (ha : SmoothCall a) (hca : ConvexCall a) (hsm : a.smoothing = none) {phiUnit : ℝ} (hu : phiUnit ≠ 0) {c : List ℝ} (hc : a.phiInit = some c)
    (hcl : c.length = HasQp.ndofs Q)
    (hbest : UserMinimiser (shippedRegistry FieldProblem.fns others) a.objectives [] Q (Pot Q) (phiOnly (.array c)))
    (hfeas : UserFeasible (shippedRegistry FieldProblem.fns others) a.requests Q (phiOnly (.array c))) {S : Setup}
    (hs : quadcoilSetup (shippedRegistry FieldProblem.fns others) Q a phiUnit = .ok S) {opt : Optimizer ℝ} (hco : opt.CountContract)
    (hgr : opt.GradContract realGrad) (hsh : opt.ShapeContract realGrad) (hrest : opt.RestContract) (hci : 0 < a.cInit) (hcg : 0 < a.cGrowth)
    {r : SolveResults} {d : Dofs} (hr : quadcoilSolve opt realGrad S = some (r, d)) :
    d "phi" = .array c ∧ (∀ i, r = .inner i → 0 ≤ a.gtolInner → i.count = 1) ∧
      ∀ t, r = .outer t → 0 ≤ a.gtolInner → 0 ≤ a.gtolInnerLast → 0 < a.xstopOuter → 0 < a.ctolOuter → t.totNiter = 2 := by
  obtain ⟨hSu, hx0, ht⟩ := setup_plain_template hs (by rw [hsm]; simp)
  rw [hc, Option.getD_some] at hx0 ht
  have hinit : ∀ p, a.phiInit = some p → p.length = HasQp.ndofs Q := fun p h => by rw [hc] at h; cases h; exact hcl
  have hreg := shipped_auxNames FieldProblem.fns others
  obtain ⟨T⟩ := smooth_data Q others hp he ha hs
  have hphi : ∀ x : List ℝ, x.length = S.x0.length → dofsOf S.template phiUnit x "phi" = .array (x.map fun t => t * phiUnit) := by
    intro x hx
    rw [ht]
    exact dofsOf_plain (by rw [hx, hx0])
  have hback : S.x0.map (fun t => t * phiUnit) = c := by
    rw [hx0, List.map_map]
    conv_rhs => rw [← List.map_id c]
    exact List.map_congr_left fun t _ => by simp [hu]
  -- the start is feasible and its objective is the user's
  obtain ⟨y, hy, hyphi, hyle⟩ := (C107_flat_iff_user hreg hs hu hca.merge hinit (call_wellPosed Q others hE hB hp he hca)
    (d := phiOnly (.array c)) ⟨c, rfl, hcl⟩ _).2 ⟨hfeas, le_rfl⟩
  have hyx : y = S.x0 := by
    rw [hSu, hphi y hy.1, show phiOnly (Val.array c) "phi" = .array c from rfl, ← hback] at hyphi
    exact List.map_injective_iff.2 (mul_left_injective₀ hu) (Val.array.inj hyphi)
  rw [hyx] at hy hyle
  obtain ⟨x, hx⟩ := exists_ofFn (l := S.x0) rfl
  have hmin : ∀ z : Fin S.x0.length → ℝ, S.problem.f (List.ofFn x) ≤ S.problem.f (List.ofFn z) := by
    intro z
    rw [← hx, T.objective_user hsm z]
    refine hyle.trans (hbest.2.2 _ ?_ (by intro r hr; simp at hr))
    have := flat_pot hreg hs hinit (x := List.ofFn z) (by simp)
    rwa [hSu] at this
  obtain ⟨G, A, b, hG, hH, -, hfd, -, hGd⟩ := C130_smooth_convex_partial Q others hp he ha hs
  have hf0 : fderiv ℝ (fun y : Fin S.x0.length → ℝ => S.problem.f (List.ofFn y)) x = 0 :=
    IsLocalMin.fderiv_eq_zero (Filter.Eventually.of_forall hmin)
  have hf' := (hfd x).hasFDerivAt
  rw [hf0] at hf'
  obtain ⟨e1, e2, e3, e4⟩ := setup_params hs
  obtain ⟨g1, g2, g3, g4⟩ := setup_rest_tolerances hs
  have hkkt : KktPoint S.problem x (fun _ : Fin 0 => 0) (fun _ : Fin S.problem.muInit.length => 0) := by
    refine ⟨⟨fun y i => A i y + b i, G, 0, fun i => A i, fun j => fderiv ℝ (fun y => G y j) x, hH, hG, hf', fun i => i.elim0,
      fun j => (hGd j x).hasFDerivAt, fun i => i.elim0, fun j => ⟨?_, by simp⟩, by simp⟩, fun _ => le_rfl⟩
    have := hy.2.1
    rw [hx, hG] at this
    exact this _ (List.mem_ofFn.2 ⟨j, rfl⟩)
  unfold quadcoilSolve at hr
  cases hun : S.unconstrained with
  | true =>
    rw [hun] at hr
    simp only [if_true, Option.map_map, Option.map_eq_some_iff] at hr
    obtain ⟨i, hi, hrd⟩ := hr
    simp only [Function.comp_apply, Prod.mk.injEq] at hrd
    obtain ⟨rfl, rfl⟩ := hrd
    have h0 : ∀ t ∈ realGrad S.problem.f S.x0, t = 0 := by
      rw [hx, realGrad_ofFn hf']
      simp
    have hin := C163_inner hco hsh hgr hrest h0 hi
    refine ⟨?_, ?_, fun t h => by cases h⟩
    · show dofsOf S.template S.phiUnit i.x "phi" = _
      rw [hin.1, hSu, hphi _ rfl, hback]
    · rintro j hj hg
      cases hj
      exact hin.2 (by rw [g1]; exact hg)
  | false =>
    rw [hun] at hr
    simp only [Bool.false_eq_true, if_false, Option.map_map, Option.map_eq_some_iff] at hr
    obtain ⟨t, hi, hrd⟩ := hr
    simp only [Function.comp_apply, Prod.mk.injEq] at hrd
    obtain ⟨rfl, rfl⟩ := hrd
    rw [hx] at hi
    obtain ⟨hfx, -, -, hcount⟩ := C163_solver hco hsh hgr hrest hkkt (by rw [e3, T.hvalue]; rfl)
      (by
        refine List.ext_getElem (by simp) fun i h1 h2 => ?_
        rw [List.getElem_ofFn]
        have h3 : S.problem.muInit[i] ∈ S.problem.muInit := List.getElem_mem h1
        generalize S.problem.muInit[i] = t at h3
        rw [e4] at h3
        exact List.eq_of_mem_replicate h3) (by rw [e1]; exact hci) (by rw [e2]; exact hcg) hi
    refine ⟨?_, fun i h => (by cases h), ?_⟩
    · show dofsOf S.template S.phiUnit t.finX "phi" = _
      rw [hfx, ← hx, hSu, hphi _ rfl, hback]
    · rintro s hs' h1 h2 h3 h4
      cases hs'
      exact hcount (by rw [g1]; exact h1) (by rw [g2]; exact h2) (by rw [g3]; exact h3) (by rw [g4]; exact h4)

/-- **C163 (calls).** A call whose `phi_init` has the smallest objective of all potentials and satisfies the constraints returns `phi_init`.
It takes one iteration without constraints and two runs of the inner solver with constraints. -/
theorem C163_call {a : CallArgs} (others : List String) (hg : AllDefaultGrids a)
    (hs : SmoothCall (a.opts.resolveUnits (shippedRegistry FieldProblem.fns others) a.described))
    (hca : ConvexCall (a.opts.resolveUnits (shippedRegistry FieldProblem.fns others) a.described)) (hsm : a.opts.smoothing = none)
    (hu : a.unit a.described ≠ 0) {c : List ℝ} (hc : a.opts.phiInit = some c)
    (hbest : UserMinimiser (shippedRegistry FieldProblem.fns others)
      (a.opts.resolveUnits (shippedRegistry FieldProblem.fns others) a.described).objectives [] a.described (Pot a.described) (phiOnly (.array c)))
    (hfeas : UserFeasible (shippedRegistry FieldProblem.fns others)
      (a.opts.resolveUnits (shippedRegistry FieldProblem.fns others) a.described).requests a.described (phiOnly (.array c)))
    {opt : Optimizer ℝ} (hco : opt.CountContract) (hgr : opt.GradContract realGrad) (hsh : opt.ShapeContract realGrad)
    (hrest : opt.RestContract) (hci : 0 < a.opts.cInit) (hcg : 0 < a.opts.cGrowth) {R : CallOut}
    (hR : quadcoilCall opt realGrad (shippedRegistry FieldProblem.fns others) a = .ok (some R)) :
    R.dofs "phi" = .array c ∧ (∀ i, R.results = .inner i → 0 ≤ a.opts.gtolInner → i.count = 1) ∧
      ∀ t, R.results = .outer t → 0 ≤ a.opts.gtolInner → 0 ≤ a.opts.gtolInnerLast → 0 < a.opts.xstopOuter → 0 < a.opts.ctolOuter →
        t.totNiter = 2 := by
  obtain ⟨-, S, hS, hsol, -, -⟩ := C140_returned hR
  obtain ⟨-, -, -, -, -, hsz, -, hset⟩ := (C140_setup_iff _ _ S).1 hS
  rw [← C141_none_is_value_at_zero] at hset
  exact C163_solve a.described others hg.resolving.eval_ne hg.bnormal_ne
    hg.resolving.plasma hg.resolving.eval_nonneg hs hca hsm hu hc
    (by rw [hsz.phi_init c hc]; exact (ndofs_eq _ _ _).symm) hbest hfeas hset hco hgr hsh hrest hci hcg hsol

/-- The usual call with an initial potential. -/
noncomputable def CallArgs.startingAt (a : CallArgs) (w : ℝ) (c : List ℝ) : CallArgs :=
  { a with opts := { standardArgs w with phiInit := some c } }

/-- **C163 (the usual call, twice).** The usual call started at its best potential is accepted, and returns this potential after one iteration,
unless the unit of the potential is zero (`unit_ne_zero`; the automatic unit is zero if the normal field of the initial potential is). -/
theorem C163_standard_call {a : CallArgs} (others : List String) (hg : AllDefaultGrids a)
    (hone : a.plasmaCoilDistance.isSome ≠ a.windingDofs.isSome)
    (hpd : a.plasmaDofs.length = (⟨a.nfp, a.plasmaStellsym, a.plasmaMpol, a.plasmaNtor⟩ : SurfaceShape).size)
    (hwd : a.described.cp.wdofs.length = a.described.cp.surf.size)
    (hplasma : ∀ q ∈ gridPoints (linspace0 (1 / a.nfp) 32) (linspace0 1 34), a.described.plasma.shape.normal a.plasmaDofs q.1 q.2 ≠ 0)
    (hfield : ∃ b ∈ a.described.bnormal (List.replicate (HasQp.ndofs a.described) 0), b ≠ 0) (hnet : a.netPoloidal ≠ 0 ∨ a.netToroidal ≠ 0)
    (hmet : KnownMetrics (shippedRegistry FieldProblem.fns others) a) {w : ℝ} (hw : 0 < w) {c : List ℝ}
    (hc : IsBest (relativeObjective a.described w) (HasQp.ndofs a.described) c) (hu : (a.startingAt w c).unit a.described ≠ 0)
    {opt : Optimizer ℝ} (hco : opt.CountContract) (hv : opt.ValueContract) (hgr : opt.GradContract realGrad)
    (hsh : opt.ShapeContract realGrad) (hrest : opt.RestContract) :
    ∃ R i, quadcoilCall opt realGrad (shippedRegistry FieldProblem.fns others) (a.startingAt w c) = .ok (some R) ∧
      R.results = .inner i ∧ R.dofs "phi" = .array c ∧ i.count = 1 := by
  have hB : 0 < a.described.fB (List.replicate (HasQp.ndofs a.described) 0) := by
    have e1 : a.described.plasma.phis = linspace0 (1 / a.nfp) 32 := by
      show a.plasmaQuadpointsPhi.getD _ = _
      rw [hg.plasma_phi]
      rfl
    have e2 : a.described.plasma.thetas = linspace0 1 34 := by
      show a.plasmaQuadpointsTheta.getD _ = _
      rw [hg.plasma_theta]
      rfl
    refine fB_pos hg.nfp ?_ ?_ hfield
    · have : (0 : ℝ) < a.nfp := by exact_mod_cast Nat.pos_of_ne_zero hg.nfp
      rw [e1, e2, gridStep_linspace0 _ _ (by norm_num), gridStep_linspace0 _ _ (by norm_num)]
      positivity
    · rw [e1, e2]
      exact hplasma
  have hK : 0 < a.described.fK (List.replicate (HasQp.ndofs a.described) 0) := fK_zero_pos hg.resolving hnet _
  have hacc : ∃ r, (a.startingAt w c).setup (shippedRegistry FieldProblem.fns others) = .ok r := by
    obtain ⟨h1, h2, h3, h4, h5, h6, h7⟩ := (C140_accepted_iff (a := a.standard w) others).1 (C140_standard_accepted others hg (w := w) hone hpd hwd)
    refine (C140_accepted_iff (a := a.startingAt w c) others).2 ⟨h1, h2, h3, h4, h5, ⟨fun p hp => ?_, h6.plasma, h6.winding, h6.normal_field⟩, h7⟩
    cases hp
    exact hc.1.trans (ndofs_eq _ _ _)
  have hres : ({ standardArgs w with smoothing := none, phiInit := some c } : QuadcoilArgs).resolveUnits (shippedRegistry FieldProblem.fns others)
      a.described = { standardResolved w (a.described.fB (List.replicate (HasQp.ndofs a.described) 0))
        (a.described.fK (List.replicate (HasQp.ndofs a.described) 0)) with phiInit := some c } := by
    rw [← standard_resolve others a.described w hB.le hK.le]
    rfl
  obtain ⟨R, hR⟩ := C140_accepted_returns (a := a.startingAt w c) hacc hmet hco hv hgr
  obtain ⟨-, S, hS, hsol, -⟩ := C140_returned hR
  obtain ⟨-, -, -, -, -, hsz, -, hset⟩ := (C140_setup_iff (a := a.startingAt w c) _ _ S).1 hS
  have hset' : quadcoilSetup (shippedRegistry FieldProblem.fns others) a.described
      { standardArgs w with smoothing := none, phiInit := some c } ((a.startingAt w c).unit a.described) = .ok S := hset
  rw [← C141_none_is_value_at_zero, hres] at hset'
  have hs := standardResolved_smooth hw hB hK
  have hca := standardResolved_convex hw hB hK
  have hphi : ∀ k : List ℝ, phiOnly (.array k) "phi" = .array k := fun k => by simp [phiOnly]
  have hmin : ∀ e, Pot a.described e → UserFeasible (shippedRegistry FieldProblem.fns others) [] a.described e →
      userObjective (shippedRegistry FieldProblem.fns others) (standardResolved w (a.described.fB (List.replicate (HasQp.ndofs a.described) 0))
        (a.described.fK (List.replicate (HasQp.ndofs a.described) 0))).objectives a.described (phiOnly (.array c)) ≤
      userObjective (shippedRegistry FieldProblem.fns others) (standardResolved w (a.described.fB (List.replicate (HasQp.ndofs a.described) 0))
        (a.described.fK (List.replicate (HasQp.ndofs a.described) 0))).objectives a.described e := by
    rintro e' ⟨m, hm, hml⟩ -
    have e := standard_userObjective others a.described (w := w) hB hK
    have := hc.2 m hml
    simp only [relativeObjective, hml, hc.1] at this
    rw [← e c _ (hphi c), ← e m _ hm] at this
    exact this
  obtain ⟨h1, h2, -⟩ := C163_solve a.described others hg.resolving.eval_ne hg.bnormal_ne hg.resolving.plasma hg.resolving.eval_nonneg
    (a := { standardResolved w (a.described.fB (List.replicate (HasQp.ndofs a.described) 0))
        (a.described.fK (List.replicate (HasQp.ndofs a.described) 0)) with phiInit := some c })
    ⟨hs.mode, hs.merge, hs.objectives, hs.objective_smooth, hs.constraints⟩
    ⟨hca.mode, hca.merge, hca.objectives, hca.current, hca.constraints, hca.huber, hca.once⟩ rfl hu rfl hc.1
    ⟨⟨c, hphi c, hc.1⟩, fun r hr => (by cases hr), hmin⟩ (fun r hr => by cases hr) hset' hco hgr hsh hrest
    (by show (0 : ℝ) < defaultArgs.cInit; norm_num [defaultArgs]) (by show (0 : ℝ) < defaultArgs.cGrowth; norm_num [defaultArgs]) hsol
  obtain ⟨r, d, hr, hst⟩ := C139_why_a_call_stops hset hco hv hgr
  rw [hsol] at hr
  cases hr
  rcases hst with ⟨-, j, hj, -⟩ | ⟨hun, n, s, t, ht, -⟩
  · exact ⟨R, j, hR, hj, h1, h2 j hj (by show (0 : ℝ) ≤ defaultArgs.gtolInner; norm_num [defaultArgs])⟩
  · have := ((setup_plain hset' (by simp [standardResolved])).2 (standardResolved_requests w 0 0) rfl).1
    rw [hun] at this
    cases this

/-- The torus with a given unit of the potential meets all hypotheses: there is a best potential, and gradient descent from it returns it. -/
theorem restTorus : ∃ b, ∀ w > 0, ∃ c R i, IsBest (relativeObjective (torusCall b).described w) 1 c ∧
    quadcoilCall (gradientDescent realGrad (1 / 4)) realGrad (shippedRegistry FieldProblem.fns [])
      (({ torusCall b with phiUnit := some 2 } : CallArgs).startingAt w c) = .ok (some R) ∧
    R.results = .inner i ∧ R.dofs "phi" = .array c ∧ i.count = 1 := by
  obtain ⟨b, hb⟩ := torusCall_field
  have hone : ({ torusCall b with phiUnit := some 2 } : CallArgs).plasmaCoilDistance.isSome ≠
      ({ torusCall b with phiUnit := some 2 } : CallArgs).windingDofs.isSome := by simp [torusCall]
  have hg : DefaultGrids { torusCall b with phiUnit := some 2 } := by
    have h := torusCall_grids b
    exact ⟨⟨h.nfp, h.phi, h.theta, h.winding_phi, h.winding_theta, h.plasma_phi, h.plasma_theta, h.mpol, h.ntor, h.regular, h.normal_field⟩,
      h.stellsym⟩
  have hp : ∀ q ∈ gridPoints (linspace0 (1 / (1 : ℕ)) 32) (linspace0 1 34),
      (torusCall b).described.plasma.shape.normal (torusCall b).plasmaDofs q.1 q.2 ≠ 0 :=
    fun q _ => torus_normal 2 (1 / 2) q.1 q.2 (by norm_num) (by norm_num)
  obtain ⟨μ, hμ, h⟩ := C142_standard_call_partial (a := { torusCall b with phiUnit := some 2 }) [] hg hone
    (by simp [torusCall, SurfaceShape.size]) (by simp [torusCall, CallArgs.described, SurfaceShape.size]) hp hb (.inl (by simp [torusCall]))
    (.inl ⟨2, rfl, by norm_num⟩) (torusCall_metrics b)
  refine ⟨b, fun w hw => ?_⟩
  obtain ⟨c, hc, -⟩ := h hw
  obtain ⟨R, i, hR⟩ := C163_standard_call (a := { torusCall b with phiUnit := some 2 }) [] hg.toAllDefaultGrids hone
    (by simp [torusCall, SurfaceShape.size]) (by simp [torusCall, CallArgs.described, SurfaceShape.size]) hp hb (.inl (by simp [torusCall]))
    (torusCall_metrics b) hw ((hc c).2 rfl) (by simp [CallArgs.unit, CallArgs.startingAt]) (gradientDescent_count _ _) (gradientDescent_value _ _)
    (fun _ _ _ _ _ => rfl) (gradientDescent_shape realGrad (fun f p => by simp [realGrad]) (1 / 4)) (gradientDescent_rest _)
  exact ⟨c, R, i, (hc c).2 rfl, hR⟩

/-- Field error and current with units and a limit for the current, started at `c`. -/
noncomputable def cappedArgs (v : ℝ) (c : List ℝ) : QuadcoilArgs :=
  { defaultArgs with
    objectiveName := .many ["f_B", "f_K"]
    objectiveUnit := .many [.scalar 1, .scalar 1]
    objectiveWeight := .many [1, 1 / 10]
    constraintName := ["f_K"]
    constraintType := ["<="]
    constraintUnit := [.scalar 3]
    constraintValue := [v]
    smoothing := none
    phiInit := some c }

theorem cappedArgs_objectives (v : ℝ) (c : List ℝ) : (cappedArgs v c).objectives = [("f_B", .scalar 1, 1), ("f_K", .scalar 1, 1 / 10)] := by
  simp [QuadcoilArgs.objectives, cappedArgs, objectiveList]

theorem cappedArgs_requests (v : ℝ) (c : List ℝ) : (cappedArgs v c).requests = [⟨"f_K", "<=", .scalar 3, v⟩] := by
  simp [QuadcoilArgs.requests, cappedArgs, zipRequests]

theorem cappedArgs_resolve (v : ℝ) (c : List ℝ) (reg : Registry FieldProblem) (Q : FieldProblem) : (cappedArgs v c).resolveUnits reg Q = cappedArgs v c := rfl

theorem cappedArgs_objectives_convex (v : ℝ) (c : List ℝ) : ConvexObjectives (cappedArgs v c).objectives := by
  rw [cappedArgs_objectives]
  intro o ho
  simp only [List.mem_cons, List.not_mem_nil, or_false] at ho
  rcases ho with rfl | rfl
  · exact ⟨(by decide : "f_B" ∈ objectiveNames), ⟨1, rfl, by norm_num⟩, by norm_num⟩
  · exact ⟨(by decide : "f_K" ∈ objectiveNames), ⟨1, rfl, by norm_num⟩, by norm_num⟩

theorem cappedArgs_smooth (v : ℝ) (c : List ℝ) : SmoothCall (cappedArgs v c) where
  mode := .inl rfl
  merge := rfl
  objectives := cappedArgs_objectives_convex v c
  objective_smooth := by
    rw [cappedArgs_objectives]
    intro o ho
    simp only [List.mem_cons, List.not_mem_nil, or_false] at ho
    rcases ho with rfl | rfl
    · exact .inr (.inl (by decide : "f_B" ∈ quadNames))
    · exact .inr (.inl (by decide : "f_K" ∈ quadNames))
  constraints := by
    rw [cappedArgs_requests]
    intro r hr
    obtain rfl := List.mem_singleton.1 hr
    exact ⟨.inr (.inl (by decide : "f_K" ∈ quadNames)), 3, rfl, by norm_num⟩

theorem cappedArgs_convex (v : ℝ) (c : List ℝ) : ConvexCall (cappedArgs v c) where
  mode := .inl rfl
  merge := rfl
  objectives := cappedArgs_objectives_convex v c
  current := by
    rw [cappedArgs_objectives]
    exact ⟨("f_K", .scalar 1, 1 / 10), by simp, rfl, by norm_num⟩
  constraints := by
    rw [cappedArgs_requests]
    intro r hr
    obtain rfl := List.mem_singleton.1 hr
    exact ⟨(by decide : "f_K" ∈ affineNames ++ convexNames), 3, rfl, by norm_num⟩
  huber := by
    rintro h
    cases h
  once := by
    rw [cappedArgs_objectives, cappedArgs_requests]
    simp [auxTable]

/-- A limit that the best potential just reaches: the call on the torus is accepted, and returns the best potential after two runs of the
inner solver. -/
theorem restTorus_capped (b : ℝ) : ∃ c v R t, IsBest (regObjective (torusCall b).described (1 / 10)) 1 c ∧ v = (torusCall b).described.fK c ∧
    quadcoilCall (gradientDescent realGrad (1 / 4)) realGrad (shippedRegistry FieldProblem.fns [])
      { torusCall b with phiUnit := some 2, opts := cappedArgs v c } = .ok (some R) ∧
    R.results = .outer t ∧ R.dofs "phi" = .array c ∧ t.totNiter = 2 := by
  have hg := torusCall_grids b
  obtain ⟨c, hc⟩ := C113_minimiser_exists (torusCall b).described (1 / 10) (by norm_num) 1 hg.resolved.plasma hg.resolved.eval_nonneg
  obtain ⟨v, hv⟩ : ∃ v, v = (torusCall b).described.fK c := ⟨_, rfl⟩
  have hacc : ∃ r, ({ torusCall b with phiUnit := some 2, opts := cappedArgs v c } : CallArgs).setup (shippedRegistry FieldProblem.fns []) = .ok r := by
    have L : ∀ {n uc : String} {q : Quantity FieldProblem}, (shipped FieldProblem.fns).lookup n = some q → uc ∈ q.compatibility →
        ∀ {u : UnitArg}, u ≠ .other → LegalUse (shippedRegistry FieldProblem.fns []) none n u uc := fun h1 h2 _ h3 =>
      legal_shipped FieldProblem.fns [] (sm := none) (by simp [knownSmoothing]) h1 h2 h3
    rw [C140_accepted_iff]
    refine ⟨hg.nfp, (by simp [torusCall]), ⟨[1, 1 / 10], [.scalar 1, .scalar 1], rfl, rfl, rfl, rfl⟩, ⟨rfl, rfl, rfl⟩, ?_, ?_,
      ⟨rfl, (by decide), fun i h1 h2 => ?_⟩, ⟨rfl, rfl, fun _ => rfl, fun r hr => ?_⟩, fun h => (by cases h)⟩
    · exact one_dvd _
    · refine ⟨fun p hp => ?_, fun _ => (by simp [torusCall, SurfaceShape.size]), fun h => (by cases h), fun h => (by cases h)⟩
      cases hp
      exact hc.1
    · match i, h1 with
      | 0, _ => exact L rfl (by decide) (by simp)
      | 1, _ => exact L rfl (by decide) (by simp)
    · rw [show QuadcoilArgs.requests _ = _ from cappedArgs_requests v c] at hr
      obtain rfl := List.mem_singleton.1 hr
      exact ⟨L (uc := "<=") rfl (by decide) (by simp), .inl rfl⟩
  have hg' : AllDefaultGrids { torusCall b with phiUnit := some 2, opts := cappedArgs v c } :=
    ⟨hg.nfp, hg.phi, hg.theta, hg.winding_phi, hg.winding_theta, hg.plasma_phi, hg.plasma_theta, hg.mpol, hg.ntor, hg.regular, hg.normal_field⟩
  obtain ⟨R, hR⟩ := C140_accepted_returns hacc (torusCall_metrics b) (gradientDescent_count realGrad (1 / 4)) (gradientDescent_value realGrad (1 / 4))
    (fun _ _ _ _ _ => rfl)
  have hobj : ∀ (e : Dofs) (k : List ℝ), e "phi" = .array k → userObjective (shippedRegistry FieldProblem.fns []) (cappedArgs v c).objectives
      (torusCall b).described e = regObjective (torusCall b).described (1 / 10) k := by
    intro e k he
    have hk : coefs e = k := by rw [coefs, he]; rfl
    have e1 : (rawOf (shippedRegistry FieldProblem.fns []) "f_B" (torusCall b).described e).entries.headD 0 = (torusCall b).described.fB k := by
      show (torusCall b).described.fB (coefs e) = _
      rw [hk]
    have e2 : (rawOf (shippedRegistry FieldProblem.fns []) "f_K" (torusCall b).described e).entries.headD 0 = (torusCall b).described.fK k := by
      show (torusCall b).described.fK (coefs e) = _
      rw [hk]
    rw [cappedArgs_objectives]
    simp only [userObjective, List.map_cons, List.map_nil, List.sum_cons, List.sum_nil, e1, e2, UnitArg.size, regObjective]
    norm_num
  obtain ⟨h1, -, h2⟩ := C163_call (a := { torusCall b with phiUnit := some 2, opts := cappedArgs v c }) [] hg' (cappedArgs_smooth v c)
    (cappedArgs_convex v c) rfl (by show (2 : ℝ) ≠ 0; norm_num) rfl
    ⟨⟨c, by simp [phiOnly], hc.1⟩, fun r hr => (by cases hr), fun e he _ => (by
      obtain ⟨k, hk, hkl⟩ := he
      have := hc.2 k hkl
      rw [← hobj (phiOnly (.array c)) c (by simp [phiOnly]), ← hobj e k hk] at this
      exact this)⟩
    (by
      intro r hr
      have hr' : r ∈ (cappedArgs v c).requests := hr
      rw [cappedArgs_requests] at hr'
      obtain rfl := List.mem_singleton.1 hr'
      have : rawOf (shippedRegistry FieldProblem.fns []) "f_K" (torusCall b).described (phiOnly (.array c)) = .scalar v := by
        rw [hv]
        rfl
      refine ⟨fun _ x hx => ?_, fun h => absurd h (by simp), fun h => absurd h (by simp)⟩
      have hx' : x ∈ (rawOf (shippedRegistry FieldProblem.fns []) "f_K" (torusCall b).described (phiOnly (.array c))).entries := hx
      rw [this] at hx'
      exact (List.mem_singleton.1 hx').le)
    (gradientDescent_count realGrad (1 / 4)) (fun _ _ _ _ _ => rfl) (gradientDescent_shape realGrad (fun f p => by simp [realGrad]) (1 / 4))
    (gradientDescent_rest _) (by show (0 : ℝ) < defaultArgs.cInit; norm_num [defaultArgs])
    (by show (0 : ℝ) < defaultArgs.cGrowth; norm_num [defaultArgs]) hR
  obtain ⟨-, S, hS, hsol, -⟩ := C140_returned hR
  obtain ⟨-, -, -, -, -, -, -, hset⟩ := (C140_setup_iff _ _ S).1 hS
  obtain ⟨r, d, hr, hst⟩ := C139_why_a_call_stops hset (gradientDescent_count realGrad (1 / 4)) (gradientDescent_value realGrad (1 / 4))
    (fun _ _ _ _ _ => rfl)
  rw [hsol] at hr
  cases hr
  rcases hst with ⟨hun, -⟩ | ⟨-, n, s, t, ht, -⟩
  · rw [setup_constrained hset (by
      rw [show QuadcoilArgs.requests _ = _ from cappedArgs_requests v c]
      simp)] at hun
    cases hun
  · exact ⟨c, v, R, t, hc, hv, hR, ht, h1, h2 t ht (by show (0 : ℝ) ≤ defaultArgs.gtolInner; norm_num [defaultArgs])
      (by show (0 : ℝ) ≤ defaultArgs.gtolInnerLast; norm_num [defaultArgs]) (by show (0 : ℝ) < defaultArgs.xstopOuter; norm_num [defaultArgs])
      (by show (0 : ℝ) < defaultArgs.ctolOuter; norm_num [defaultArgs])⟩

end Verif
