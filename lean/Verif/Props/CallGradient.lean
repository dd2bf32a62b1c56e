import Verif.Lemmas.YInputs

/-!
# C151: the gradients of a whole call
-/

namespace Verif

open Filter Topology

/-- The winding surface generator is twice continuously differentiable in the coefficients of the plasma surface and the distance. -/
def SmoothGenerator (a : CallArgs) : Prop := ∀ d, a.plasmaCoilDistance = some d →
  SmoothList 2 (fun e : (Fin a.plasmaDofs.length → ℝ) × ℝ =>
    a.generator (a.pPhi.map fun p => a.pTheta.map fun t => a.plasmaShape.gamma (List.ofFn e.1) p t) e.2 a.nfp a.plasmaStellsym
      a.windingMpol a.windingNtor) (fun i => a.plasmaDofs[i], d)

theorem ofFn_y0 (a : CallArgs) : List.ofFn a.y0 = a.yFlat := by
  unfold CallArgs.y0
  exact List.ofFn_getElem

theorem atY_smooth (a : CallArgs) : SmoothList 2 (fun y : Fin a.yFlat.length → ℝ => List.ofFn y) a.y0 := smoothList_ofFn contDiffAt_id

/-- The problem of a call depends smoothly on its inputs. -/
theorem atY_family {a : CallArgs} (hself : a.atY a.yFlat = a) (hgen : SmoothGenerator a) :
    SmoothFamily 2 (fun y : Fin a.yFlat.length → ℝ => (a.atY (List.ofFn y)).described) a.y0 where
  surf e := by simp [CallArgs.described, CallArgs.atY, CallArgs.withY, Option.isSome_map]
  mpol _ := rfl
  ntor _ := rfl
  stellsym _ := rfl
  wPhis _ := rfl
  wThetas _ := rfl
  ePhis _ := rfl
  eThetas _ := rfl
  shape _ := rfl
  phis _ := rfl
  thetas _ := rfl
  G := (atY_smooth a).numberAt a.yDict _
  I := (atY_smooth a).numberAt a.yDict _
  wdofs := by
    cases hd : a.plasmaCoilDistance with
    | none =>
      have e : (fun y : Fin a.yFlat.length → ℝ => (a.atY (List.ofFn y)).described.cp.wdofs) =
          fun y => entriesAt (unravelLike a.yDict (List.ofFn y)) "winding_dofs" := by
        funext y
        simp [CallArgs.described, CallArgs.atY, CallArgs.withY, hd]
      rw [e]
      exact (atY_smooth a).entriesAt a.yDict _
    | some d =>
      have hent := (atY_smooth a).entriesAt a.yDict "plasma_dofs"
      have h0 : entriesAt (unravelLike a.yDict (List.ofFn a.y0)) "plasma_dofs" = a.plasmaDofs := by
        rw [ofFn_y0]
        exact congrArg CallArgs.plasmaDofs hself
      have h1 : numberAt (unravelLike a.yDict (List.ofFn a.y0)) "plasma_coil_distance" = d := by
        rw [ofFn_y0]
        have := congrArg CallArgs.plasmaCoilDistance hself
        rw [hd] at this
        simpa [CallArgs.atY, CallArgs.withY, hd] using this
      have hlen : ∀ y : Fin a.yFlat.length → ℝ, (entriesAt (unravelLike a.yDict (List.ofFn y)) "plasma_dofs").length = a.plasmaDofs.length := by
        intro y
        rw [← h0]
        exact hent.length y
      have hg : ContDiffAt ℝ 2 (fun y : Fin a.yFlat.length → ℝ => ((fun i : Fin a.plasmaDofs.length =>
          (entriesAt (unravelLike a.yDict (List.ofFn y)) "plasma_dofs").getD i 0, numberAt (unravelLike a.yDict (List.ofFn y)) "plasma_coil_distance") :
          (Fin a.plasmaDofs.length → ℝ) × ℝ)) a.y0 :=
        (contDiffAt_pi.2 fun i : Fin a.plasmaDofs.length => hent.getD i).prodMk ((atY_smooth a).numberAt a.yDict _)
      have hgd := hgen d hd
      have hpt : ((fun i : Fin a.plasmaDofs.length => (entriesAt (unravelLike a.yDict (List.ofFn a.y0)) "plasma_dofs").getD i 0,
          numberAt (unravelLike a.yDict (List.ofFn a.y0)) "plasma_coil_distance") : (Fin a.plasmaDofs.length → ℝ) × ℝ) =
          (fun i => a.plasmaDofs[i], d) := by
        rw [h0, h1]
        refine Prod.ext (funext fun i => ?_) rfl
        simp
      rw [← hpt] at hgd
      have e : (fun y : Fin a.yFlat.length → ℝ => (a.atY (List.ofFn y)).described.cp.wdofs) = fun y =>
          a.generator (a.pPhi.map fun p => a.pTheta.map fun t => a.plasmaShape.gamma (List.ofFn fun i : Fin a.plasmaDofs.length =>
            (entriesAt (unravelLike a.yDict (List.ofFn y)) "plasma_dofs").getD i 0) p t)
            (numberAt (unravelLike a.yDict (List.ofFn y)) "plasma_coil_distance") a.nfp a.plasmaStellsym a.windingMpol a.windingNtor := by
        funext y
        have : (List.ofFn fun i : Fin a.plasmaDofs.length => (entriesAt (unravelLike a.yDict (List.ofFn y)) "plasma_dofs").getD i 0) =
            entriesAt (unravelLike a.yDict (List.ofFn y)) "plasma_dofs" := by
          refine List.ext_getElem (by simp [hlen]) fun i _ hi => ?_
          rw [List.getElem_ofFn]
          exact List.getD_eq_getElem _ _ hi
        rw [this]
        simp only [CallArgs.described, CallArgs.atY, CallArgs.withY, hd, Option.map_some]
        rfl
      rw [e]
      exact SmoothList.comp (d0 := a.y0) hgd hg
  pdofs := (atY_smooth a).entriesAt a.yDict _
  bPlasma := by
    cases hb : a.bnormalPlasma with
    | none =>
      have e : (fun y : Fin a.yFlat.length → ℝ => (a.atY (List.ofFn y)).described.bPlasma) =
          fun _ => List.replicate (a.pPhi.length * a.pTheta.length) 0 := by
        funext y
        simp only [CallArgs.described, CallArgs.atY, CallArgs.withY, hb, Option.map_none]
        rfl
      rw [e]
      exact SmoothList.const _
    | some b =>
      have e : (fun y : Fin a.yFlat.length → ℝ => (a.atY (List.ofFn y)).described.bPlasma) =
          fun y => (entriesAt (unravelLike a.yDict (List.ofFn y)) "Bnormal_plasma").take b.flatten.length := by
        funext y
        simp only [CallArgs.described, CallArgs.atY, CallArgs.withY, hb, Option.map_some, reshapeLike_flatten]
      rw [e]
      exact ((atY_smooth a).entriesAt a.yDict _).take _

/-! ## The usual call -/

theorem standard_template (others : List String) {Q : FieldProblem} {w u : ℝ} {S : Setup}
    (h : quadcoilSetup (shippedRegistry FieldProblem.fns others) Q (standardArgs w) u = .ok S) :
    S.template = [("phi_scaled", .array ((List.replicate (HasQp.ndofs Q) 0).map fun t => t / u))] ∧ S.phiUnit = u ∧
      S.x0.length = HasQp.ndofs Q := by
  have e : ∃ T, quadcoilSetup (shippedRegistry FieldProblem.fns others) Q (standardArgs w) u = .ok T ∧
      T.template = xTemplate Q (List.replicate (HasQp.ndofs Q) 0) u [] ∧ T.phiUnit = u ∧ T.x0 = ravel T.template := ⟨_, rfl, rfl, rfl, rfl⟩
  obtain ⟨T, hT, h1, h2, h3⟩ := e
  rw [h] at hT
  cases hT
  have h4 : S.template = [("phi_scaled", .array ((List.replicate (HasQp.ndofs Q) 0).map fun t => t / u))] := by
    rw [h1, xTemplate, List.map_nil, sortKeys, List.mergeSort_singleton]
  refine ⟨h4, h2, ?_⟩
  rw [h3, h4]
  simp [ravel, Val.entries]

theorem standard_fgh (others : List String) (Q : FieldProblem) (w v₁ v₂ : ℝ) (cv : List ℝ) :
    ∃ p, fghFromY (shippedRegistry FieldProblem.fns others) Q { standardArgs w with objectiveWeight := .many [v₁, v₂], constraintValue := cv } = .ok p ∧
      ∀ d, p.f d = .scalar (0 + Q.fB (coefs d) / Q.fB (List.replicate (HasQp.ndofs Q) 0) * v₁ +
        Q.fK (coefs d) / Q.fK (List.replicate (HasQp.ndofs Q) 0) * v₂) := ⟨_, rfl, fun d => rfl⟩

/-- The weights of the objectives. -/
def CallArgs.weight (b : CallArgs) (i : ℕ) : ℝ :=
  match b.opts.objectiveWeight with
  | .many ws => ws.getD i 0
  | .one w => w

/-- What a call with the objectives `f_B` and `f_K` and the units `None` minimises. -/
noncomputable def CallArgs.goal (b : CallArgs) (c : List ℝ) : ℝ := weightedRelative (b.weight 0) (b.weight 1) b.described c

/-- The quantities whose gradients are considered. `f_obj` has the weights of the call at which gradients are taken (C63). -/
noncomputable def CallArgs.quantityOf (a b : CallArgs) (name : String) (c : List ℝ) : ℝ :=
  if name = "f_obj" then weightedRelative (a.weight 0) (a.weight 1) b.described c
  else if name = "f_B" then b.described.fB c else b.described.fK c

section
variable {a : CallArgs}

theorem standard_otherInputs (hone : a.plasmaCoilDistance.isSome ≠ a.windingDofs.isSome) (w : ℝ) : OtherInputs (a.standard w) (a.standard w) where
  rest := rfl
  plasma := rfl
  field := rfl
  distance := rfl
  winding := rfl
  one := hone
  weights := ⟨[1, w], [1, w], rfl, rfl, rfl⟩
  values := rfl
  no_values _ := rfl

theorem standard_weights (a : CallArgs) (w : ℝ) (y : Fin (a.standard w).yFlat.length → ℝ) :
    ((a.standard w).atY (List.ofFn y)).opts.objectiveWeight =
      .many [((a.standard w).atY (List.ofFn y)).weight 0, ((a.standard w).atY (List.ofFn y)).weight 1] ∧
    ∀ i, ((a.standard w).atY (List.ofFn y)).weight i =
      (entriesAt (unravelLike (a.standard w).yDict (List.ofFn y)) "objective_weight").getD i 0 := by
  have hl : (a.standard w).yDict.lookup "objective_weight" = some (.array [1, w]) := by
    rw [yDict_lookup]
    simp [CallArgs.yInserted, CallArgs.standard, standardArgs, lookup_cons_ite, weightsVal]
  obtain ⟨v, hv, hs, hlen⟩ := unravelLike_lookup (x := List.ofFn y) hl
  have hlen := hlen (by rw [List.length_ofFn]; rfl)
  cases v with
  | scalar => cases hs
  | array ws =>
    have e1 : ((a.standard w).atY (List.ofFn y)).opts.objectiveWeight = .many ws := by
      show leafWeights (List.lookup _ _) = _
      rw [hv]
      rfl
    have e2 : ∀ i, ((a.standard w).atY (List.ofFn y)).weight i = ws.getD i 0 := by
      intro i
      simp only [CallArgs.weight, e1]
    have e3 : entriesAt (unravelLike (a.standard w).yDict (List.ofFn y)) "objective_weight" = ws := by
      rw [entriesAt, hv]
      rfl
    refine ⟨?_, fun i => by rw [e2, e3]⟩
    rw [e1, e2, e2]
    have : ws.length = 2 := hlen
    match ws, this with
    | [p, q], _ => rfl

theorem dofsOf_standard {u : ℝ} {L : ℕ} (x : Fin L → ℝ) :
    coefs (dofsOf [("phi_scaled", .array ((List.replicate L 0).map fun t => t / u))] u (List.ofFn x)) = List.ofFn (u • x) := by
  have hw : (unravelLike [("phi_scaled", .array ((List.replicate L (0 : ℝ)).map fun t => t / u))] (List.ofFn x)).lookup "phi_scaled" =
      some (.array (List.ofFn x)) := by
    simp [unravelLike, List.take_of_length_le]
  rw [coefs, dofsOf_phi hw]
  show (List.ofFn x).map (fun s => s * u) = _
  rw [List.map_ofFn]
  congr 1
  funext i
  simp [mul_comm]

/-- The objective and the metrics that are differentiated. -/
theorem standard_lk (others : List String) (hdvd : a.nfp ∣ a.wPhi.length) {w : ℝ} {S : Setup} {u : ℝ} {L : ℕ} (hL : L = HasQp.ndofs a.described)
    (hS : quadcoilSetup (shippedRegistry FieldProblem.fns others) a.described (standardArgs w) u = .ok S) :
    ((a.standard w).lk (nx := L) (shippedRegistry FieldProblem.fns others) S = scaledObjective (fun y => ((a.standard w).atY (List.ofFn y)).described)
        (fun y => ((a.standard w).atY (List.ofFn y)).weight 0) (fun y => ((a.standard w).atY (List.ofFn y)).weight 1) u) ∧
      ∀ name ∈ ["f_B", "f_K", "f_obj"], (a.standard w).fMetric (nx := L) (shippedRegistry FieldProblem.fns others) S name =
        fun x y => (a.standard w).quantityOf ((a.standard w).atY (List.ofFn y)) name (List.ofFn (u • x)) := by
  obtain ⟨h1, h2, -⟩ := standard_template others hS
  subst hL
  have hco : ∀ x : Fin (HasQp.ndofs a.described) → ℝ, coefs (dofsOf S.template S.phiUnit (List.ofFn x)) = List.ofFn (u • x) := by
    intro x
    rw [h1, h2]
    exact dofsOf_standard x
  have hpar : ∀ y : Fin (a.standard w).yFlat.length → ℝ, ∃ o, ((a.standard w).atY (List.ofFn y)).paramsObj = .ok o ∧
      o.toField = ((a.standard w).atY (List.ofFn y)).described := by
    intro y
    obtain ⟨o, ho, hf, -⟩ := paramsObj_ok (a := (a.standard w).atY (List.ofFn y)) hdvd
    exact ⟨o, ho, hf⟩
  have hnd : ∀ y : Fin (a.standard w).yFlat.length → ℝ, HasQp.ndofs ((a.standard w).atY (List.ofFn y)).described = HasQp.ndofs a.described :=
    fun y => rfl
  refine ⟨?_, ?_⟩
  · funext x y
    obtain ⟨o, ho, hf⟩ := hpar y
    obtain ⟨hw, -⟩ := standard_weights a w y
    have hopts : ((a.standard w).atY (List.ofFn y)).opts = { standardArgs w with
        objectiveWeight := .many [((a.standard w).atY (List.ofFn y)).weight 0, ((a.standard w).atY (List.ofFn y)).weight 1]
        constraintValue := ((a.standard w).atY (List.ofFn y)).opts.constraintValue } := by
      rw [← hw]
      rfl
    obtain ⟨p, hp, hpf⟩ := standard_fgh others ((a.standard w).atY (List.ofFn y)).described w (((a.standard w).atY (List.ofFn y)).weight 0)
      (((a.standard w).atY (List.ofFn y)).weight 1) ((a.standard w).atY (List.ofFn y)).opts.constraintValue
    rw [← hopts] at hp
    rw [CallArgs.lk, CallArgs.objectiveAt, ho]
    simp only [Bind.bind, Except.bind, hf, hp, okNumber, hpf, Val.entries, List.headD_cons, hco]
    rw [scaledObjective, weightedRelative, hnd, List.length_ofFn]
    ring
  · intro name hname
    funext x y
    obtain ⟨o, ho, hf⟩ := hpar y
    rw [CallArgs.fMetric, CallArgs.metricAt, ho]
    simp only [Bind.bind, Except.bind, hf]
    simp only [List.mem_cons, List.not_mem_nil, or_false] at hname
    rcases hname with rfl | rfl | rfl
    · rw [if_neg (by decide), CallArgs.quantityOf, if_neg (by decide), if_pos rfl, ← hco x]
      rfl
    · rw [if_neg (by decide), CallArgs.quantityOf, if_neg (by decide), if_neg (by decide), ← hco x]
      rfl
    · rw [if_pos rfl, CallArgs.quantityOf, if_pos rfl]
      obtain ⟨p, hp, hpf⟩ := standard_fgh others ((a.standard w).atY (List.ofFn y)).described w 1 w []
      have hp' : fghFromY (shippedRegistry FieldProblem.fns others) ((a.standard w).atY (List.ofFn y)).described (a.standard w).opts = .ok p := hp
      simp only [hp', okNumber, hpf, Val.entries, List.headD_cons, hco]
      rw [weightedRelative, hnd, List.length_ofFn]
      have e0 : (a.standard w).weight 0 = 1 := rfl
      have e1 : (a.standard w).weight 1 = w := rfl
      rw [e0, e1]
      ring

theorem solve_inner_length {opt : Optimizer ℝ} (hs : opt.ShapeContract realGrad) {S : Setup} {i : InnerResult ℝ} {d : Dofs}
    (h : quadcoilSolve opt realGrad S = some (.inner i, d)) : i.x.length = S.x0.length := by
  unfold quadcoilSolve at h
  cases hun : S.unconstrained with
  | true =>
    rw [hun] at h
    simp only [if_true, Option.map_map, Option.map_eq_some_iff] at h
    obtain ⟨j, hj, hi⟩ := h
    simp only [Function.comp_apply, Prod.mk.injEq, SolveResults.inner.injEq] at hi
    rw [← hi.1]
    exact runOpt_length hs hj
  | false =>
    rw [hun] at h
    simp only [Bool.false_eq_true, if_false, Option.map_map, Option.map_eq_some_iff] at h
    obtain ⟨j, hj, hi⟩ := h
    simp at hi

/-- A call with the usual objectives on the default grids whose data fit: regular surfaces that are apart, a field to be cancelled, a net
current, a unit of the potential that is not zero and known metrics. -/
structure UsualCall (others : List String) (a : CallArgs) : Prop where
  grids : DefaultGrids a
  one : a.plasmaCoilDistance.isSome ≠ a.windingDofs.isSome
  plasma_size : a.plasmaDofs.length = (⟨a.nfp, a.plasmaStellsym, a.plasmaMpol, a.plasmaNtor⟩ : SurfaceShape).size
  winding_size : a.described.cp.wdofs.length = a.described.cp.surf.size
  plasma_regular : ∀ q ∈ gridPoints (linspace0 (1 / a.nfp) 32) (linspace0 1 34), a.described.plasma.shape.normal a.plasmaDofs q.1 q.2 ≠ 0
  winding_regular : ∀ q ∈ gridPoints (linspace0 1 (32 * a.nfp)) (linspace0 1 34), a.described.cp.N q.1 q.2 ≠ 0
  apart : ∀ q ∈ gridPoints (linspace0 (1 / a.nfp) 32) (linspace0 1 34), ∀ r ∈ gridPoints (linspace0 1 (32 * a.nfp)) (linspace0 1 34),
    a.described.plasma.shape.gamma a.plasmaDofs q.1 q.2 ≠ a.described.cp.surf.gamma a.described.cp.wdofs r.1 r.2
  field : ∃ b ∈ a.described.bnormal (List.replicate (HasQp.ndofs a.described) 0), b ≠ 0
  net : a.netPoloidal ≠ 0 ∨ a.netToroidal ≠ 0
  unit : UsableUnit a
  metrics : KnownMetrics (shippedRegistry FieldProblem.fns others) a
  generator : SmoothGenerator a

theorem UsualCall.plasmaGrid {others : List String} (h : UsualCall others a) :
    a.described.plasma.phis = linspace0 (1 / a.nfp) 32 ∧ a.described.plasma.thetas = linspace0 1 34 := by
  constructor
  · show a.plasmaQuadpointsPhi.getD _ = _
    rw [h.grids.plasma_phi]
    rfl
  · show a.plasmaQuadpointsTheta.getD _ = _
    rw [h.grids.plasma_theta]
    rfl

theorem UsualCall.windingGrid {others : List String} (h : UsualCall others a) :
    a.described.wPhis = linspace0 1 (32 * a.nfp) ∧ a.described.wThetas = linspace0 1 34 := by
  constructor
  · show a.windingQuadpointsPhi.getD _ = _
    rw [h.grids.winding_phi]
    rfl
  · show a.windingQuadpointsTheta.getD _ = _
    rw [h.grids.winding_theta]
    rfl

theorem UsualCall.units {others : List String} (h : UsualCall others a) :
    0 < a.described.fB (List.replicate (HasQp.ndofs a.described) 0) ∧ 0 < a.described.fK (List.replicate (HasQp.ndofs a.described) 0) := by
  obtain ⟨e1, e2⟩ := h.plasmaGrid
  refine ⟨fB_pos h.grids.nfp ?_ ?_ h.field, fK_zero_pos h.grids.resolving h.net _⟩
  · have : (0 : ℝ) < a.nfp := by exact_mod_cast Nat.pos_of_ne_zero h.grids.nfp
    rw [e1, e2, gridStep_linspace0 _ _ (by norm_num), gridStep_linspace0 _ _ (by norm_num)]
    positivity
  · rw [e1, e2]
    exact h.plasma_regular

theorem UsualCall.regularProblem {others : List String} (h : UsualCall others a) : RegularProblem a.described := by
  obtain ⟨e1, e2⟩ := h.plasmaGrid
  obtain ⟨e3, e4⟩ := h.windingGrid
  constructor
  · rw [e3, e4]
    exact h.winding_regular
  · rw [h.grids.resolved.ePhis, h.grids.resolved.eThetas]
    exact h.grids.resolved.regular
  · rw [e1, e2]
    exact h.plasma_regular
  · rw [e1, e2, e3, e4]
    exact h.apart

/-- The inputs of such a call are smooth inputs of the problem. -/
theorem UsualCall.smoothInputs {others : List String} (h : UsualCall others a) {w : ℝ} (hw : 0 < w) :
    SmoothInputs (fun y => ((a.standard w).atY (List.ofFn y)).described) (fun y => ((a.standard w).atY (List.ofFn y)).weight 0)
      (fun y => ((a.standard w).atY (List.ofFn y)).weight 1) (a.standard w).y0 32 34 (HasQp.ndofs a.described) := by
  have hself := (standard_otherInputs h.one w).atY
  have e0 : (a.standard w).atY (List.ofFn (a.standard w).y0) = a.standard w := by rw [ofFn_y0, hself]
  have hdes : ((a.standard w).atY (List.ofFn (a.standard w).y0)).described = a.described := by
    rw [e0]
    rfl
  have hsm := (atY_smooth (a.standard w)).entriesAt (a.standard w).yDict "objective_weight"
  refine ⟨atY_family hself h.generator, ?_, ?_, rfl, ?_, ?_, ?_, ?_, ?_, ?_⟩
  · rw [hdes]
    exact h.regularProblem
  · rw [hdes]
    exact h.grids.resolved
  · simp only [(standard_weights a w _).2]
    exact hsm.getD 0
  · simp only [(standard_weights a w _).2]
    exact hsm.getD 1
  · rw [e0]
    exact one_pos
  · rw [e0]
    exact hw
  · rw [hdes]
    exact h.units.1
  · rw [hdes]
    exact h.units.2

/-- **C151 (the gradients returned by a call).** For the usual call, near its inputs every call has exactly one best potential, which is a
differentiable function of all inputs. At the best potential, the array of gradients computed by the code consists of the partial
derivatives of the metric along the best potentials. For every accuracy there is a bound such that a run that ends with a gradient below
it has exactly one solution of its linear system, and the gradients computed from that are so accurate. For `f_obj` the derivatives are
those with the weights of the call kept (C63). Missing: the run need not end below the bound, and rounding. -/
theorem C151_call_partial (others : List String) (h : UsualCall others a) {w : ℝ} (hw : 0 < w) :
    ∃ (S : Setup) (best : (Fin (a.standard w).yFlat.length → ℝ) → Fin (HasQp.ndofs a.described) → ℝ),
      (a.standard w).setup (shippedRegistry FieldProblem.fns others) = .ok (a.described, S) ∧
      (∀ᶠ y in 𝓝 (a.standard w).y0, ∀ c, IsBest ((a.standard w).atY (List.ofFn y)).goal (HasQp.ndofs a.described) c ↔ c = List.ofFn (best y)) ∧
      DifferentiableAt ℝ best (a.standard w).y0 ∧
      ∀ name ∈ ["f_B", "f_K", "f_obj"], ∃ D : Fin (a.standard w).yFlat.length → ℝ,
        (∀ j, D j = fderiv ℝ (fun y => (a.standard w).quantityOf ((a.standard w).atY (List.ofFn y)) name (List.ofFn (best y)))
          (a.standard w).y0 (Pi.single j 1)) ∧
        (∀ v, (a.standard w).SolvesVihp (shippedRegistry FieldProblem.fns others) S name (S.phiUnit⁻¹ • best (a.standard w).y0) v →
          (a.standard w).dfdyArr (shippedRegistry FieldProblem.fns others) S name (S.phiUnit⁻¹ • best (a.standard w).y0) v = List.ofFn D) ∧
        ∀ ε > 0, ∃ η > 0, ∀ {opt : Optimizer ℝ} (_ : opt.CountContract) (_ : opt.ValueContract) (_ : opt.GradContract realGrad)
          (_ : opt.ShapeContract realGrad),
          ∃ (R : CallOut) (i : InnerResult ℝ) (x : Fin (HasQp.ndofs a.described) → ℝ), quadcoilCall opt realGrad (shippedRegistry FieldProblem.fns others) (a.standard w) = .ok (some R) ∧
            R.results = .inner i ∧ i.x = List.ofFn x ∧
            (Num.norm i.grad < η → (∃! v, (a.standard w).SolvesVihp (shippedRegistry FieldProblem.fns others) S name x v) ∧
              ∀ v, (a.standard w).SolvesVihp (shippedRegistry FieldProblem.fns others) S name x v →
                List.Forall₂ (fun s t => |s - t| < ε) ((a.standard w).dfdyArr (shippedRegistry FieldProblem.fns others) S name x v) (List.ofFn D)) := by
  obtain ⟨μ, hμ, h142⟩ := C142_standard_call_partial others h.grids h.one h.plasma_size h.winding_size h.plasma_regular h.field h.net h.unit h.metrics
  obtain ⟨c, hc, hrun⟩ := h142 hw
  obtain ⟨S, hS⟩ : ∃ S, (a.standard w).setup (shippedRegistry FieldProblem.fns others) = .ok (a.described, S) := by
    obtain ⟨b, k0, S, -, -, -, -, hS, -⟩ := standard_call others h.grids.toAllDefaultGrids h.one h.plasma_size h.winding_size h.plasma_regular
      h.field h.net h.unit h.metrics w
    exact ⟨S, hS⟩
  obtain ⟨-, -, -, -, hdvd, -, -, hset⟩ := (C140_setup_iff (a := a.standard w) _ _ S).1 hS
  have hself := (standard_otherInputs h.one w).atY
  have e0 : (a.standard w).atY (List.ofFn (a.standard w).y0) = a.standard w := by rw [ofFn_y0, hself]
  set u := (a.standard w).unit a.described with hu
  have hu0 : u ≠ 0 := unit_ne_zero (a := a.standard w) h.unit h.field
  have hset' : quadcoilSetup (shippedRegistry FieldProblem.fns others) a.described (standardArgs w) u = .ok S := hset
  obtain ⟨htem, hphi, hx0⟩ := standard_template others hset'
  obtain ⟨hlk, hmet⟩ := standard_lk (a := a) (L := HasQp.ndofs a.described) others hdvd rfl hset'
  have hI := h.smoothInputs hw
  obtain ⟨best, hbest, hdiff, hgrad⟩ := C151_gradients hI
  have hcb : c = List.ofFn (best (a.standard w).y0) := by
    refine (hbest.self_of_nhds c).1 ?_
    rw [e0]
    have : IsBest (relativeObjective a.described w) (HasQp.ndofs a.described) c := (hc c).2 rfl
    have e : relativeObjective a.described w = weightedRelative ((a.standard w).weight 0) ((a.standard w).weight 1) (a.standard w).described := by
      funext k
      rw [relativeObjective, weightedRelative]
      show _ = 1 * _ + w * _
      rw [one_mul]
      rfl
    rwa [e] at this
  refine ⟨S, best, hS, hbest, hdiff, fun name hname => ?_⟩
  -- the metric as a function of problem and potential
  obtain ⟨m, hm, hms⟩ : ∃ m : FieldProblem → List ℝ → ℝ, (∀ b c, (a.standard w).quantityOf b name c = m b.described c) ∧
      ContDiffAt ℝ 1 (Function.uncurry (scaledMetric (L := HasQp.ndofs a.described)
        (fun y => ((a.standard w).atY (List.ofFn y)).described) m u)) (u⁻¹ • best (a.standard w).y0, (a.standard w).y0) := by
    simp only [List.mem_cons, List.not_mem_nil, or_false] at hname
    rcases hname with rfl | rfl | rfl
    · exact ⟨FieldProblem.fB, fun b c => by simp [CallArgs.quantityOf], (hI.fB u _).of_le (by norm_num)⟩
    · exact ⟨FieldProblem.fK, fun b c => by simp [CallArgs.quantityOf], (hI.fK u _).of_le (by norm_num)⟩
    · have hI' : SmoothInputs (fun y => ((a.standard w).atY (List.ofFn y)).described) (fun _ => (1 : ℝ)) (fun _ => w) (a.standard w).y0 32 34
          (HasQp.ndofs a.described) :=
        { hI with smooth₁ := contDiffAt_const, smooth₂ := contDiffAt_const, pos₁ := one_pos, pos₂ := hw }
      exact ⟨weightedRelative 1 w, fun b c => by simp only [CallArgs.quantityOf, if_true]; rfl, (hI'.objective u _).of_le (by norm_num)⟩
  have hfm : (a.standard w).fMetric (nx := HasQp.ndofs a.described) (shippedRegistry FieldProblem.fns others) S name =
      scaledMetric (fun y => ((a.standard w).atY (List.ofFn y)).described) m u := by
    rw [hmet name hname]
    funext x y
    rw [hm]
    rfl
  obtain ⟨hexact, hnear⟩ := hgrad u hu0 m hms
  refine ⟨fun j => fderiv ℝ (fun y => m ((a.standard w).atY (List.ofFn y)).described (List.ofFn (best y))) (a.standard w).y0 (Pi.single j 1),
    fun j => by simp only [hm], ?_, ?_⟩
  · intro v hv
    rw [CallArgs.SolvesVihp, hlk, hfm, hphi] at hv
    rw [CallArgs.dfdyArr, hlk, hfm, hphi]
    congr 1
    funext j
    exact hexact v hv _
  · intro ε hε
    have hall := (eventually_all.2 fun j : Fin (a.standard w).yFlat.length => hnear (Pi.single j 1) ε hε).and
      (hnear 0 ε hε)
    obtain ⟨δ, hδ, hball⟩ := Metric.eventually_nhds_iff.1 hall
    have hK := h.units.2
    have hη : 0 < 2 * (w / a.described.fK (List.replicate (HasQp.ndofs a.described) 0)) * μ * |u| * (|u| * δ) := by positivity
    refine ⟨_, hη, ?_⟩
    intro opt hcc hcv hcg hcs
    obtain ⟨R, i, k, S', hR, hi, hk, hS', -, -, hb, -⟩ := hrun hcc hcv hcg hcs
    rw [hS] at hS'
    cases hS'
    obtain ⟨-, S', hS', hsol, hd, -⟩ := C140_returned hR
    rw [hS] at hS'
    cases hS'
    rw [hi] at hsol hd
    have hlen : i.x.length = HasQp.ndofs a.described := by rw [solve_inner_length hcs hsol, hx0]
    obtain ⟨x, hx⟩ := eq_ofFn i.x hlen
    refine ⟨R, i, x, hR, hi, hx, fun hsmall => ?_⟩
    have hkx : k = List.ofFn (u • x) := by
      have e1 : coefs R.dofs = k := by
        rw [coefs, hk]
        rfl
      rw [← e1, hd]
      show coefs (dofsOf S.template S.phiUnit i.x) = _
      rw [htem, hphi, hx]
      exact dofsOf_standard x
    have hdist : dist x (u⁻¹ • best (a.standard w).y0) < δ := by
      rw [hkx, hcb, sqDist_ofFn] at hb
      have h1 : Real.sqrt (∑ l, (best (a.standard w).y0 l - (u • x) l) ^ 2) < |u| * δ := by
        have h2 := hb.trans_lt hsmall
        exact lt_of_mul_lt_mul_left h2 (by positivity)
      rw [dist_pi_lt_iff hδ]
      intro l
      have h3 : (best (a.standard w).y0 l - (u • x) l) ^ 2 ≤ ∑ l, (best (a.standard w).y0 l - (u • x) l) ^ 2 :=
        Finset.single_le_sum (f := fun l => (best (a.standard w).y0 l - (u • x) l) ^ 2) (fun _ _ => sq_nonneg _) (Finset.mem_univ l)
      have h4 : |best (a.standard w).y0 l - (u • x) l| < |u| * δ := by
        rw [← Real.sqrt_sq_eq_abs]
        exact (Real.sqrt_le_sqrt h3).trans_lt h1
      have h5 : best (a.standard w).y0 l - (u • x) l = -(u * (x l - (u⁻¹ • best (a.standard w).y0) l)) := by
        simp only [Pi.smul_apply, smul_eq_mul]
        field_simp
        ring
      rw [h5, abs_neg, abs_mul] at h4
      rw [Real.dist_eq]
      exact lt_of_mul_lt_mul_left h4 (abs_nonneg u)
    obtain ⟨hj, h0⟩ := hball hdist
    simp only [CallArgs.SolvesVihp, CallArgs.dfdyArr, hlk, hfm]
    refine ⟨h0.1, fun v hv => ?_⟩
    rw [List.forall₂_iff_get]
    refine ⟨by simp, fun n h1 h2 => ?_⟩
    simp only [List.get_eq_getElem, List.getElem_ofFn]
    exact (hj _).2 v hv

/-! ## The dictionary of gradients -/

theorem unravelLike_sameLeaf : ∀ (t : List (String × Val)) (x : List ℝ), x.length = (ravel t).length →
    List.Forall₂ SameLeaf t (unravelLike t x) ∧ ravel (unravelLike t x) = x
  | [], x, h => by
    have : x = [] := List.length_eq_zero_iff.1 (by simpa [ravel] using h)
    exact ⟨.nil, by rw [this]; rfl⟩
  | (k, .scalar v) :: t, x, h => by
    cases x with
    | nil => simp [ravel, Val.entries] at h
    | cons y x =>
      obtain ⟨h1, h2⟩ := unravelLike_sameLeaf t x (by simpa [ravel, Val.entries] using h)
      refine ⟨.cons ⟨rfl, .inl ⟨v, y, rfl, rfl⟩⟩ h1, ?_⟩
      rw [unravelLike, ravel, List.flatMap_cons]
      show [y] ++ ravel (unravelLike t x) = _
      rw [h2]
      rfl
  | (k, .array v) :: t, x, h => by
    have hl : x.length = v.length + (ravel t).length := by simpa [ravel, Val.entries] using h
    obtain ⟨h1, h2⟩ := unravelLike_sameLeaf t (x.drop v.length) (by rw [List.length_drop]; omega)
    refine ⟨.cons ⟨rfl, .inr ⟨v, _, rfl, rfl, by rw [List.length_take]; omega⟩⟩ h1, ?_⟩
    rw [unravelLike, ravel, List.flatMap_cons]
    show x.take v.length ++ ravel (unravelLike t (x.drop v.length)) = _
    rw [h2, List.take_append_drop]

theorem yInserted_keys (a : CallArgs) : a.yInserted.map Prod.fst = yKeys a.yArgs := by
  unfold CallArgs.yInserted yKeys CallArgs.yArgs
  cases a.opts.objectiveName <;> cases a.bnormalPlasma <;> cases a.plasmaCoilDistance <;> by_cases h : 0 < a.opts.constraintName.length <;>
    simp [h]

/-- **C151 (the dictionary of gradients).** The keys are the names of the inputs after `df_d`, each once, and every entry has the shape of
its input. The entries one after the other are the array of gradients, in the order in which the inputs are the flat vector. -/
theorem C151_dictionary (a : CallArgs) (reg : Registry FieldProblem) (S : Setup) {nx : ℕ} (name : String) (x v : Fin nx → ℝ) :
    ((a.dfdyDict reg S name x v).map Prod.fst).Perm ((yKeys a.yArgs).map fun k => "df_d" ++ k) ∧
    List.Forall₂ (fun input g => SameLeaf ("df_d" ++ input.1, input.2) g) a.yDict (a.dfdyDict reg S name x v) ∧
    ravel (a.dfdyDict reg S name x v) = a.dfdyArr reg S name x v := by
  have hlen : (a.dfdyArr reg S name x v).length = (ravel a.yDict).length := by
    rw [CallArgs.dfdyArr, List.length_ofFn]
    rfl
  obtain ⟨h1, h2⟩ := unravelLike_sameLeaf a.yDict _ hlen
  refine ⟨?_, ?_, ?_⟩
  · rw [CallArgs.dfdyDict, List.map_map, ← yInserted_keys, List.map_map]
    have hp : (a.yDict.map Prod.fst).Perm (a.yInserted.map Prod.fst) := (List.mergeSort_perm _ _).map _
    have := hp.map fun k => "df_d" ++ k
    rw [List.map_map] at this
    refine List.Perm.trans (List.Perm.of_eq ?_) (this.trans (List.Perm.of_eq (by rw [List.map_map])))
    have hk := congrArg (List.map fun k => "df_d" ++ k) (unravelLike_keys a.yDict (a.dfdyArr reg S name x v))
    rw [List.map_map, List.map_map] at hk
    exact hk
  · rw [CallArgs.dfdyDict, List.forall₂_map_right_iff]
    exact h1.imp fun p q h => ⟨by rw [h.1], h.2⟩
  · rw [CallArgs.dfdyDict, ravel, List.flatMap_map]
    exact h2

/-- **C151 (every input).** Whatever the other inputs are, the call reads exactly them from the flat vector of them. -/
theorem C151_every_input {a b : CallArgs} (h : OtherInputs a b) : a.atY b.yFlat = b := h.atY

end

end Verif
