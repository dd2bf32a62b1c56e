import Verif.Model.Call
import Verif.Props.Api
import Verif.Props.Field
import Verif.Props.SetupErrors
import Verif.Props.WellPosed

/-!
# C140: a whole call: which arguments are accepted, which problem they describe, what is returned
-/

namespace Verif

/-- The problem that the arguments describe: the winding surface is the given one or the generated one, the evaluation grid is the given
one or the first field period of the winding grid, the plasma normal field is the given one or zero. -/
noncomputable def CallArgs.described (a : CallArgs) : FieldProblem where
  cp := {
    surf := ⟨a.nfp, if a.plasmaCoilDistance.isSome then a.stellsym else a.windingStellsym, a.windingMpol, a.windingNtor⟩
    wdofs := match a.plasmaCoilDistance with
      | some d => a.generator (a.pPhi.map fun p => a.pTheta.map fun t =>
          (⟨a.nfp, a.plasmaStellsym, a.plasmaMpol, a.plasmaNtor⟩ : SurfaceShape).gamma a.plasmaDofs p t) d a.nfp a.plasmaStellsym
          a.windingMpol a.windingNtor
      | none => a.windingDofs.getD []
    G := a.netPoloidal
    I := a.netToroidal
    mpol := a.mpol
    ntor := a.ntor
    stellsym := a.stellsym }
  wPhis := a.windingQuadpointsPhi.getD (linspace0 1 (32 * a.nfp))
  wThetas := a.windingQuadpointsTheta.getD (linspace0 1 34)
  ePhis := a.quadpointsPhi.getD ((a.windingQuadpointsPhi.getD (linspace0 1 (32 * a.nfp))).take
    ((a.windingQuadpointsPhi.getD (linspace0 1 (32 * a.nfp))).length / a.nfp))
  eThetas := a.quadpointsTheta.getD (a.windingQuadpointsTheta.getD (linspace0 1 34))
  plasma := ⟨⟨a.nfp, a.plasmaStellsym, a.plasmaMpol, a.plasmaNtor⟩, a.plasmaDofs,
    a.plasmaQuadpointsPhi.getD (linspace0 (1 / a.nfp) 32), a.plasmaQuadpointsTheta.getD (linspace0 1 34)⟩
  bPlasma := match a.bnormalPlasma with
    | some b => b.flatten
    | none => List.replicate (a.pPhi.length * a.pTheta.length) 0

theorem flatten_zeros (l m : List ℝ) : (l.map fun _ => m.map fun _ => (0 : ℝ)).flatten = List.replicate (l.length * m.length) 0 := by
  induction l with
  | nil => simp
  | cons x l ih =>
    rw [List.map_cons, List.flatten_cons, ih, List.length_cons, Nat.add_mul, one_mul, Nat.add_comm, List.replicate_add]
    simp

variable {a : CallArgs}

theorem paramsObj_ok (h : a.nfp ∣ a.wPhi.length) : ∃ o, a.paramsObj = .ok o ∧ o.toField = a.described ∧
    o.ndofs = (cpNdofs a.stellsym a.mpol a.ntor).1 := by
  have hm : a.wPhi.length % a.nfp = 0 := Nat.mod_eq_zero_of_dvd h
  simp only [CallArgs.paramsObj, SurfaceObj.init, requireArr1, ParamsObj.init, BaseParams.init, requireSurf, bind, Except.bind, hm,
    Child.orDefault, SurfaceObj.copyAndSetQuadpoints, ne_eq, not_true_eq_false, if_false, Except.ok.injEq, exists_eq_left']
  refine ⟨?_, trivial⟩
  simp only [ParamsObj.toField, SurfaceObj.shape, Child.toNum, Child.toFlat, CallArgs.described, CallArgs.windingData,
    CallArgs.bnormalArr]
  congr 1
  · cases a.plasmaCoilDistance <;> simp [CallArgs.plasmaGamma, CallArgs.plasmaShape]
  · cases a.bnormalPlasma with
    | some b => simp
    | none => simp only [Option.getD_none, flatten_zeros]

theorem paramsObj_error (h : ¬ a.nfp ∣ a.wPhi.length) : a.paramsObj = .error .assertionError := by
  have hm : a.wPhi.length % a.nfp ≠ 0 := fun e => h (Nat.dvd_of_mod_eq_zero e)
  simp [CallArgs.paramsObj, SurfaceObj.init, requireArr1, ParamsObj.init, BaseParams.init, requireSurf, bind, Except.bind, hm]

/-- The objective arguments have fitting shapes: one name, or as many weights and units as names. -/
def FittingObjectives (a : QuadcoilArgs) : Prop :=
  match a.objectiveName with
  | .one _ => True
  | .many ns => ∃ ws us, a.objectiveWeight = .many ws ∧ a.objectiveUnit = .many us ∧ ws.length = ns.length ∧ us.length = ns.length

/-- The constraints are given by four lists of one length. -/
def FittingConstraints (a : QuadcoilArgs) : Prop :=
  a.constraintType.length = a.constraintName.length ∧ a.constraintUnit.length = a.constraintName.length ∧
    a.constraintValue.length = a.constraintName.length

theorem checks_iff : quadcoilChecks a.checked = .ok () ↔
    (a.plasmaCoilDistance.isSome ≠ a.windingDofs.isSome) ∧ FittingObjectives a.opts ∧ FittingConstraints a.opts := by
  rw [C28_accepted_iff_documented]
  have h1 : ((∃ s, a.checked.objectiveName = .str s) ∨ ∃ n, a.checked.objectiveName = .tuple n ∧ a.checked.objectiveWeight = .array [n] ∧
      HasLen a.checked.objectiveUnit n) ↔ FittingObjectives a.opts := by
    simp only [CallArgs.checked, FittingObjectives]
    cases a.opts.objectiveName with
    | one s => simp [CallArgs.namesObj]
    | many ns =>
      cases a.opts.objectiveWeight <;> cases a.opts.objectiveUnit <;>
        simp [CallArgs.namesObj, CallArgs.weightsObj, CallArgs.unitsObj, HasLen]
  have h2 : (∃ n, a.checked.constraintName = .tuple n ∧ a.checked.constraintType = .tuple n ∧ HasLen a.checked.constraintUnit n ∧
      HasLen a.checked.constraintValue n) ↔ FittingConstraints a.opts := by
    simp [CallArgs.checked, FittingConstraints, HasLen]
  constructor
  · rintro ⟨x, y, z⟩
    exact ⟨x, h1.1 y, h2.1 z⟩
  · rintro ⟨x, y, z⟩
    exact ⟨x, h1.2 y, h2.2 z⟩

/-- The number of Fourier coefficients of a surface. -/
def SurfaceShape.size (S : SurfaceShape) : ℕ :=
  (if S.stellsym then 1 else 2) * ((2 * S.mpol + 1) * (2 * S.ntor + 1))

/-- The number of coefficients of a potential. -/
def potentialSize (stellsym : Bool) (mpol ntor : ℕ) : ℕ :=
  if stellsym then mpol * (2 * ntor + 1) + ntor else 2 * (mpol * (2 * ntor + 1) + ntor) + 1

/-- The arrays have the sizes that belong to the resolutions. The unit of the potential is only computed, with the normal field, if none
is given; a winding surface is only generated if the distance is given. -/
structure FittingSizes (a : CallArgs) : Prop where
  phi_init : ∀ p, a.opts.phiInit = some p → p.length = potentialSize a.stellsym a.mpol a.ntor
  plasma : a.plasmaCoilDistance.isSome ∨ a.phiUnit = none →
    a.plasmaDofs.length = (⟨a.nfp, a.plasmaStellsym, a.plasmaMpol, a.plasmaNtor⟩ : SurfaceShape).size
  winding : a.phiUnit = none → a.described.cp.wdofs.length = a.described.cp.surf.size
  normal_field : a.phiUnit = none → ∀ b, a.bnormalPlasma = some b →
    b.length = a.pPhi.length ∧ ∀ r ∈ b, r.length = a.pTheta.length

theorem columns_eq (S : SurfaceShape) : S.columns = S.size := by
  rw [SurfaceShape.columns, (C37_dof_count S 0 0 0 0).2, SurfaceShape.size]
  cases S.stellsym <;> simp <;> ring

theorem ndofs_eq (s : Bool) (m n : ℕ) : (cpNdofs s m n).1 = potentialSize s m n := by
  cases s <;> simp [cpNdofs, potentialSize] <;> ring

theorem requireShape_ok (p : Prop) [Decidable p] : requireShape p = .ok () ↔ p := by
  unfold requireShape
  split <;> simp [*]

theorem bind_unit_ok {β : Type} (x : Except PyErr Unit) (k : Except PyErr β) (r : β) :
    (do x; k) = .ok r ↔ x = .ok () ∧ k = .ok r := by
  cases x <;> simp [bind, Except.bind]

theorem bind_ok {α β : Type} (x : Except PyErr α) (k : α → Except PyErr β) (r : β) :
    (x >>= k) = .ok r ↔ ∃ y, x = .ok y ∧ k y = .ok r := by
  cases x <;> simp [bind, Except.bind]

theorem windingData_described : a.windingData.2 = a.described.cp.wdofs ∧ a.windingShape = a.described.cp.surf := by
  simp only [CallArgs.windingData, CallArgs.windingShape, CallArgs.described]
  cases a.plasmaCoilDistance <;> simp [CallArgs.plasmaGamma, CallArgs.plasmaShape]

theorem bnormalArr_shape : (a.bnormalArr.map List.length = a.pPhi.map fun _ => a.pTheta.length) ↔
    ∀ b, a.bnormalPlasma = some b → b.length = a.pPhi.length ∧ ∀ r ∈ b, r.length = a.pTheta.length := by
  unfold CallArgs.bnormalArr
  cases a.bnormalPlasma with
  | none => simp
  | some b =>
    simp only [Option.getD_some, Option.some.injEq, forall_eq']
    rw [List.map_const', List.eq_replicate_iff]
    simp

theorem setup_implies_fgh {P : Type} [HasQp P] {reg : Registry P} {Q : P} {o : QuadcoilArgs} {u : ℝ} {S : Setup}
    (h : quadcoilSetup reg Q o u = .ok S) : ∃ p, fghFromY reg Q o = .ok p := by
  unfold quadcoilSetup at h
  rw [bind_ok] at h
  obtain ⟨p, hp, -⟩ := h
  exact ⟨p, hp⟩

/-- **C140 (the problem solved).** A call that gets to the solver solves the problem described by its arguments, with the given or the
automatic unit of the potential. -/
theorem C140_setup_iff (reg : Registry FieldProblem) (Q : FieldProblem) (S : Setup) :
    a.setup reg = .ok (Q, S) ↔ a.nfp ≠ 0 ∧ a.plasmaCoilDistance.isSome ≠ a.windingDofs.isSome ∧ FittingObjectives a.opts ∧
      FittingConstraints a.opts ∧ a.nfp ∣ a.described.wPhis.length ∧ FittingSizes a ∧ Q = a.described ∧
      quadcoilSetup reg a.described a.opts (a.unit a.described) = .ok S := by
  have hw : a.described.wPhis = a.wPhi := rfl
  rw [hw]
  unfold CallArgs.setup
  by_cases hn : a.nfp = 0
  · simp [hn]
  rw [if_neg hn, bind_unit_ok, checks_iff, bind_unit_ok, bind_ok]
  by_cases hd : a.nfp ∣ a.wPhi.length
  swap
  · simp [paramsObj_error hd, hd]
  obtain ⟨o, ho, hQ, hnd⟩ := paramsObj_ok hd
  have hinit : a.phiInit.length = o.ndofs ↔ ∀ p, a.opts.phiInit = some p → p.length = potentialSize a.stellsym a.mpol a.ntor := by
    rw [hnd, CallArgs.phiInit]
    cases a.opts.phiInit <;> simp [ndofs_eq]
  have hgen : a.generatorShapes = .ok () ↔ (a.plasmaCoilDistance.isSome → a.plasmaDofs.length = a.plasmaShape.size) := by
    unfold CallArgs.generatorShapes
    rw [columns_eq]
    split <;> simp [*, requireShape_ok]
  have hunit : a.unitShapes = .ok () ↔ (a.phiUnit = none → a.plasmaDofs.length = a.plasmaShape.size ∧
      a.described.cp.wdofs.length = a.described.cp.surf.size ∧
        ∀ b, a.bnormalPlasma = some b → b.length = a.pPhi.length ∧ ∀ r ∈ b, r.length = a.pTheta.length) := by
    unfold CallArgs.unitShapes
    rw [columns_eq, columns_eq, windingData_described.1, windingData_described.2]
    cases hp : a.phiUnit with
    | none =>
      simp only [Option.isNone_none, if_true, bind_unit_ok, requireShape_ok, bnormalArr_shape, forall_const]
    | some u => simp
  have hsz : FittingSizes a ↔ a.generatorShapes = .ok () ∧ a.phiInit.length = o.ndofs ∧ a.unitShapes = .ok () := by
    rw [hgen, hinit, hunit]
    constructor
    · rintro ⟨h1, h2, h3, h4⟩
      exact ⟨fun hs => h2 (.inl hs), h1, fun hu => ⟨h2 (.inr hu), h3 hu, h4 hu⟩⟩
    · rintro ⟨h1, h2, h3⟩
      exact ⟨h2, fun h => h.elim h1 fun hu => (h3 hu).1, fun hu => (h3 hu).2.1, fun hu => (h3 hu).2.2⟩
  rw [hsz]
  simp only [ho, Except.ok.injEq, exists_eq_left', hQ, bind_ok, Prod.mk.injEq]
  constructor
  · rintro ⟨⟨h1, h2, h3⟩, h4, p, -, ⟨⟩, h5, ⟨⟩, h6, S', hS, hq, rfl⟩
    exact ⟨hn, h1, h2, h3, hd, ⟨h4, (requireShape_ok _).1 h5, h6⟩, hq.symm, hS⟩
  · rintro ⟨-, h1, h2, h3, -, ⟨h4, h5, h6⟩, hq, hS⟩
    obtain ⟨p, hp⟩ := setup_implies_fgh hS
    exact ⟨⟨h1, h2, h3⟩, h4, p, hp, (), (requireShape_ok _).2 h5, (), h6, S, hS, hq.symm, rfl⟩

/-- **C140 (which calls are accepted).** A call gets to the solver exactly if there are field periods, exactly one of distance and winding
surface is given, the winding grid can be divided into field periods, all arrays have the sizes that belong to the resolutions, and
objectives, constraints and merging are legal. Every other call raises an error. -/
theorem C140_accepted_iff (others : List String) :
    (∃ r, a.setup (shippedRegistry FieldProblem.fns others) = .ok r) ↔
      a.nfp ≠ 0 ∧ a.plasmaCoilDistance.isSome ≠ a.windingDofs.isSome ∧ FittingObjectives a.opts ∧
      FittingConstraints a.opts ∧ a.nfp ∣ a.described.wPhis.length ∧ FittingSizes a ∧
      LegalObjectives (shippedRegistry FieldProblem.fns others) a.opts.smoothing a.opts.objectiveName a.opts.objectiveUnit
        a.opts.objectiveWeight ∧ LegalConstraints (shippedRegistry FieldProblem.fns others) a.opts ∧ LegalMerge a.opts := by
  rw [← C131_setup_succeeds_iff_legal others a.described a.opts (a.unit a.described)]
  constructor
  · rintro ⟨⟨Q, S⟩, h⟩
    obtain ⟨h1, h2, h3, h4, h5, h6, -, h7⟩ := (C140_setup_iff _ Q S).1 h
    exact ⟨h1, h2, h3, h4, h5, h6, S, h7⟩
  · rintro ⟨h1, h2, h3, h4, h5, h6, S, h7⟩
    exact ⟨(a.described, S), (C140_setup_iff _ _ S).2 ⟨h1, h2, h3, h4, h5, h6, rfl, h7⟩⟩

theorem metricValue_ok {reg : Registry FieldProblem} {Q : FieldProblem} {d : Dofs} {n : String} {v : Val} :
    metricValue reg Q d n = .ok v ↔ ∃ q, reg n = some (.quantity q) ∧ v = q.call Q d := by
  unfold metricValue getQuantity
  cases h : reg n with
  | none => simp [bind, Except.bind]
  | some x =>
    cases x with
    | other => simp [bind, Except.bind]
    | quantity q =>
      simp only [bind, Except.bind, Except.ok.injEq, Option.some.injEq, Attr.quantity.injEq, exists_eq_left']
      exact eq_comm

/-- **C140 (what is returned).** A call that returns used the solver on the problem described by its arguments, and returns the problem,
the potential found and, for every requested quantity, its value on this problem at this potential. In gradient mode `f_obj` is the
objective that the solver saw at the final point; with `value_only` it is missing. -/
theorem C140_returned {opt : Optimizer ℝ} {gradOp : (List ℝ → ℝ) → List ℝ → List ℝ} {reg : Registry FieldProblem} {R : CallOut}
    (h : quadcoilCall opt gradOp reg a = .ok (some R)) :
    R.qp = a.described ∧ ∃ S, a.setup reg = .ok (a.described, S) ∧
      quadcoilSolve opt gradOp S = some (R.results, R.dofs) ∧ R.dofs = dofsOf S.template S.phiUnit R.results.x ∧
      (∀ n ∈ a.metrics, n ≠ "f_obj" → ∃ q v, reg n = some (.quantity q) ∧ R.out.lookup n = some v ∧ v.value = q.call a.described R.dofs) ∧
      (∀ n, n ∉ a.metrics → R.out.lookup n = none) ∧
      ("f_obj" ∈ a.metrics → a.valueOnly = false → ∃ v, R.out.lookup "f_obj" = some v ∧ v.value.entries.headD 0 = S.problem.f R.results.x) ∧
      (a.valueOnly = true → R.out.lookup "f_obj" = none) := by
  unfold quadcoilCall at h
  rw [bind_ok] at h
  obtain ⟨⟨Q, S⟩, hS, h⟩ := h
  obtain ⟨-, -, -, -, -, -, rfl, hset⟩ := (C140_setup_iff _ Q S).1 hS
  simp only at h
  rw [bind_ok] at h
  obtain ⟨p, hp, h⟩ := h
  cases hsol : quadcoilSolve opt gradOp S with
  | none =>
    rw [hsol] at h
    simp at h
  | some rd =>
    obtain ⟨r, d⟩ := rd
    rw [hsol] at h
    simp only at h
    rw [bind_ok] at h
    obtain ⟨out, hout, h⟩ := h
    simp only [Except.ok.injEq, Option.some.injEq] at h
    subst h
    have hd : d = dofsOf S.template S.phiUnit r.x := by
      unfold quadcoilSolve at hsol
      rw [Option.map_eq_some_iff] at hsol
      obtain ⟨r', -, he⟩ := hsol
      cases he
      rfl
    have hf : (p.f d).entries.headD 0 = S.problem.f r.x := by
      unfold quadcoilSetup at hset
      rw [hp] at hset
      simp only [bind, Except.bind] at hset
      rw [hd]
      split at hset
      · cases hset
      split at hset
      · cases hset
      split at hset
      · cases hset
      · cases hset
        rfl
    refine ⟨rfl, S, hS, hsol, hd, ?_⟩
    unfold CallArgs.outDict at hout
    cases hv : a.valueOnly with
    | true =>
      rw [hv] at hout
      simp only [if_true] at hout
      refine ⟨fun n hn hne => ?_, fun n hn => ?_, fun _ hc => (by cases hc), fun _ => ?_⟩
      · obtain ⟨v, hv, hm⟩ := C30_value_only_reports_others_partial _ _ _ hout n hn hne
        obtain ⟨q, hq, rfl⟩ := metricValue_ok.1 hm
        exact ⟨q, _, hq, hv, rfl⟩
      · exact (valueOnlyOut_lookup _ _ [] out hout n).2 (.inl hn)
      · exact C30_value_only_drops_f_obj_violated_partial _ _ _ hout
    | false =>
      rw [hv] at hout
      simp only [Bool.false_eq_true, if_false] at hout
      refine ⟨fun n hn hne => ?_, fun n hn => ?_, fun hn _ => ?_, fun hc => (by cases hc)⟩
      · obtain ⟨v, keys, hv, hm⟩ := C30_gradient_mode_reports_all_partial _ _ _ _ _ hout n hn
        rw [if_neg hne] at hm
        obtain ⟨q, hq, rfl⟩ := metricValue_ok.1 hm
        exact ⟨q, _, hq, hv, rfl⟩
      · exact (gradientOut_lookup _ _ _ _ [] out hout n).2 hn
      · obtain ⟨v, keys, hv, hm⟩ := C30_gradient_mode_reports_all_partial _ _ _ _ _ hout _ hn
        rw [if_pos rfl] at hm
        subst hm
        exact ⟨_, hv, hf⟩

/-! ## Default grids -/

/-- The default grids resolve 16 poloidal and 15 toroidal modes. -/
theorem default_grids_resolving (hn : a.nfp ≠ 0) (h1 : a.quadpointsPhi = none) (h2 : a.quadpointsTheta = none)
    (h3 : a.windingQuadpointsPhi = none) (h4 : a.windingQuadpointsTheta = none) (h5 : a.plasmaQuadpointsPhi = none)
    (h6 : a.plasmaQuadpointsTheta = none) (hm : a.mpol ≤ 16) (ht : a.ntor ≤ 15)
    (hreg : ∀ q ∈ gridPoints (linspace0 (1 / a.nfp) 32) (linspace0 1 34), a.described.cp.N q.1 q.2 ≠ 0) :
    ResolvingGrid a.described 32 34 where
  nfp := hn
  two_le_A := by norm_num
  two_le_B := by norm_num
  ntor := by show 2 * a.ntor < 32; omega
  mpol := by show 2 * a.mpol < 34; omega
  ePhis := by
    show a.quadpointsPhi.getD ((a.windingQuadpointsPhi.getD _).take _) = _
    rw [h1, h3]
    exact (C46_default_grid a.nfp hn).1
  eThetas := by
    show a.quadpointsTheta.getD (a.windingQuadpointsTheta.getD _) = _
    rw [h2, h4]
    rfl
  regular := hreg
  plasma := by
    show 0 ≤ gridStep (a.plasmaQuadpointsPhi.getD _) * gridStep (a.plasmaQuadpointsTheta.getD _)
    rw [h5, h6]
    simp only [Option.getD_none]
    rw [gridStep_linspace0 _ _ (by norm_num), gridStep_linspace0 _ _ (by norm_num)]
    positivity

/-- **C140 (default grids).** With the default grids, every stellarator symmetric potential with at most 15 toroidal and 16 poloidal
modes on a regular winding surface is resolved: the statements about resolved problems (C113, C125, C129, C133, C136, C138) hold. -/
theorem C140_default_grids_resolve (hn : a.nfp ≠ 0) (hs : a.stellsym = true) (h1 : a.quadpointsPhi = none) (h2 : a.quadpointsTheta = none)
    (h3 : a.windingQuadpointsPhi = none) (h4 : a.windingQuadpointsTheta = none) (h5 : a.plasmaQuadpointsPhi = none)
    (h6 : a.plasmaQuadpointsTheta = none) (hm : a.mpol ≤ 16) (ht : a.ntor ≤ 15)
    (hreg : ∀ q ∈ gridPoints (linspace0 (1 / a.nfp) 32) (linspace0 1 34), a.described.cp.N q.1 q.2 ≠ 0) :
    Resolved a.described 32 34 :=
  ⟨default_grids_resolving hn h1 h2 h3 h4 h5 h6 hm ht hreg, hs⟩

theorem described_bnormal_ne (hp : a.pPhi ≠ []) (ht : a.pTheta ≠ [])
    (hb : ∀ b, a.bnormalPlasma = some b → b.length = a.pPhi.length ∧ ∀ r ∈ b, r.length = a.pTheta.length) (c : List ℝ) :
    a.described.bnormal c ≠ [] := by
  have hlen : a.described.bPlasma ≠ [] := by
    simp only [CallArgs.described]
    cases h : a.bnormalPlasma with
    | none =>
      have h1 : a.pPhi.length ≠ 0 := by simpa using hp
      have h2 : a.pTheta.length ≠ 0 := by simpa using ht
      simp [h1, h2]
    | some b =>
      obtain ⟨hb1, hb2⟩ := hb b h
      have h1 : a.pPhi.length ≠ 0 := by simpa using hp
      have h2 : a.pTheta.length ≠ 0 := by simpa using ht
      cases b with
      | nil => simp at hb1; omega
      | cons r b =>
        have := hb2 r List.mem_cons_self
        cases r with
        | nil => simp at this; omega
        | cons x r => simp
  have hg : gridPoints a.described.plasma.phis a.described.plasma.thetas ≠ [] := by
    show gridPoints a.pPhi a.pTheta ≠ []
    cases h : a.pPhi with
    | nil => exact absurd h hp
    | cons p l =>
      cases h' : a.pTheta with
      | nil => exact absurd h' ht
      | cons t m => simp [gridPoints]
  simp only [FieldProblem.bnormal, ne_eq, List.map_eq_nil_iff, List.zip_eq_nil_iff, not_or]
  exact ⟨hg, hlen⟩

end Verif
