import Verif.Lemmas.ScaledParse
import Verif.Props.CallExamples

/-!
# C152: another unit of length or current changes nothing but the units of the result
-/

namespace Verif

variable {l mu : ℝ} {others : List String}

/-! ## The problem handed to the solver -/

theorem dofsOf_scale {t : List (String × Val)} (ht : ∃ v, t.lookup "phi_scaled" = some v)
    (ha : ∀ v, t.lookup "phi_scaled" = some v → ∃ ys, v = .array ys) (mu u : ℝ) (x : List ℝ) :
    dofsOf t (mu * u) x = rescaleDofs mu (dofsOf t u x) := by
  obtain ⟨v, hv⟩ := ht
  obtain ⟨ys, rfl⟩ := ha v hv
  obtain ⟨w, hw, hs, -⟩ := unravelLike_lookup (x := x) hv
  funext k
  by_cases h1 : k = "phi"
  · subst h1
    cases w with
    | scalar y => cases hs
    | array zs =>
      simp only [rescaleDofs, if_true, dofsOf_phi hw, Val.map, Val.entries, List.map_map, Val.array.injEq]
      refine List.map_congr_left fun z _ => ?_
      simp only [Function.comp_apply]
      ring
  · rw [rescaleDofs_other h1]
    by_cases h2 : k = "phi_scaled"
    · subst h2
      have hnone : ∀ m : List (String × Val), (m.filter fun kv => kv.1 ≠ "phi_scaled").lookup "phi_scaled" = none := by
        intro m
        induction m with
        | nil => rfl
        | cons a m ih =>
          rw [List.filter_cons]
          by_cases hk : a.1 = "phi_scaled"
          · simpa [hk] using ih
          · obtain ⟨ka, va⟩ := a
            simp only [ne_eq, hk, not_false_eq_true, decide_true, if_true]
            rw [lookup_cons_ite, if_neg (fun e => hk e.symm)]
            exact ih
      simp only [dofsOf, toDofs, unravelUnscale, hw, Option.map_some, Option.getD_some, hnone]
    · rw [dofsOf_other hv h1 h2, dofsOf_other hv h1 h2]

/-- The setups of a problem in two systems of units: the solver gets the same. -/
structure SameSetup (mu : ℝ) (S' S : Setup) : Prop where
  eq : S' = { S with phiUnit := mu * S.phiUnit }
  dofs : ∀ x, dofsOf S'.template S'.phiUnit x = rescaleDofs mu (dofsOf S.template S.phiUnit x)

variable {Q : FieldProblem}

theorem xTemplate_scale (hmu : 0 < mu) {s' s : List (String × (FieldProblem → Dofs → Val))} (h : List.Forall₂ (AgreeAt Q l mu) s' s)
    (phi : List ℝ) (u : ℝ) : xTemplate (Q.rescale l mu) (phi.map (mu * ·)) (mu * u) s' = xTemplate Q phi u s := by
  have h1 : (phi.map (mu * ·)).map (fun t => t / (mu * u)) = phi.map fun t => t / u := by
    rw [List.map_map]
    exact List.map_congr_left fun t _ => mul_div_mul_left _ _ hmu.ne'
  have h2 : (s'.map fun kv => (kv.1, kv.2 (Q.rescale l mu) (phiOnly (Val.array (phi.map (mu * ·)))))) =
      s.map fun kv => (kv.1, kv.2 Q (phiOnly (Val.array phi))) := by
    induction h with
    | nil => rfl
    | @cons p' p _ _ hp _ ih =>
      have := hp.2.2 (phiOnly (Val.array phi))
      rw [rescaleDofs_phiOnly] at this
      simp only [List.map_cons, ih, hp.1]
      rw [← this]
      rfl
  rw [xTemplate, h1, h2, xTemplate]

theorem xTemplate_array {s : List (String × (FieldProblem → Dofs → Val))} (hs : ∀ kv ∈ s, kv.1 ≠ "phi_scaled") (phi : List ℝ) (u : ℝ) :
    (∃ v, (xTemplate Q phi u s).lookup "phi_scaled" = some v) ∧
      ∀ v, (xTemplate Q phi u s).lookup "phi_scaled" = some v → ∃ ys, v = .array ys := by
  have hmem : ∀ p : String × Val, p ∈ xTemplate Q phi u s ↔ p = ("phi_scaled", Val.array (phi.map fun t => t / u)) ∨
      ∃ kv ∈ s, (kv.1, kv.2 Q (phiOnly (Val.array phi))) = p := by
    intro p
    rw [xTemplate, (sortKeys_perm _).mem_iff, List.mem_cons, List.mem_map]
  constructor
  · cases h : (xTemplate Q phi u s).lookup "phi_scaled" with
    | some v => exact ⟨v, rfl⟩
    | none =>
      exfalso
      rw [List.lookup_eq_none_iff] at h
      have := h _ ((hmem ("phi_scaled", Val.array (phi.map fun t => t / u))).2 (.inl rfl))
      simp at this
  · intro v hv
    rcases (hmem _).1 (mem_of_lookup hv) with h | ⟨kv, hkv, h⟩
    · exact ⟨_, (Prod.mk.inj h).2⟩
    · exact absurd (Prod.mk.inj h).1 (hs kv hkv)

theorem slack_keys {s' s : List (String × (FieldProblem → Dofs → Val))} (h : List.Forall₂ (AgreeAt Q l mu) s' s) :
    ∀ kv ∈ s, kv.1 ≠ "phi_scaled" := by
  induction h with
  | nil => simp
  | cons hp _ ih =>
    intro kv hkv
    rcases List.mem_cons.1 hkv with rfl | h
    · exact hp.2.1
    · exact ih kv h

theorem quadcoilSetup_scale (hl : 0 < l) (hmu : 0 < mu) (o : QuadcoilArgs)
    (hn : ∀ n ∈ o.objectiveName.list ++ o.constraintName, ¬ UnitBound l mu o.smoothing n) (u : ℝ) :
    SameOutcome (SameSetup mu)
      (quadcoilSetup (shippedRegistry FieldProblem.fns others) (Q.rescale l mu) (o.rescale l mu) (mu * u))
      (quadcoilSetup (shippedRegistry FieldProblem.fns others) Q o u) := by
  unfold quadcoilSetup
  refine (fghFromY_scale (Q := Q) hl hmu o hn).bind fun p' p hp => ?_
  have hphi : (o.rescale l mu).phiInit.getD (List.replicate (HasQp.ndofs (Q.rescale l mu)) 0) =
      (o.phiInit.getD (List.replicate (HasQp.ndofs Q) 0)).map (mu * ·) := by
    simp only [QuadcoilArgs.rescale]
    cases o.phiInit with
    | some c => rfl
    | none =>
      simp only [Option.map_none, Option.getD_none, List.map_replicate, mul_zero]
      rfl
  simp only [hphi, xTemplate_scale hmu hp.slack]
  obtain ⟨h1, h2⟩ := xTemplate_array (Q := Q) (slack_keys hp.slack) (o.phiInit.getD (List.replicate (HasQp.ndofs Q) 0)) u
  have hd := dofsOf_scale h1 h2 mu u
  simp only [hd, hp.f, hp.g, hp.h]
  refine SameOutcome.bind_same _ fun g0 _ => SameOutcome.bind_same _ fun h0 _ => SameOutcome.ite (.error _) (.ok ⟨?_, ?_⟩)
  · simp only [hp.nG, hp.nH]
    rfl
  · exact hd

/-! ## The arguments -/

variable {a : CallArgs}

theorem rescale_plasmaGamma (l mu : ℝ) : (a.rescale l mu).plasmaGamma = a.plasmaGamma.map fun r => r.map (l • ·) := by
  simp only [CallArgs.plasmaGamma, List.map_map]
  refine List.map_congr_left fun p _ => ?_
  simp only [Function.comp_apply, List.map_map]
  refine List.map_congr_left fun t _ => ?_
  exact gamma_scale ..

theorem rescale_windingData (hgen : a.GeneratorScales l) :
    (a.rescale l mu).windingData = (a.windingData.1, a.windingData.2.map (l * ·)) := by
  have hg := rescale_plasmaGamma (a := a) l mu
  unfold CallArgs.windingData
  rw [hg]
  simp only [CallArgs.rescale]
  cases hd : a.plasmaCoilDistance with
  | none => cases a.windingDofs <;> simp
  | some d =>
    simp only [Option.map_some]
    rw [hgen d hd]

theorem rescale_bnormalArr (l mu : ℝ) : (a.rescale l mu).bnormalArr = a.bnormalArr.map fun r => r.map (mu / l * ·) := by
  unfold CallArgs.bnormalArr
  simp only [CallArgs.rescale]
  cases a.bnormalPlasma with
  | some b => rfl
  | none =>
    simp only [Option.map_none, Option.getD_none, List.map_map]
    refine List.map_congr_left fun p _ => ?_
    simp only [Function.comp_apply, List.map_map]
    refine List.map_congr_left fun t _ => ?_
    simp

theorem minorRadius_scale (l : ℝ) (n : ℕ) (d : List ℝ) : minorRadius n (d.map (l * ·)) = l * minorRadius n d := by
  have h1 : ∀ (d : List ℝ), (d.map (l * ·)).getLastD 0 = l * d.getLastD 0 := by
    intro d
    rcases List.eq_nil_or_concat d with rfl | ⟨r, x, rfl⟩ <;> simp
  unfold minorRadius
  rw [h1, List.getD_eq_getElem?_getD, List.getD_eq_getElem?_getD, List.getElem?_map]
  cases d[n * 2 + 1]? <;> rfl

theorem rescale_phiInit (l mu : ℝ) : (a.rescale l mu).phiInit = a.phiInit.map (mu * ·) := by
  unfold CallArgs.phiInit
  simp only [CallArgs.rescale, QuadcoilArgs.rescale]
  cases a.opts.phiInit <;> simp

theorem phiUnitAuto_scale (hl : 0 < l) (hmu : 0 < mu) (bn : List ℝ) (dist : Option ℝ) (np nw : ℕ) (pd wd : List ℝ) :
    phiUnitAuto (bn.map (mu / l * ·)) (dist.map (l * ·)) np (pd.map (l * ·)) nw (wd.map (l * ·)) =
      mu * phiUnitAuto bn dist np pd nw wd := by
  have hs : ((bn.map (mu / l * ·)).map fun b => |b|).sum = mu / l * (bn.map fun b => |b|).sum := by
    rw [← List.sum_map_mul_left, List.map_map]
    congr 1
    refine List.map_congr_left fun b _ => ?_
    simp only [Function.comp_apply, abs_mul, abs_of_pos (div_pos hmu hl)]
  unfold phiUnitAuto
  rw [hs, List.length_map]
  cases dist with
  | some d =>
    simp only [Option.map_some, abs_mul, abs_of_pos hl]
    field_simp
  | none =>
    simp only [Option.map_none, minorRadius_scale, ← mul_sub, abs_mul, abs_of_pos hl]
    field_simp

theorem rescale_unit (hl : 0 < l) (hmu : 0 < mu) (Q : FieldProblem) : (a.rescale l mu).unit (Q.rescale l mu) = mu * a.unit Q := by
  unfold CallArgs.unit
  rw [rescale_phiInit, Q.rescale_bnormal l mu hl]
  have hw : (a.rescale l mu).windingDofs.getD [] = (a.windingDofs.getD []).map (l * ·) := by
    simp only [CallArgs.rescale]
    cases a.windingDofs <;> rfl
  rw [hw]
  simp only [CallArgs.rescale]
  cases a.phiUnit with
  | some u => rfl
  | none =>
    simp only [Option.map_none, Option.getD_none]
    exact phiUnitAuto_scale hl hmu ..

theorem described_cp (a : CallArgs) : a.described.cp =
    { surf := ⟨a.nfp, a.windingData.1, a.windingMpol, a.windingNtor⟩, wdofs := a.windingData.2, G := a.netPoloidal, I := a.netToroidal,
      mpol := a.mpol, ntor := a.ntor, stellsym := a.stellsym } := by
  simp only [CallArgs.described, CallArgs.windingData]
  cases a.plasmaCoilDistance <;> simp [CallArgs.plasmaGamma, CallArgs.plasmaShape]

theorem rescale_described (hgen : a.GeneratorScales l) :
    (a.rescale l mu).described = a.described.rescale l mu := by
  have hb : (a.rescale l mu).described.bPlasma = (a.described.rescale l mu).bPlasma := by
    simp only [CallArgs.described, CallArgs.rescale, FieldProblem.rescale]
    cases a.bnormalPlasma with
    | some b => simp [List.map_flatten]
    | none =>
      simp only [Option.map_none, List.map_replicate, mul_zero]
      rfl
  have hw : (a.rescale l mu).described.cp = (a.described.rescale l mu).cp := by
    show (a.rescale l mu).described.cp = a.described.cp.rescale l mu
    rw [described_cp, described_cp, rescale_windingData hgen]
    rfl
  have h : ∀ X Y : FieldProblem, X.cp = Y.cp → X.bPlasma = Y.bPlasma → X.wPhis = Y.wPhis → X.wThetas = Y.wThetas → X.ePhis = Y.ePhis →
      X.eThetas = Y.eThetas → X.plasma = Y.plasma → X = Y := by
    intro X Y
    cases X
    cases Y
    simp only [FieldProblem.mk.injEq]
    exact fun h1 h2 h3 h4 h5 h6 h7 => ⟨h1, h3, h4, h5, h6, h7, h2⟩
  exact h _ _ hw hb rfl rfl rfl rfl rfl

theorem rescale_checked (l mu : ℝ) : (a.rescale l mu).checked = a.checked := by
  have hu : CallArgs.unitsObj (timesObjectiveUnit l mu a.opts.objectiveName a.opts.objectiveUnit) =
      CallArgs.unitsObj a.opts.objectiveUnit := by
    cases a.opts.objectiveName <;> cases a.opts.objectiveUnit <;>
      simp [timesObjectiveUnit, CallArgs.unitsObj, timesUnits_length]
  simp only [CallArgs.checked, CallArgs.rescale, QuadcoilArgs.rescale, hu, timesUnits_length, timesValues_length, Option.isSome_map]

theorem requireShape_congr {p q : Prop} [Decidable p] [Decidable q] (h : p ↔ q) : requireShape p = requireShape q := by
  unfold requireShape
  by_cases hp : p
  · rw [if_pos hp, if_pos (h.1 hp)]
  · rw [if_neg hp, if_neg (fun hq => hp (h.2 hq))]

theorem rescale_plasmaColumns (l mu : ℝ) : requireShape ((a.rescale l mu).plasmaDofs.length = (a.rescale l mu).plasmaShape.columns) =
    requireShape (a.plasmaDofs.length = a.plasmaShape.columns) :=
  requireShape_congr (by
    rw [show (a.rescale l mu).plasmaDofs.length = a.plasmaDofs.length by simp [CallArgs.rescale]]
    rfl)

theorem rescale_generatorShapes (l mu : ℝ) : (a.rescale l mu).generatorShapes = a.generatorShapes := by
  unfold CallArgs.generatorShapes
  rw [rescale_plasmaColumns, show (a.rescale l mu).plasmaCoilDistance.isSome = a.plasmaCoilDistance.isSome by simp [CallArgs.rescale]]

theorem rescale_unitShapes (hgen : a.GeneratorScales l) :
    (a.rescale l mu).unitShapes = a.unitShapes := by
  have h1 : requireShape ((a.rescale l mu).windingData.2.length = (a.rescale l mu).windingShape.columns) =
      requireShape (a.windingData.2.length = a.windingShape.columns) := requireShape_congr (by
    unfold CallArgs.windingShape
    rw [rescale_windingData hgen, List.length_map]
    rfl)
  have h2 : requireShape ((a.rescale l mu).bnormalArr.map List.length = (a.rescale l mu).pPhi.map fun _ => (a.rescale l mu).pTheta.length) =
      requireShape (a.bnormalArr.map List.length = a.pPhi.map fun _ => a.pTheta.length) := requireShape_congr (by
    rw [rescale_bnormalArr, List.map_map, show (List.length ∘ fun r : List ℝ => r.map (mu / l * ·)) = List.length by
      funext r; simp]
    rfl)
  unfold CallArgs.unitShapes
  rw [rescale_plasmaColumns, h1, h2, show (a.rescale l mu).phiUnit.isNone = a.phiUnit.isNone by simp [CallArgs.rescale]]

/-- Problem and setup of the same call in two systems of units. -/
structure SameProblem (l mu : ℝ) (X' X : FieldProblem × Setup) : Prop where
  problem : X'.1 = X.1.rescale l mu
  setup : SameSetup mu X'.2 X.2

theorem setup_scale (hl : 0 < l) (hmu : 0 < mu) (hgen : a.GeneratorScales l)
    (hn : ∀ n ∈ a.opts.objectiveName.list ++ a.opts.constraintName, ¬ UnitBound l mu a.opts.smoothing n) :
    SameOutcome (SameProblem l mu) ((a.rescale l mu).setup (shippedRegistry FieldProblem.fns others))
      (a.setup (shippedRegistry FieldProblem.fns others)) := by
  unfold CallArgs.setup
  rw [rescale_checked, rescale_generatorShapes, rescale_unitShapes hgen]
  refine SameOutcome.ite (.error _) ?_
  refine SameOutcome.bind_same _ fun _ _ => SameOutcome.bind_same _ fun _ _ => ?_
  by_cases hdvd : a.nfp ∣ a.wPhi.length
  · obtain ⟨o, ho, hQ, hN⟩ := paramsObj_ok hdvd
    obtain ⟨o', ho', hQ', hN'⟩ := paramsObj_ok (a := a.rescale l mu) hdvd
    rw [rescale_described hgen] at hQ'
    rw [ho, ho']
    refine SameOutcome.bind (R := fun x' x => x'.toField = a.described.rescale l mu ∧ x.toField = a.described ∧ x'.ndofs = x.ndofs)
      (.ok ⟨hQ', hQ, hN'.trans hN.symm⟩) fun o' o h => ?_
    obtain ⟨h1, h2, h3⟩ := h
    simp only [h1, h2]
    refine (fghFromY_scale hl hmu a.opts hn).bind fun p' p _ => ?_
    rw [requireShape_congr (p := (a.rescale l mu).phiInit.length = o'.ndofs) (q := a.phiInit.length = o.ndofs)
      (by rw [rescale_phiInit, List.length_map, h3])]
    refine SameOutcome.bind_same _ fun _ _ => SameOutcome.bind_same _ fun _ _ => ?_
    rw [rescale_unit hl hmu]
    exact (quadcoilSetup_scale hl hmu a.opts hn _).bind fun S' S hS => .ok ⟨rfl, hS⟩
  · rw [paramsObj_error hdvd, paramsObj_error (a := a.rescale l mu) hdvd]
    exact .error _

/-! ## Solution and output -/

theorem quadcoilSolve_scale (opt : Optimizer ℝ) (gradOp : (List ℝ → ℝ) → List ℝ → List ℝ) {S' S : Setup} (h : SameSetup mu S' S) :
    quadcoilSolve opt gradOp S' = (quadcoilSolve opt gradOp S).map fun r => (r.1, rescaleDofs mu r.2) := by
  have hd := h.dofs
  have hS := h.eq
  subst hS
  simp only [quadcoilSolve, Option.map_map, hd]
  rfl

theorem metricValue_scale (hl : 0 < l) (hmu : 0 < mu) (d : Dofs) (n : String) :
    metricValue (shippedRegistry FieldProblem.fns others) (Q.rescale l mu) (rescaleDofs mu d) n =
      (metricValue (shippedRegistry FieldProblem.fns others) Q d n).map fun v => v.map (factorOf l mu n * ·) := by
  unfold metricValue
  cases hq : getQuantity (shippedRegistry FieldProblem.fns others) n with
  | error e => rfl
  | ok q =>
    have hq' : shippedRegistry FieldProblem.fns others n = some (.quantity q) := by
      revert hq
      unfold getQuantity
      cases shippedRegistry FieldProblem.fns others n with
      | none => intro h; cases h
      | some x =>
        cases x with
        | other => intro h; cases h
        | quantity q' => intro h; cases h; rfl
    have := (registry_forms (Q := Q) hl hmu hq' none).1.raw.call d
    simp only [Bind.bind, Except.bind, Except.map, this]

/-- The entries of the output in other units. -/
noncomputable def rescaleOut (l mu : ℝ) (out : List (String × MetricOut Val)) : List (String × MetricOut Val) :=
  out.map fun e => (e.1, { e.2 with value := e.2.value.map (factorOf l mu e.1 * ·) })

theorem rescaleOut_dictSet (out : List (String × MetricOut Val)) (n : String) (m : MetricOut Val) :
    rescaleOut l mu (dictSet out n m) = dictSet (rescaleOut l mu out) n { m with value := m.value.map (factorOf l mu n * ·) } := by
  simp only [rescaleOut, dictSet, List.map_append, List.map_cons, List.map_nil, List.filter_map]
  rfl

theorem foldlM_scale {step' step : List (String × MetricOut Val) → String → Except PyErr (List (String × MetricOut Val))}
    (h : ∀ out n, step' (rescaleOut l mu out) n = (step out n).map (rescaleOut l mu)) (names : List String)
    (out : List (String × MetricOut Val)) :
    names.foldlM step' (rescaleOut l mu out) = (names.foldlM step out).map (rescaleOut l mu) := by
  induction names generalizing out with
  | nil => rfl
  | cons n ns ih =>
    rw [List.foldlM_cons, List.foldlM_cons, h]
    cases step out n with
    | error e => rfl
    | ok o => exact ih o

theorem factorOf_fObj : factorOf l mu "f_obj" = 1 := by
  simp [factorOf, valueFactor, List.lookup]

theorem outDict_scale (hl : 0 < l) (hmu : 0 < mu) {p' p : Fgh FieldProblem} (hp : AgreeFgh (Q := Q) (l := l) (mu := mu) p' p) (d : Dofs) :
    (a.rescale l mu).outDict (shippedRegistry FieldProblem.fns others) (Q.rescale l mu) p' (rescaleDofs mu d) =
      (a.outDict (shippedRegistry FieldProblem.fns others) Q p d).map (rescaleOut l mu) := by
  unfold CallArgs.outDict
  have hm : (a.rescale l mu).metrics = a.metrics := rfl
  have hy : (a.rescale l mu).yArgs = a.yArgs := by
    simp only [CallArgs.yArgs, CallArgs.rescale, QuadcoilArgs.rescale, Option.isSome_map]
  have hv : (a.rescale l mu).valueOnly = a.valueOnly := rfl
  rw [hm, hy, hv, hp.f]
  by_cases hvo : a.valueOnly = true
  · rw [if_pos hvo, if_pos hvo]
    refine foldlM_scale (fun out n => ?_) a.metrics []
    unfold valueOnlyStep
    by_cases hn : n = "f_obj"
    · rw [if_pos hn, if_pos hn]
      rfl
    · rw [if_neg hn, if_neg hn, metricValue_scale hl hmu]
      cases metricValue (shippedRegistry FieldProblem.fns others) Q d n with
      | error e => rfl
      | ok v =>
        simp only [Bind.bind, Except.bind, Except.map, rescaleOut_dictSet]
  · rw [if_neg hvo, if_neg hvo]
    refine foldlM_scale (fun out n => ?_) a.metrics []
    unfold gradientStep
    by_cases hn : n = "f_obj"
    · subst hn
      simp only [if_true, Bind.bind, Except.bind, Except.map, rescaleOut_dictSet, factorOf_fObj, val_map_one]
    · rw [if_neg hn, if_neg hn, metricValue_scale hl hmu]
      cases metricValue (shippedRegistry FieldProblem.fns others) Q d n with
      | error e => rfl
      | ok v =>
        simp only [Bind.bind, Except.bind, Except.map, rescaleOut_dictSet]

/-- **C152.** A call in other units raises the same error, or takes the same steps and returns the same result in the other units: the
iterates of the solver are the same, the potential is multiplied by `mu`, and every value by the factor of its quantity. -/
theorem C152_run (hl : 0 < l) (hmu : 0 < mu) (opt : Optimizer ℝ) (gradOp : (List ℝ → ℝ) → List ℝ → List ℝ) (a : CallArgs)
    (hgen : a.GeneratorScales l)
    (hn : ∀ n ∈ a.opts.objectiveName.list ++ a.opts.constraintName, ¬ UnitBound l mu a.opts.smoothing n) :
    quadcoilCall opt gradOp (shippedRegistry FieldProblem.fns others) (a.rescale l mu) =
      (quadcoilCall opt gradOp (shippedRegistry FieldProblem.fns others) a).map (Option.map (CallOut.rescale l mu)) := by
  suffices H : SameOutcome (fun R' R => R' = Option.map (CallOut.rescale l mu) R)
      (quadcoilCall opt gradOp (shippedRegistry FieldProblem.fns others) (a.rescale l mu))
      (quadcoilCall opt gradOp (shippedRegistry FieldProblem.fns others) a) by
    generalize quadcoilCall opt gradOp (shippedRegistry FieldProblem.fns others) (a.rescale l mu) = x at H ⊢
    generalize quadcoilCall opt gradOp (shippedRegistry FieldProblem.fns others) a = y at H ⊢
    cases H with
    | ok h => rw [h]; rfl
    | error e => rfl
  unfold quadcoilCall
  refine (setup_scale hl hmu hgen hn).bind fun X' X hX => ?_
  obtain ⟨Q', S'⟩ := X'
  obtain ⟨Q, S⟩ := X
  obtain rfl : Q' = Q.rescale l mu := hX.problem
  refine (fghFromY_scale hl hmu a.opts hn).bind fun p' p hp => ?_
  rw [quadcoilSolve_scale opt gradOp hX.setup]
  cases quadcoilSolve opt gradOp S with
  | none => exact .ok rfl
  | some r =>
    obtain ⟨r, d⟩ := r
    simp only [Option.map_some]
    rw [outDict_scale hl hmu hp]
    cases a.outDict (shippedRegistry FieldProblem.fns others) Q p d with
    | error e => exact .error _
    | ok out => exact .ok rfl

/-- **C152, the problem.** The solver gets the same problem and the same start in all units; only the unit of the potential differs. -/
theorem C152_same_problem (hl : 0 < l) (hmu : 0 < mu) (a : CallArgs) (hgen : a.GeneratorScales l)
    (hn : ∀ n ∈ a.opts.objectiveName.list ++ a.opts.constraintName, ¬ UnitBound l mu a.opts.smoothing n) :
    (a.rescale l mu).setup (shippedRegistry FieldProblem.fns others) =
      (a.setup (shippedRegistry FieldProblem.fns others)).map fun X =>
        (X.1.rescale l mu, { X.2 with phiUnit := mu * X.2.phiUnit }) := by
  have H := setup_scale (others := others) hl hmu hgen hn
  generalize (a.rescale l mu).setup (shippedRegistry FieldProblem.fns others) = x at H ⊢
  generalize a.setup (shippedRegistry FieldProblem.fns others) = y at H ⊢
  cases H with
  | @ok X' X h =>
    simp only [Except.map, Except.ok.injEq]
    exact Prod.ext h.problem h.setup.eq
  | error e => rfl

/-! ## Where it does not hold -/

theorem fns_Phi_scale (Q : FieldProblem) (l mu : ℝ) (d : Dofs) :
    FieldProblem.fns.Phi (Q.rescale l mu) (rescaleDofs mu d) = (FieldProblem.fns.Phi Q d).map (mu * ·) := by
  simp only [FieldProblem.fns, coefs_rescaleDofs, List.map_map]
  refine List.map_congr_left fun q _ => ?_
  exact Q.cp.rescale_Phi l mu _ _ _

theorem absLse_mul (hmu : 0 < mu) (x eps : ℝ) : absLse (mu * x) eps = mu * absLse x (eps / mu) := by
  rw [absLse_eq, absLse_eq, show mu * x / eps = x / (eps / mu) by rw [div_div_eq_mul_div, mul_comm]]
  field_simp

/-- **C152 fails (smoothed L1 norm).** `lse_epsilon` is compared with the potential itself, not with the potential in its unit. In other units
the smoothed form is the one with another `lse_epsilon`. -/
theorem C152_smoothed_l1_partial (hl : 0 < l) (hmu : 0 < mu) {q : Quantity FieldProblem}
    (hq : shippedRegistry FieldProblem.fns others "f_l1_Phi" = some (.quantity q)) (Q : FieldProblem) (d : Dofs) (U : Val) (eps : ℝ) :
    q.approxF (Q.rescale l mu) (rescaleDofs mu d) (U.map (factorOf l mu "f_l1_Phi" * ·)) ⟨eps⟩ = q.approxF Q d U ⟨eps / mu⟩ := by
  obtain rfl : q = Quantity.generateL1 (arr FieldProblem.fns.Phi) "scaled_abs_Phi" false := by
    have := hq.symm.trans (show shippedRegistry FieldProblem.fns others "f_l1_Phi" =
      some (.quantity (Quantity.generateL1 (arr FieldProblem.fns.Phi) "scaled_abs_Phi" false)) from rfl)
    simpa using this
  have hf : factorOf l mu "f_l1_Phi" = mu * l ^ 2 := by simp [factorOf, valueFactor, List.lookup]
  have hphi := fns_Phi_scale Q l mu d
  have hm : ((FieldProblem.fns.Phi Q d).map (mu * ·)).map (fun x => absLse x eps) =
      ((FieldProblem.fns.Phi Q d).map fun x => absLse x (eps / mu)).map (mu * ·) := by
    rw [List.map_map, List.map_map]
    exact List.map_congr_left fun x _ => absLse_mul hmu x eps
  simp only [Quantity.generateL1, arr, Val.entries, hphi, hm, l1Integral_scale Q l mu hl, hf]
  exact map2_div_scale (.scalar _) U (by positivity)

/-- The smoothed L1 norm of the zero potential on the torus. -/
theorem torus_smoothed_l1 {u : ℝ} (hu : 0 < u) {q : Quantity FieldProblem}
    (hq : shippedRegistry FieldProblem.fns others "f_l1_Phi" = some (.quantity q)) : ∃ c > 0, ∀ e > 0,
    q.approxF resolvedTorus (phiOnly (.array [0])) (.scalar u) ⟨e⟩ = .scalar (e * c) := by
  obtain rfl : q = Quantity.generateL1 (arr FieldProblem.fns.Phi) "scaled_abs_Phi" false := by
    have := hq.symm.trans (show shippedRegistry FieldProblem.fns others "f_l1_Phi" =
      some (.quantity (Quantity.generateL1 (arr FieldProblem.fns.Phi) "scaled_abs_Phi" false)) from rfl)
    simpa using this
  have h0 : ∀ e > 0, (FieldProblem.fns.Phi resolvedTorus (phiOnly (.array [0]))).map (fun x => absLse x e) =
      (resolvedTorus.evalGrid.map fun _ => Real.log 2).map (e * ·) := by
    intro e he
    simp only [FieldProblem.fns, List.map_map]
    refine List.map_congr_left fun q hq => ?_
    have : resolvedTorus.cp.Phi (coefs (phiOnly (.array [0]))) q.1 q.2 = 0 :=
      torus_Phi_zero _ (List.mem_map.2 ⟨q, hq, rfl⟩)
    simp only [Function.comp_apply, this, absLse_eq, zero_div, Real.cosh_zero, mul_one]
  have hint : ∀ g : ℝ × ℝ → ℝ, Quantity.l1Integral resolvedTorus (resolvedTorus.evalGrid.map g) =
      (resolvedTorus.evalGrid.map fun q => gridStep resolvedTorus.ePhis * gridStep resolvedTorus.eThetas * (circularTorus.N q.1 q.2).norm *
        g q).sum := by
    intro g
    have hn : (HasQp.nfp resolvedTorus : ℝ) = 1 := by
      show ((1 : ℕ) : ℝ) = 1
      norm_num
    simp only [Quantity.l1Integral, hn, mul_one, HasQp.da, GridSurface.da]
    rw [show gridPoints resolvedTorus.evalSurface.phis resolvedTorus.evalSurface.thetas = resolvedTorus.evalGrid from rfl,
      List.zipWith_map, List.zipWith_self]
    rfl
  refine ⟨Quantity.l1Integral resolvedTorus (resolvedTorus.evalGrid.map fun _ => Real.log 2) / u, div_pos ?_ hu, fun e he => ?_⟩
  · rw [hint]
    have hs : 0 < gridStep resolvedTorus.ePhis * gridStep resolvedTorus.eThetas := by
      show 0 < gridStep (linspace0 (1 / (1 : ℕ)) 2) * gridStep (linspace0 1 3)
      rw [gridStep_linspace0 _ _ (le_refl 2), gridStep_linspace0 _ _ (by norm_num)]
      norm_num
    refine List.sum_pos _ (fun x hx => ?_) ?_
    · obtain ⟨q, -, rfl⟩ := List.mem_map.1 hx
      exact mul_pos (mul_pos hs ((V3.norm_pos_iff _).2 (circularTorus_regular q.1 q.2).1)) (Real.log_pos (by norm_num))
    · simp [FieldProblem.evalGrid, resolvedTorus, gridPoints, linspace0]
      exact ⟨0, by norm_num⟩
  · simp only [Quantity.generateL1, arr, Val.entries, h0 e he, Val.map2, List.map_map, hint, Function.comp_apply]
    rw [← mul_div_assoc, ← List.sum_map_mul_left]
    congr 4
    funext q
    ring

/-- **C152 fails (witness).** The smoothed L1 norm of the zero potential on a torus, in its unit, is another number when currents are measured
in another unit. -/
theorem C152_smoothed_l1_witness_partial (hl : 0 < l) (hmu : 0 < mu) (h1 : mu ≠ 1) {eps u : ℝ} (he : 0 < eps) (hu : 0 < u)
    {q : Quantity FieldProblem} (hq : shippedRegistry FieldProblem.fns others "f_l1_Phi" = some (.quantity q)) :
    q.approxF (resolvedTorus.rescale l mu) (rescaleDofs mu (phiOnly (.array [0]))) (.scalar (factorOf l mu "f_l1_Phi" * u)) ⟨eps⟩ ≠
      q.approxF resolvedTorus (phiOnly (.array [0])) (.scalar u) ⟨eps⟩ := by
  obtain ⟨c, hc, h⟩ := torus_smoothed_l1 hu hq
  have e := C152_smoothed_l1_partial hl hmu hq resolvedTorus (phiOnly (.array [0])) (.scalar u) eps
  rw [Val.map] at e
  rw [e, h _ he, h _ (div_pos he hmu)]
  intro h2
  have h3 : eps / mu * c = eps * c := Val.scalar.inj h2
  have h4 : eps / mu = eps := mul_right_cancel₀ hc.ne' h3
  rw [div_eq_iff hmu.ne'] at h4
  exact h1 (mul_left_cancel₀ he.ne' (by linarith)).symm

/-- **C152 fails (start of a squared maximum).** The auxiliary variable of `f_max_Phi2` is compared with the largest potential in its unit, but
it starts at a value that is multiplied by `mu`. -/
theorem C152_squared_start_partial (hmu : 0 < mu) {q : Quantity FieldProblem}
    (hq : shippedRegistry FieldProblem.fns others "f_max_Phi2" = some (.quantity q)) (Q : FieldProblem) (d : Dofs) (u : ℝ) :
    ∃ s, q.slackInit = some [("scaled_max_Phi_f_max_Phi2", s)] ∧
      s (Q.rescale l mu) (rescaleDofs mu d) (.scalar (factorOf l mu "f_max_Phi2" * u)) = (s Q d (.scalar u)).map (mu * ·) := by
  obtain rfl : q = Quantity.generateLinf (arr FieldProblem.fns.Phi) "scaled_max_Phi_f_max_Phi2" false true := by
    have := hq.symm.trans (show shippedRegistry FieldProblem.fns others "f_max_Phi2" =
      some (.quantity (Quantity.generateLinf (arr FieldProblem.fns.Phi) "scaled_max_Phi_f_max_Phi2" false true)) from rfl)
    simpa using this
  have hf : factorOf l mu "f_max_Phi2" = mu ^ 2 := by simp [factorOf, valueFactor, List.lookup]
  refine ⟨_, rfl, ?_⟩
  simp only [arr, if_true, fns_Phi_scale, maxAbs_scale _ _ hmu.le, hf, Val.map, Val.map2, Val.scalar.injEq]
  rw [Real.sqrt_mul (sq_nonneg mu), Real.sqrt_sq hmu.le]
  field_simp

/-- **C152 fails (start of the L1 norm).** The auxiliary variables of `f_l1_Phi` are potentials in the unit of an integral over the surface, so
they depend on the unit of length. -/
theorem C152_l1_start_partial (hmu : 0 < mu) {q : Quantity FieldProblem}
    (hq : shippedRegistry FieldProblem.fns others "f_l1_Phi" = some (.quantity q)) (Q : FieldProblem) (d : Dofs) (u : ℝ) :
    ∃ s, q.slackInit = some [("scaled_abs_Phi", s)] ∧
      s (Q.rescale l mu) (rescaleDofs mu d) (.scalar (factorOf l mu "f_l1_Phi" * u)) = (s Q d (.scalar u)).map ((l ^ 2)⁻¹ * ·) := by
  obtain rfl : q = Quantity.generateL1 (arr FieldProblem.fns.Phi) "scaled_abs_Phi" false := by
    have := hq.symm.trans (show shippedRegistry FieldProblem.fns others "f_l1_Phi" =
      some (.quantity (Quantity.generateL1 (arr FieldProblem.fns.Phi) "scaled_abs_Phi" false)) from rfl)
    simpa using this
  have hf : factorOf l mu "f_l1_Phi" = mu * l ^ 2 := by simp [factorOf, valueFactor, List.lookup]
  refine ⟨_, rfl, ?_⟩
  simp only [arr, fns_Phi_scale, hf, Val.map, Val.map2, Val.entries, List.map_map, Val.array.injEq]
  refine List.map_congr_left fun x _ => ?_
  simp only [Function.comp_apply, abs_mul, abs_of_pos hmu]
  rw [mul_assoc, mul_div_mul_left _ _ hmu.ne', div_mul_eq_div_div, div_eq_inv_mul, div_eq_inv_mul, div_eq_inv_mul]
  ring

/-! ## Examples -/

/-- The call for the torus with the default objective and with two objectives and a bounded current, in ampere and metre or in kiloampere
and centimetre. -/
example (b : ℝ) (opt : Optimizer ℝ) (gradOp : (List ℝ → ℝ) → List ℝ → List ℝ) :
    let a : CallArgs := { torusCall b with
      opts := { defaultArgs with objectiveName := .many ["f_B", "f_K"], objectiveUnit := .many [.none, .scalar 3]
                                 objectiveWeight := .many [1, 1 / 2], constraintName := ["f_max_K2", "f_max_Phi"]
                                 constraintType := ["<=", "<="], constraintUnit := [.none, .scalar 2], constraintValue := [4, 5] } }
    quadcoilCall opt gradOp (shippedRegistry FieldProblem.fns []) (a.rescale 100 (1 / 1000)) =
      (quadcoilCall opt gradOp (shippedRegistry FieldProblem.fns []) a).map (Option.map (CallOut.rescale 100 (1 / 1000))) := by
  intro a
  refine C152_run (by norm_num) (by norm_num) opt gradOp a (fun d h => by simp [a, torusCall] at h) ?_
  intro n hn
  simp only [a, OneOrMany.list, List.cons_append, List.nil_append, List.mem_cons, List.not_mem_nil, or_false] at hn
  rcases hn with rfl | rfl | rfl | rfl <;> simp [UnitBound, a, defaultArgs]

/-- A generator that scales: a torus around the axis of the plasma. -/
example (l : ℝ) (a : CallArgs) (h : a.generator = fun points d _ _ _ _ => [((points.headD []).headD 0).x, d, d]) :
    a.GeneratorScales l := by
  intro d _
  rw [h]
  cases a.plasmaGamma with
  | nil => simp
  | cons r rs => cases r <;> simp

end Verif
