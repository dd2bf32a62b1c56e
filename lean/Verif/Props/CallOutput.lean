import Verif.Props.CallReturned
import Verif.Props.CallExamples
import Verif.Props.Docs

/-!
# C140, C144: errors of a whole call, the keys of its output, and its defaults
-/

namespace Verif

variable {a : CallArgs}

/-! ## Errors -/

theorem requireShape_error (p : Prop) [Decidable p] (h : ¬ p) : requireShape p = .error .typeError := by
  unfold requireShape
  rw [if_neg h]

/-- **C140 (errors, field periods).** Without field periods a call divides by zero. -/
theorem C140_no_field_periods (reg : Registry FieldProblem) (h : a.nfp = 0) : a.setup reg = .error .zeroDivisionError := by
  unfold CallArgs.setup
  rw [if_pos h]

/-- **C140 (errors, winding surface).** A call with both a distance and a winding surface, or with neither, raises `ValueError`. -/
theorem C140_ambiguous_surface (reg : Registry FieldProblem) (hn : a.nfp ≠ 0) (h : a.plasmaCoilDistance.isSome = a.windingDofs.isSome) :
    a.setup reg = .error .valueError := by
  unfold CallArgs.setup
  rw [if_neg hn]
  have : quadcoilChecks a.checked = .error .valueError := by
    unfold quadcoilChecks
    have h' : a.checked.plasmaCoilDistanceGiven = a.checked.windingDofsGiven := h
    cases hw : a.checked.windingDofsGiven
    · rw [if_pos ⟨h'.trans hw, rfl⟩]
    · rw [if_neg fun hc => by simp at hc, if_pos ⟨h'.trans hw, rfl⟩]
  rw [this]
  rfl

/-- **C140 (errors, sizes).** If everything but the sizes of the arrays fits, the call raises `TypeError`. -/
theorem C140_wrong_size (others : List String) (hn : a.nfp ≠ 0) (h1 : a.plasmaCoilDistance.isSome ≠ a.windingDofs.isSome)
    (h2 : FittingObjectives a.opts) (h3 : FittingConstraints a.opts) (hd : a.nfp ∣ a.described.wPhis.length)
    (ho : LegalObjectives (shippedRegistry FieldProblem.fns others) a.opts.smoothing a.opts.objectiveName a.opts.objectiveUnit
      a.opts.objectiveWeight) (hcn : LegalConstraints (shippedRegistry FieldProblem.fns others) a.opts) (hm : LegalMerge a.opts)
    (h : ¬ FittingSizes a) : a.setup (shippedRegistry FieldProblem.fns others) = .error .typeError := by
  obtain ⟨S, hS⟩ := (C131_setup_succeeds_iff_legal others a.described a.opts (a.unit a.described)).2 ⟨ho, hcn, hm⟩
  obtain ⟨p, hp⟩ := setup_implies_fgh hS
  obtain ⟨o, ho, hQ, hnd⟩ := paramsObj_ok (a := a) hd
  unfold CallArgs.setup
  rw [if_neg hn, checks_iff.2 ⟨h1, h2, h3⟩]
  simp only [bind, Except.bind]
  by_cases hg : a.plasmaCoilDistance.isSome → a.plasmaDofs.length = a.plasmaShape.size
  swap
  · rw [Classical.not_imp] at hg
    rw [CallArgs.generatorShapes, if_pos hg.1, requireShape_error _ (by rw [columns_eq]; exact hg.2)]
  have hgen : a.generatorShapes = .ok () := by
    unfold CallArgs.generatorShapes
    rw [columns_eq]
    split
    · exact (requireShape_ok _).2 (hg ‹_›)
    · rfl
  rw [hgen]
  simp only [ho, hQ, hp]
  by_cases hi : ∀ q, a.opts.phiInit = some q → q.length = potentialSize a.stellsym a.mpol a.ntor
  swap
  · rw [requireShape_error]
    rw [hnd, CallArgs.phiInit]
    intro hc
    refine hi fun q hq => ?_
    rw [hq] at hc
    simpa [ndofs_eq] using hc
  have hinit : a.phiInit.length = o.ndofs := by
    rw [hnd, CallArgs.phiInit]
    cases hq : a.opts.phiInit with
    | none => simp
    | some q => simpa [ndofs_eq] using hi q hq
  rw [(requireShape_ok _).2 hinit]
  simp only
  have hu : a.phiUnit = none := by
    by_contra hu
    refine h ⟨hi, fun hx => hx.elim hg (fun e => absurd e hu), fun e => absurd e hu, fun e => absurd e hu⟩
  have hunit : a.unitShapes = .error .typeError := by
    unfold CallArgs.unitShapes
    rw [hu, columns_eq, columns_eq, windingData_described.1, windingData_described.2]
    simp only [Option.isNone_none, if_true, bind, Except.bind]
    by_cases e1 : a.plasmaDofs.length = a.plasmaShape.size
    swap
    · rw [requireShape_error _ e1]
    rw [(requireShape_ok _).2 e1]
    simp only
    by_cases e2 : a.described.cp.wdofs.length = a.described.cp.surf.size
    swap
    · rw [requireShape_error _ e2]
    rw [(requireShape_ok _).2 e2]
    simp only
    refine requireShape_error _ fun e3 => ?_
    exact h ⟨hi, fun _ => e1, fun _ => e2, fun _ => bnormalArr_shape.1 e3⟩
  rw [hunit]

/-- The call for the torus with the default objective meets the hypotheses, but for a plasma surface that lacks a coefficient. -/
example (b : ℝ) : ({ torusCall b with plasmaDofs := [2, 1] } : CallArgs).setup (shippedRegistry FieldProblem.fns []) =
    .error .typeError := by
  refine C140_wrong_size [] one_ne_zero (by simp [torusCall]) trivial ⟨rfl, rfl, rfl⟩ (one_dvd _)
    ⟨⟨_, shipped_fB [], by decide⟩, .inr (.inl rfl), by simp [torusCall]⟩ ⟨rfl, rfl, fun h => (h rfl).elim, fun r hr => ?_⟩
    (fun h => by cases h) fun h => ?_
  · simp [torusCall, QuadcoilArgs.requests, zipRequests, defaultArgs] at hr
  · have := h.plasma (.inr rfl)
    simp [torusCall, SurfaceShape.size] at this

/-- Both errors before that. -/
example (b d : ℝ) (reg : Registry FieldProblem) : ({ torusCall b with nfp := 0 } : CallArgs).setup reg = .error .zeroDivisionError ∧
    ({ torusCall b with plasmaCoilDistance := some d } : CallArgs).setup reg = .error .valueError ∧
    ({ torusCall b with windingDofs := none } : CallArgs).setup reg = .error .valueError :=
  ⟨C140_no_field_periods reg rfl, C140_ambiguous_surface reg one_ne_zero rfl, C140_ambiguous_surface reg one_ne_zero rfl⟩

/-- **C140 (errors come before the solver).** An accepted call whose metrics exist raises no error, whatever the optimiser and the
gradients are. -/
theorem C140_no_late_errors {reg : Registry FieldProblem} {Q : FieldProblem} {S : Setup} (hS : a.setup reg = .ok (Q, S))
    (hm : KnownMetrics reg a) (opt : Optimizer ℝ) (gradOp : (List ℝ → ℝ) → List ℝ → List ℝ) :
    ∃ o, quadcoilCall opt gradOp reg a = .ok o ∧ (o = none ↔ quadcoilSolve opt gradOp S = none) := by
  obtain ⟨-, -, -, -, -, -, rfl, hset⟩ := (C140_setup_iff _ Q S).1 hS
  obtain ⟨p, hp⟩ := setup_implies_fgh hset
  unfold quadcoilCall
  rw [hS]
  simp only [bind, Except.bind, hp]
  cases hr : quadcoilSolve opt gradOp S with
  | none => exact ⟨none, rfl, by simp⟩
  | some rd =>
    obtain ⟨out, ho⟩ := outDict_ok hm a.described p rd.2
    simp only [ho]
    exact ⟨_, rfl, by simp⟩

/-- **C140 (errors, metrics).** An accepted call with a metric that does not exist never returns: it fails after the solver. -/
theorem C140_unknown_metric {reg : Registry FieldProblem} {opt : Optimizer ℝ} {gradOp : (List ℝ → ℝ) → List ℝ → List ℝ} {n : String}
    (hn : n ∈ a.metrics) (hne : n ≠ "f_obj") (hreg : ∀ q, reg n ≠ some (.quantity q)) (R : CallOut) :
    quadcoilCall opt gradOp reg a ≠ .ok (some R) := by
  intro h
  obtain ⟨-, S, -, -, -, h1, -⟩ := C140_returned h
  obtain ⟨q, v, hq, -⟩ := h1 n hn hne
  exact hreg q hq

/-- The call for the torus is accepted. Whatever optimiser is used, it raises no error; with a misspelt metric it never returns. -/
example (b : ℝ) : (∀ opt gradOp, ∃ o, quadcoilCall opt gradOp (shippedRegistry FieldProblem.fns []) (torusCall b) = .ok o) ∧
    ∀ opt gradOp R, quadcoilCall opt gradOp (shippedRegistry FieldProblem.fns []) { torusCall b with metricName := .one "f_b" } ≠
      .ok (some R) := by
  constructor
  · intro opt gradOp
    have hacc : ∃ r, (torusCall b).setup (shippedRegistry FieldProblem.fns []) = .ok r := by
      rw [C140_accepted_iff]
      refine ⟨one_ne_zero, by simp [torusCall], trivial, ⟨rfl, rfl, rfl⟩, one_dvd _, ⟨fun p h => (by cases h), fun _ => ?_, fun _ => ?_,
        fun _ => ?_⟩, ⟨⟨_, shipped_fB [], by decide⟩, .inr (.inl rfl), by simp [torusCall]⟩,
        ⟨rfl, rfl, fun h => (h rfl).elim, fun r hr => ?_⟩, fun h => by cases h⟩
      · simp [torusCall, SurfaceShape.size]
      · simp [torusCall, CallArgs.described, SurfaceShape.size]
      · exact (torusCall_grids b).normal_field
      · simp [torusCall, QuadcoilArgs.requests, zipRequests, defaultArgs] at hr
    obtain ⟨⟨Q, S⟩, hS⟩ := hacc
    obtain ⟨o, ho, -⟩ := C140_no_late_errors hS (torusCall_metrics b) opt gradOp
    exact ⟨o, ho⟩
  · intro opt gradOp R
    exact C140_unknown_metric (n := "f_b") (by simp [CallArgs.metrics]) (by decide)
      (fun q h => by rw [show shippedRegistry FieldProblem.fns [] "f_b" = none from rfl] at h; cases h) R

/-! ## The output -/

/-- The metric is asked for, by its name or in a tuple. -/
def Requested (a : CallArgs) (n : String) : Prop := a.metricName = .one n ∨ ∃ l, a.metricName = .many l ∧ n ∈ l

theorem mem_metrics (n : String) : n ∈ a.metrics ↔ Requested a n := by
  unfold CallArgs.metrics Requested
  cases a.metricName <;> simp [eq_comm]

/-- **C140 (keys of the output).** The output has an entry for a name exactly if the name was asked for, except for `f_obj` with
`value_only`. -/
theorem C140_output_keys {opt : Optimizer ℝ} {gradOp : (List ℝ → ℝ) → List ℝ → List ℝ} {reg : Registry FieldProblem} {R : CallOut}
    (h : quadcoilCall opt gradOp reg a = .ok (some R)) (n : String) :
    (∃ v, R.out.lookup n = some v) ↔ Requested a n ∧ ¬ (n = "f_obj" ∧ a.valueOnly = true) := by
  obtain ⟨-, S, -, -, -, h1, h2, h3, h4⟩ := C140_returned h
  rw [← mem_metrics]
  constructor
  · rintro ⟨v, hv⟩
    refine ⟨by_contra fun hn => ?_, ?_⟩
    · rw [h2 n hn] at hv
      cases hv
    · rintro ⟨rfl, e⟩
      rw [h4 e] at hv
      cases hv
  · rintro ⟨hn, hf⟩
    by_cases hne : n = "f_obj"
    · subst hne
      have : a.valueOnly = false := by
        cases hv : a.valueOnly
        · rfl
        · exact absurd ⟨rfl, hv⟩ hf
      obtain ⟨v, hv, -⟩ := h3 hn this
      exact ⟨v, hv⟩
    · obtain ⟨q, v, -, hv, -⟩ := h1 n hn hne
      exact ⟨v, hv⟩

/-- **C140 (keys of the gradients).** Every entry of the output has, without `value_only`, derivatives with respect to the plasma surface
and the two net currents, and to the weights if there are several objectives, to the thresholds if there are constraints, to the plasma
field if it was given, and to the distance or the winding surface, whichever was given. With `value_only` it has no derivatives. -/
theorem C140_gradient_keys {opt : Optimizer ℝ} {gradOp : (List ℝ → ℝ) → List ℝ → List ℝ} {reg : Registry FieldProblem} {R : CallOut}
    (h : quadcoilCall opt gradOp reg a = .ok (some R)) {n : String} {v : MetricOut Val} (hv : R.out.lookup n = some v) :
    (a.valueOnly = true → v.gradKeys = none) ∧
    (a.valueOnly = false → ∃ keys, v.gradKeys = some keys ∧ keys.Nodup ∧ ∀ k, k ∈ keys ↔
      k = "df_dplasma_dofs" ∨ k = "df_dnet_poloidal_current_amperes" ∨ k = "df_dnet_toroidal_current_amperes" ∨
      (k = "df_dobjective_weight" ∧ ∃ l, a.opts.objectiveName = .many l) ∨
      (k = "df_dconstraint_value" ∧ a.opts.constraintName ≠ []) ∨
      (k = "df_dBnormal_plasma" ∧ ∃ b, a.bnormalPlasma = some b) ∨
      (k = "df_dplasma_coil_distance" ∧ ∃ d, a.plasmaCoilDistance = some d) ∨
      (k = "df_dwinding_dofs" ∧ ∃ w, a.windingDofs = some w)) := by
  have hreq := (mem_metrics n).2 ((C140_output_keys h n).1 ⟨v, hv⟩).1
  have hnf := ((C140_output_keys h n).1 ⟨v, hv⟩).2
  unfold quadcoilCall at h
  rw [bind_ok] at h
  obtain ⟨⟨Q, S⟩, hS, h⟩ := h
  obtain ⟨-, hone, -⟩ := (C140_setup_iff _ Q S).1 hS
  simp only at h
  rw [bind_ok] at h
  obtain ⟨p, hp, h⟩ := h
  cases hsol : quadcoilSolve opt gradOp S with
  | none =>
    rw [hsol] at h
    simp at h
  | some rd =>
    rw [hsol] at h
    simp only at h
    rw [bind_ok] at h
    obtain ⟨out, hout, h⟩ := h
    simp only [Except.ok.injEq, Option.some.injEq] at h
    subst h
    simp only at hv
    unfold CallArgs.outDict at hout
    constructor
    · intro hvo
      rw [if_pos hvo] at hout
      obtain ⟨w, hw, -⟩ := (valueOnlyOut_lookup _ _ [] out hout n).1 hreq fun e => hnf ⟨e, hvo⟩
      rw [hw] at hv
      cases hv
      rfl
    · intro hvo
      rw [if_neg (by simp [hvo])] at hout
      obtain ⟨w, keys, hw, hnd, hk⟩ := C29_gradient_keys _ _ _ _ _ hout n hreq
      rw [hw] at hv
      cases hv
      refine ⟨keys, rfl, hnd, fun k => ?_⟩
      rw [hk k]
      have e1 : a.yArgs.objectiveIsString = false ↔ ∃ l, a.opts.objectiveName = .many l := by
        unfold CallArgs.yArgs
        cases a.opts.objectiveName <;> simp
      have e2 : 0 < a.yArgs.nConstraints ↔ a.opts.constraintName ≠ [] := List.length_pos_iff
      have e3 : a.yArgs.bnormalPlasmaGiven = true ↔ ∃ b, a.bnormalPlasma = some b := Option.isSome_iff_exists
      have e4 : a.yArgs.plasmaCoilDistanceGiven = true ↔ ∃ d, a.plasmaCoilDistance = some d := Option.isSome_iff_exists
      have e5 : a.yArgs.plasmaCoilDistanceGiven = false ↔ ∃ w, a.windingDofs = some w := by
        rw [← Option.isSome_iff_exists]
        show a.plasmaCoilDistance.isSome = false ↔ _
        cases h1 : a.plasmaCoilDistance.isSome <;> cases h2 : a.windingDofs.isSome <;> simp_all
      rw [e1, e2, e3, e4, e5]

/-- One metric by its name, with a plasma field and a winding surface: its entry and the keys of its gradient. -/
example (b : ℝ) {opt : Optimizer ℝ} {reg : Registry FieldProblem} {R : CallOut}
    (h : quadcoilCall opt realGrad reg { torusCall b with metricName := .one "f_max_force" } = .ok (some R)) :
    ∃ v keys, R.out.lookup "f_max_force" = some v ∧ R.out.lookup "f_K" = none ∧ v.gradKeys = some keys ∧ "df_dBnormal_plasma" ∈ keys ∧
      "df_dwinding_dofs" ∈ keys ∧ "df_dplasma_coil_distance" ∉ keys ∧ "df_dobjective_weight" ∉ keys ∧ "df_dconstraint_value" ∉ keys := by
  obtain ⟨v, hv⟩ := (C140_output_keys h "f_max_force").2 ⟨.inl rfl, by simp⟩
  obtain ⟨keys, hk, -, hkeys⟩ := (C140_gradient_keys h hv).2 rfl
  refine ⟨v, keys, hv, ?_, hk, (hkeys _).2 ?_, (hkeys _).2 ?_, fun hc => ?_, fun hc => ?_, fun hc => ?_⟩
  · by_contra hc
    have := (C140_output_keys h "f_K").1 (Option.ne_none_iff_exists'.1 hc)
    simp [Requested, torusCall] at this
  · simp [torusCall]
  · simp [torusCall]
  · have := (hkeys _).1 hc
    simp [torusCall] at this
  · have := (hkeys _).1 hc
    simp [torusCall, defaultArgs] at this
  · have := (hkeys _).1 hc
    simp [torusCall, defaultArgs] at this

/-! ## Defaults -/

/-- A call with the required arguments only. -/
noncomputable def bareCall (nfp : ℕ) (stellsym : Bool) (plasmaMpol plasmaNtor : ℕ) (plasmaDofs : List ℝ) (netPoloidal : ℝ) (generator : Generator) :
    CallArgs := { nfp, stellsym, plasmaMpol, plasmaNtor, plasmaDofs, netPoloidal, generator }

theorem realNumber_eq {n : String} {m e : Int} (h : realDefault n = some (.num m e)) : realNumber n = m * (10 : ℝ) ^ e := by
  simp [realNumber, h, Default.toReal]

/-- **C144 (defaults of the model).** The defaults of the modelled call are those of the signature. -/
theorem C144_call_defaults (nfp : ℕ) (stellsym : Bool) (plasmaMpol plasmaNtor : ℕ) (plasmaDofs : List ℝ) (netPoloidal : ℝ)
    (generator : Generator) (a : CallArgs) (ha : a = bareCall nfp stellsym plasmaMpol plasmaNtor plasmaDofs netPoloidal generator) :
    (a.netToroidal = realNumber "net_toroidal_current_amperes" ∧ (a.mpol : ℝ) = realNumber "mpol" ∧ (a.ntor : ℝ) = realNumber "ntor" ∧
      (a.windingMpol : ℝ) = realNumber "winding_mpol" ∧ (a.windingNtor : ℝ) = realNumber "winding_ntor") ∧
    (realDefault "plasma_stellsym" = some (.bool a.plasmaStellsym) ∧ realDefault "winding_stellsym" = some (.bool a.windingStellsym) ∧
      realDefault "value_only" = some (.bool a.valueOnly) ∧ realDefault "merge_constraints" = some (.bool a.opts.mergeConstraints)) ∧
    (∀ n ∈ ["quadpoints_phi", "quadpoints_theta", "phi_init", "phi_unit", "plasma_quadpoints_phi", "plasma_quadpoints_theta",
        "Bnormal_plasma", "plasma_coil_distance", "winding_dofs", "winding_quadpoints_phi", "winding_quadpoints_theta", "objective_unit"],
      realDefault n = some .none) ∧
    (a.quadpointsPhi = none ∧ a.quadpointsTheta = none ∧ a.opts.phiInit = none ∧ a.phiUnit = none ∧ a.plasmaQuadpointsPhi = none ∧
      a.plasmaQuadpointsTheta = none ∧ a.bnormalPlasma = none ∧ a.plasmaCoilDistance = none ∧ a.windingDofs = none ∧
      a.windingQuadpointsPhi = none ∧ a.windingQuadpointsTheta = none ∧ a.opts.objectiveUnit = .one .none) ∧
    (∃ s, realDefault "objective_name" = some (.str s) ∧ a.opts.objectiveName = .one s) ∧
    (∃ s, realDefault "smoothing" = some (.str s) ∧ a.opts.smoothing = some s) ∧
    a.opts.objectiveWeight = .one (realNumber "objective_weight") ∧
    (∃ l, realDefault "metric_name" = some (.strs l) ∧ a.metricName = .many l) ∧
    (realDefault "constraint_name" = some (.strs []) ∧ a.opts.constraintName = []) ∧
    (realDefault "constraint_type" = some (.strs []) ∧ a.opts.constraintType = []) ∧
    (realDefault "constraint_unit" = some (.strs []) ∧ a.opts.constraintUnit = []) ∧
    (realDefault "constraint_value" = some (.strs []) ∧ a.opts.constraintValue = []) ∧
    (realDefault "smoothing_params" = some (.object "{'lse_epsilon': 1e-3}") ∧ a.opts.sp.lseEpsilon = 1e-3) := by
  subst ha
  refine ⟨?_, ⟨rfl, rfl, rfl, rfl⟩, by decide, ⟨rfl, rfl, rfl, rfl, rfl, rfl, rfl, rfl, rfl, rfl, rfl, rfl⟩,
    ⟨"f_B", by decide, rfl⟩, ⟨"slack", by decide, rfl⟩, ?_, ⟨["f_B", "f_K"], by decide, rfl⟩, ⟨by decide, rfl⟩, ⟨by decide, rfl⟩,
    ⟨by decide, rfl⟩, ⟨by decide, rfl⟩, ⟨by decide, rfl⟩⟩
  · rw [realNumber_eq (n := "net_toroidal_current_amperes") (m := 0) (e := 0) (by decide),
      realNumber_eq (n := "mpol") (m := 6) (e := 0) (by decide), realNumber_eq (n := "ntor") (m := 4) (e := 0) (by decide),
      realNumber_eq (n := "winding_mpol") (m := 6) (e := 0) (by decide), realNumber_eq (n := "winding_ntor") (m := 5) (e := 0) (by decide)]
    simp [bareCall]
  · rw [realNumber_eq (n := "objective_weight") (m := 1) (e := 0) (by decide)]
    simp [bareCall, defaultArgs]

end Verif
