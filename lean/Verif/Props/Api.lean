import Verif.Model.Api
import Mathlib.Tactic.Ring
import Mathlib.Tactic.FieldSimp

/-!
# Properties C28, C29, C30, C73, C75: argument checks, output keys, unknowns
-/

namespace Verif

/-! ## C28 -/

/-- The object has Python length `n`. -/
def HasLen (o : PyObj) (n : ℕ) : Prop :=
  match o with
  | .str s => s.length = n
  | .tuple k => k = n
  | .list k => k = n
  | .array shape => shape.head? = some n
  | .other => False

/-- The documented argument shapes. -/
structure Documented (a : CheckedArgs) : Prop where
  one_surface : a.plasmaCoilDistanceGiven ≠ a.windingDofsGiven
  objective : (∃ s, a.objectiveName = .str s) ∨
    ∃ n, a.objectiveName = .tuple n ∧ a.objectiveWeight = .array [n] ∧ HasLen a.objectiveUnit n
  constraints : ∃ k, a.constraintName = .tuple k ∧ a.constraintType = .tuple k ∧ HasLen a.constraintUnit k ∧
    HasLen a.constraintValue k

theorem len_ok_iff (o : PyObj) (n : ℕ) : o.len = .ok n ↔ HasLen o n := by
  cases o with
  | array s => cases s <;> simp [PyObj.len, HasLen]
  | _ => simp [PyObj.len, HasLen]

/-- Length check by `bind`: succeeds exactly if the length is `n` and the continuation succeeds. -/
theorem len_bind_ok (o : PyObj) (n : ℕ) (k : Except PyErr Unit) :
    (do let u ← o.len; if n ≠ u then .error .valueError else k : Except PyErr Unit) = .ok () ↔ HasLen o n ∧ k = .ok () := by
  rw [← len_ok_iff]
  cases h : o.len with
  | error e => simp [bind, Except.bind]
  | ok m =>
    simp only [bind, Except.bind, Except.ok.injEq]
    by_cases hm : n = m
    · subst hm
      simp
    · rw [if_pos hm]
      simp [Ne.symm hm]

theorem checkConstraints_ok (a : CheckedArgs) : checkConstraints a = .ok () ↔
    ∃ k, a.constraintName = .tuple k ∧ a.constraintType = .tuple k ∧ HasLen a.constraintUnit k ∧
      HasLen a.constraintValue k := by
  unfold checkConstraints
  split
  · rename_i n t hn ht
    rw [hn, ht]
    by_cases h : n = t
    · subst h
      rw [if_neg (by simp), len_bind_ok, len_bind_ok]
      simp
    · rw [if_pos h]
      simp only [PyObj.tuple.injEq, reduceCtorEq, false_iff, not_exists, not_and]
      intro k h1 h2
      exact absurd (h1.trans h2.symm) h
  · rename_i hno
    simp only [reduceCtorEq, false_iff, not_exists, not_and]
    intro k h1 h2
    exact absurd h2 (hno k k h1)

theorem checkObjective_ok (a : CheckedArgs) : checkObjective a = .ok () ↔ (∃ s, a.objectiveName = .str s) ∨
    ∃ n, a.objectiveName = .tuple n ∧ a.objectiveWeight = .array [n] ∧ HasLen a.objectiveUnit n := by
  unfold checkObjective
  split
  · rename_i s hs
    simp [hs]
  · rename_i n hn
    rw [hn]
    by_cases hw : a.objectiveWeight.isNdarray 1 = true
    · rw [if_pos hw, len_bind_ok, len_bind_ok]
      cases hW : a.objectiveWeight with
      | array shape =>
        rw [hW] at hw
        simp only [PyObj.isNdarray, beq_iff_eq] at hw
        obtain ⟨m, rfl⟩ := List.length_eq_one_iff.1 hw
        simp only [HasLen, List.head?_cons, Option.some.injEq, PyObj.array.injEq, List.cons.injEq, and_true,
          PyObj.tuple.injEq, reduceCtorEq, exists_false, false_or]
        constructor
        · rintro ⟨rfl, h⟩
          exact ⟨m, rfl, rfl, h⟩
        · rintro ⟨k, rfl, rfl, h⟩
          exact ⟨rfl, h⟩
      | _ => rw [hW] at hw; simp [PyObj.isNdarray] at hw
    · rw [if_neg hw]
      simp only [reduceCtorEq, exists_false, PyObj.tuple.injEq, false_or, false_iff, not_exists, not_and]
      rintro k rfl h
      rw [h] at hw
      simp [PyObj.isNdarray] at hw
  · rename_i h1 h2
    simp only [reduceCtorEq, false_iff, not_or, not_exists, not_and]
    exact ⟨fun s hs => h1 s hs, fun n hn => absurd hn (h2 n)⟩

/-- **C28.** A call passes the checks exactly when the arguments have the documented shapes. -/
theorem C28_accepted_iff_documented (a : CheckedArgs) : quadcoilChecks a = .ok () ↔ Documented a := by
  have hin : inputChecking a = .ok () ↔ checkObjective a = .ok () ∧ checkConstraints a = .ok () := by
    unfold inputChecking
    cases checkObjective a <;> simp [bind, Except.bind]
  rw [checkObjective_ok, checkConstraints_ok] at hin
  unfold quadcoilChecks
  cases h1 : a.plasmaCoilDistanceGiven <;> cases h2 : a.windingDofsGiven
  · simp only [and_self, if_true, reduceCtorEq, false_iff]
    intro h
    exact h.one_surface (h1.trans h2.symm)
  · simp only [Bool.true_eq_false, Bool.false_eq_true, and_false, false_and, if_false, hin]
    exact ⟨fun h => ⟨by simp [h1, h2], h.1, h.2⟩, fun h => ⟨h.objective, h.constraints⟩⟩
  · simp only [Bool.true_eq_false, Bool.false_eq_true, and_false, false_and, if_false, hin]
    exact ⟨fun h => ⟨by simp [h1, h2], h.1, h.2⟩, fun h => ⟨h.objective, h.constraints⟩⟩
  · simp only [Bool.true_eq_false, and_self, if_false, if_true, reduceCtorEq, false_iff]
    intro h
    exact h.one_surface (h1.trans h2.symm)

example : Documented ⟨true, false, .tuple 2, .array [2], .tuple 2, .tuple 1, .tuple 1, .tuple 1, .array [1]⟩ :=
  ⟨by simp, Or.inr ⟨2, rfl, rfl, rfl⟩, ⟨1, rfl, rfl, rfl, rfl⟩⟩

/-! ## C29 and C30 -/

theorem lookup_cons_ite {β : Type} (a : String) (b : β) (l : List (String × β)) (j : String) :
    ((a, b) :: l).lookup j = if j = a then some b else l.lookup j := by
  rw [List.lookup_cons]
  by_cases h : j = a
  · simp [h]
  · have : (j == a) = false := by simpa using h
    simp [h, this]

theorem mem_dictSet_lookup {β : Type} (d : List (String × β)) (k j : String) (v : β) :
    (dictSet d k v).lookup j = if j = k then some v else d.lookup j := by
  unfold dictSet
  induction d with
  | nil => simp [lookup_cons_ite]
  | cons kv d ih =>
    obtain ⟨a, b⟩ := kv
    rw [lookup_cons_ite, List.filter_cons]
    by_cases hak : a = k
    · subst hak
      rw [if_neg (by simp), ih]
      by_cases hj : j = a <;> simp [hj]
    · rw [if_pos (by simpa using hak), List.cons_append, lookup_cons_ite, ih]
      by_cases hj : j = a
      · subst hj
        simp [hak]
      · simp [hj]

/-- What every metric's entry of the gradient-mode loop looks like: the accumulated entries survive unless overwritten. -/
theorem gradientOut_lookup {V : Type} (fObj : V) (metric : String → Except PyErr V) (a : YArgs) (names : List String)
    (acc out : List (String × MetricOut V))
    (h : names.foldlM (gradientStep fObj metric a) acc = .ok out) (n : String) :
    (n ∈ names → ∃ v, out.lookup n = some ⟨v, some ((yKeys a).map fun k => "df_d" ++ k)⟩ ∧
      (if n = "f_obj" then v = fObj else metric n = .ok v)) ∧ (n ∉ names → out.lookup n = acc.lookup n) := by
  induction names generalizing acc with
  | nil =>
    simp only [List.foldlM_nil, pure, Except.pure, Except.ok.injEq] at h
    subst h
    simp
  | cons m names ih =>
    simp only [List.foldlM_cons, gradientStep] at h
    have hr : ∃ r, (if m = "f_obj" then .ok fObj else metric m) = Except.ok (ε := PyErr) r := by
      by_cases hm : m = "f_obj"
      · exact ⟨fObj, if_pos hm⟩
      · rw [if_neg hm] at h ⊢
        cases hmm : metric m with
        | ok r => exact ⟨r, rfl⟩
        | error e => rw [hmm] at h; simp [bind, Except.bind] at h
    obtain ⟨r, hr⟩ := hr
    have h : List.foldlM (gradientStep fObj metric a)
        (dictSet acc m ⟨r, some ((yKeys a).map fun k => "df_d" ++ k)⟩) names = .ok out := by
      by_cases hm : m = "f_obj"
      · rw [if_pos hm] at h hr
        cases hr
        exact h
      · rw [if_neg hm] at h hr
        rw [hr] at h
        exact h
    obtain ⟨ih1, ih2⟩ := ih _ h
    constructor
    · intro hn
      by_cases hn' : n ∈ names
      · exact ih1 hn'
      · have : n = m := by simpa [hn'] using hn
        subst this
        refine ⟨r, ?_, ?_⟩
        · rw [ih2 hn', mem_dictSet_lookup, if_pos rfl]
        · by_cases hf : n = "f_obj"
          · simp only [hf, if_true, Except.ok.injEq] at hr ⊢
            exact hr.symm
          · simpa [hf] using hr
    · intro hn
      simp only [List.mem_cons, not_or] at hn
      rw [ih2 hn.2, mem_dictSet_lookup, if_neg hn.1]

/-- **C29.** In gradient mode every requested metric has a gradient dictionary with exactly the documented keys, each once. -/
theorem C29_gradient_keys {V : Type} (fObj : V) (metric : String → Except PyErr V) (a : YArgs) (names : List String)
    (out : List (String × MetricOut V)) (h : gradientOut fObj metric a names = .ok out) (n : String) (hn : n ∈ names) :
    ∃ v keys, out.lookup n = some ⟨v, some keys⟩ ∧ keys.Nodup ∧ ∀ k, k ∈ keys ↔
      k = "df_dplasma_dofs" ∨ k = "df_dnet_poloidal_current_amperes" ∨ k = "df_dnet_toroidal_current_amperes" ∨
      (k = "df_dobjective_weight" ∧ a.objectiveIsString = false) ∨ (k = "df_dconstraint_value" ∧ 0 < a.nConstraints) ∨
      (k = "df_dBnormal_plasma" ∧ a.bnormalPlasmaGiven = true) ∨
      (k = "df_dplasma_coil_distance" ∧ a.plasmaCoilDistanceGiven = true) ∨
      (k = "df_dwinding_dofs" ∧ a.plasmaCoilDistanceGiven = false) := by
  obtain ⟨v, hv, -⟩ := (gradientOut_lookup fObj metric a names [] out h n).1 hn
  refine ⟨v, _, hv, ?_, ?_⟩
  · obtain ⟨o, c, b, p⟩ := a
    simp only [yKeys]
    cases o <;> cases b <;> cases p <;> by_cases hc : 0 < c <;> simp [hc]
  · intro k
    obtain ⟨o, c, b, p⟩ := a
    simp only [yKeys]
    cases o <;> cases b <;> cases p <;> by_cases hc : 0 < c <;> simp [hc]

example : gradientOut (V := ℕ) 7 (fun _ => .ok 3) ⟨false, 1, true, false⟩ ["f_B", "f_obj"] =
    .ok [("f_B", ⟨3, some ["df_dplasma_dofs", "df_dnet_poloidal_current_amperes", "df_dnet_toroidal_current_amperes",
      "df_dobjective_weight", "df_dconstraint_value", "df_dBnormal_plasma", "df_dwinding_dofs"]⟩),
      ("f_obj", ⟨7, some ["df_dplasma_dofs", "df_dnet_poloidal_current_amperes", "df_dnet_toroidal_current_amperes",
      "df_dobjective_weight", "df_dconstraint_value", "df_dBnormal_plasma", "df_dwinding_dofs"]⟩)] := rfl

/-- **C30, gradient mode.** Every requested metric is reported with its value. -/
theorem C30_gradient_mode_reports_all_partial {V : Type} (fObj : V) (metric : String → Except PyErr V) (a : YArgs)
    (names : List String) (out : List (String × MetricOut V)) (h : gradientOut fObj metric a names = .ok out) (n : String)
    (hn : n ∈ names) :
    ∃ v keys, out.lookup n = some ⟨v, keys⟩ ∧ (if n = "f_obj" then v = fObj else metric n = .ok v) := by
  obtain ⟨v, hv, h2⟩ := (gradientOut_lookup fObj metric a names [] out h n).1 hn
  exact ⟨v, _, hv, h2⟩

theorem valueOnlyOut_lookup {V : Type} (metric : String → Except PyErr V) (names : List String)
    (acc out : List (String × MetricOut V))
    (h : names.foldlM (valueOnlyStep metric) acc = .ok out) (n : String) :
    (n ∈ names → n ≠ "f_obj" → ∃ v, out.lookup n = some ⟨v, none⟩ ∧ metric n = .ok v) ∧
      (n ∉ names ∨ n = "f_obj" → out.lookup n = acc.lookup n) := by
  induction names generalizing acc with
  | nil =>
    simp only [List.foldlM_nil, pure, Except.pure, Except.ok.injEq] at h
    subst h
    simp
  | cons m names ih =>
    simp only [List.foldlM_cons, valueOnlyStep] at h
    by_cases hm : m = "f_obj"
    · rw [if_pos hm] at h
      simp only [bind, Except.bind] at h
      obtain ⟨ih1, ih2⟩ := ih _ h
      constructor
      · intro hn hne
        exact ih1 (by
          rcases List.mem_cons.1 hn with rfl | hn
          · exact absurd hm hne
          · exact hn) hne
      · rintro (hn | hn)
        · exact ih2 (Or.inl fun hh => hn (List.mem_cons_of_mem _ hh))
        · exact ih2 (Or.inr hn)
    · rw [if_neg hm] at h
      cases hr : metric m with
      | error e => rw [hr] at h; simp [bind, Except.bind] at h
      | ok r =>
        rw [hr] at h
        simp only [bind, Except.bind] at h
        obtain ⟨ih1, ih2⟩ := ih _ h
        constructor
        · intro hn hne
          by_cases hn' : n ∈ names
          · exact ih1 hn' hne
          · have : n = m := by simpa [hn'] using hn
            subst this
            exact ⟨r, by rw [ih2 (Or.inl hn'), mem_dictSet_lookup, if_pos rfl], hr⟩
        · rintro (hn | hn)
          · simp only [List.mem_cons, not_or] at hn
            rw [ih2 (Or.inl hn.2), mem_dictSet_lookup, if_neg hn.1]
          · rw [ih2 (Or.inr hn), mem_dictSet_lookup, if_neg (by rw [hn]; exact fun h => hm h.symm)]

/-- **C30, value-only mode, true part.** Every requested metric other than `f_obj` is reported with its value. -/
theorem C30_value_only_reports_others_partial {V : Type} (metric : String → Except PyErr V)
    (names : List String) (out : List (String × MetricOut V)) (h : valueOnlyOut metric names = .ok out) (n : String)
    (hn : n ∈ names) (hne : n ≠ "f_obj") : ∃ v, out.lookup n = some ⟨v, none⟩ ∧ metric n = .ok v :=
  (valueOnlyOut_lookup metric names [] out h n).1 hn hne

/-- **C30, false of the code.** In value-only mode the metric `f_obj` is never reported, whatever the metric list. -/
theorem C30_value_only_drops_f_obj_violated_partial {V : Type} (metric : String → Except PyErr V)
    (names : List String) (out : List (String × MetricOut V)) (h : valueOnlyOut metric names = .ok out) :
    out.lookup "f_obj" = none :=
  (valueOnlyOut_lookup metric names [] out h "f_obj").2 (Or.inr rfl)

example : valueOnlyOut (V := ℕ) (fun _ => .ok 3) ["f_obj", "f_B"] = .ok [("f_B", ⟨3, none⟩)] := rfl

/-! ## C73 -/

theorem unravelLike_ravel (t d : List (String × Val)) (rest : List ℝ)
    (hshape : List.Forall₂ (fun a b => a.1 = b.1 ∧
      ((∃ x y, a.2 = Val.scalar x ∧ b.2 = Val.scalar y) ∨
        ∃ x y, a.2 = Val.array x ∧ b.2 = Val.array y ∧ x.length = y.length)) t d) :
    unravelLike t (ravel d ++ rest) = d := by
  induction hshape with
  | nil => rfl
  | cons hab _ ih =>
    rename_i a b t' d' _
    obtain ⟨ka, va⟩ := a
    obtain ⟨kb, vb⟩ := b
    obtain ⟨rfl, hs⟩ := hab
    rcases hs with ⟨x, y, rfl, rfl⟩ | ⟨x, y, rfl, rfl, hl⟩
    · change (ka, Val.scalar y) :: unravelLike t' (ravel d' ++ rest) = _
      rw [ih]
    · change unravelLike ((ka, Val.array x) :: t') ((y ++ ravel d') ++ rest) = _
      rw [List.append_assoc, unravelLike, hl, List.take_left, List.drop_left, ih]

/-- **C73.** Flattening any dictionary of unknowns and unflattening it with the shapes of the initial one gives the
dictionary back. -/
theorem C73_flatten_roundtrip (t d : List (String × Val))
    (hshape : List.Forall₂ (fun a b => a.1 = b.1 ∧
      ((∃ x y, a.2 = Val.scalar x ∧ b.2 = Val.scalar y) ∨
        ∃ x y, a.2 = Val.array x ∧ b.2 = Val.array y ∧ x.length = y.length)) t d) :
    unravelLike t (ravel d) = d := by
  simpa using unravelLike_ravel t d [] hshape

theorem lookup_append_of_not_mem {β : Type} (l r : List (String × β)) (k : String) (h : ∀ kv ∈ l, kv.1 ≠ k) :
    (l ++ r).lookup k = r.lookup k := by
  induction l with
  | nil => rfl
  | cons a l ih =>
    obtain ⟨ka, va⟩ := a
    rw [List.cons_append, lookup_cons_ite, if_neg (Ne.symm (h _ (List.mem_cons_self ..)))]
    exact ih fun kv hkv => h kv (List.mem_cons_of_mem _ hkv)

theorem lookup_filter_ne {β : Type} (l : List (String × β)) (k j : String) (h : j ≠ k) :
    (l.filter fun kv => kv.1 ≠ k).lookup j = l.lookup j := by
  induction l with
  | nil => rfl
  | cons a l ih =>
    obtain ⟨ka, va⟩ := a
    rw [List.filter_cons, lookup_cons_ite]
    by_cases hk : ka = k
    · subst hk
      rw [if_neg (by simp), ih, if_neg h]
    · rw [if_pos (by simpa using hk), lookup_cons_ite, ih]

/-- **C73.** The solve starts at the potential coefficients the user gave, and the slack variables start at their initial
values, if the unit of phi is not zero. -/
theorem C73_start_is_phi_init (phiInit : List ℝ) (phiUnit : ℝ) (hu : phiUnit ≠ 0) (aux : List (String × Val))
    (haux : ∀ kv ∈ aux, kv.1 ≠ "phi" ∧ kv.1 ≠ "phi_scaled") :
    ∃ dofs, unravelUnscale (xDict phiInit phiUnit aux) phiUnit (ravel (xDict phiInit phiUnit aux)) = some dofs ∧
      dofs.lookup "phi" = some (.array phiInit) ∧ (∀ k, k ≠ "phi" → k ≠ "phi_scaled" → dofs.lookup k = aux.lookup k) ∧
      dofs.lookup "phi_scaled" = none := by
  have hself : unravelLike (xDict phiInit phiUnit aux) (ravel (xDict phiInit phiUnit aux)) = xDict phiInit phiUnit aux := by
    apply C73_flatten_roundtrip
    rw [List.forall₂_same]
    rintro ⟨k, v⟩ -
    refine ⟨rfl, ?_⟩
    cases v with
    | scalar x => exact Or.inl ⟨x, x, rfl, rfl⟩
    | array x => exact Or.inr ⟨x, x, rfl, rfl, rfl⟩
  have hps : (xDict phiInit phiUnit aux).lookup "phi_scaled" = some (Val.array (phiInit.map fun t => t / phiUnit)) := by
    rw [xDict, lookup_append_of_not_mem _ _ _ fun kv h => (haux kv h).2]
    simp [List.lookup]
  have hscale : Val.map (fun t => t * phiUnit) (Val.array (phiInit.map fun t => t / phiUnit)) = .array phiInit := by
    simp only [Val.map, List.map_map]
    congr 1
    conv_rhs => rw [← List.map_id phiInit]
    apply List.map_congr_left
    intro t _
    simp [hu]
  refine ⟨_, by simp only [unravelUnscale, hself, hps, Option.map_some]; rfl, ?_, ?_, ?_⟩
  · rw [hscale, lookup_filter_ne _ _ _ (by decide), mem_dictSet_lookup, if_pos rfl]
  · intro k h1 h2
    rw [lookup_filter_ne _ _ _ h2, mem_dictSet_lookup, if_neg h1, xDict]
    clear hself hps
    induction aux with
    | nil =>
      simp [lookup_cons_ite, h2]
    | cons a aux ih =>
      obtain ⟨ka, va⟩ := a
      rw [List.cons_append, lookup_cons_ite, lookup_cons_ite, ih fun kv h => haux kv (List.mem_cons_of_mem _ h)]
  · rw [List.lookup_eq_none_iff]
    rintro kv hkv
    have := (List.mem_filter.1 hkv).2
    simp only [ne_eq, decide_eq_true_eq] at this
    simpa using Ne.symm this

example : ∀ kv ∈ [("scaled_max_Phi", Val.scalar 1)], kv.1 ≠ "phi" ∧ kv.1 ≠ "phi_scaled" := by simp

/-! ## C75 -/

/-- **C75, true part.** Without merging, a problem with no constraint functions takes the unconstrained path, and one with
constraint functions does not. -/
theorem C75_unconstrained_iff_partial (nG nH : ℕ) : isUnconstrained false nG nH = true ↔ nG = 0 ∧ nH = 0 := by
  simp [isUnconstrained]

/-- **C75, false of the code.** With `merge_constraints=True` no problem is ever treated as unconstrained, not even one
without any constraint function. -/
theorem C75_merge_never_unconstrained_violated_partial (nG nH : ℕ) : isUnconstrained true nG nH = false := by
  simp [isUnconstrained]

end Verif
