import Verif.Lemmas.ListedParse
import Verif.Props.UnitWitness

/-!
# C157: the order in which objectives and constraints are listed does not matter
-/

namespace Verif

variable {P : Type} [HasQp P] {reg : Registry P} {sm : Option String} {sp : SmoothingParams}

/-! ## Parsing -/

theorem zipRequests_listing (cons : List Request) :
    zipRequests (cons.map Request.name) (cons.map Request.type) (cons.map Request.unit) (cons.map Request.value) = cons := by
  induction cons with
  | nil => rfl
  | cons r rs ih => simpa [zipRequests] using ih

/-- The options of a call with these objectives and constraints. -/
def QuadcoilArgs.listing (a : QuadcoilArgs) (objs : List ObjectiveItem) (cons : List Request) : QuadcoilArgs :=
  { a with
      objectiveName := .many (objs.map ObjectiveItem.name)
      objectiveUnit := .many (objs.map ObjectiveItem.unit)
      objectiveWeight := .many (objs.map ObjectiveItem.weight)
      constraintName := cons.map Request.name
      constraintType := cons.map Request.type
      constraintUnit := cons.map Request.unit
      constraintValue := cons.map Request.value }

/-- The parts of all objectives and constraints, joined. -/
noncomputable def joinedVal (reg : Registry P) (sm : Option String) (sp : SmoothingParams) (objs : List ObjectiveItem) (cons : List Request) :
    Joined P where
  f := fTot (objs.map fun o => (objVal reg sm sp o).val) (objs.map ObjectiveItem.weight)
  g := (objs.flatMap fun o => (objVal reg sm sp o).g) ++ cons.flatMap fun r => (conVal reg sm sp r).g
  h := (objs.flatMap fun o => (objVal reg sm sp o).h) ++ cons.flatMap fun r => (conVal reg sm sp r).h
  slack := dictUnion ((objs.map fun o => (objVal reg sm sp o).slack).foldl dictUnion [])
    ((cons.map fun r => (conVal reg sm sp r).slack).foldl dictUnion [])

/-- The problem made from joined parts. -/
noncomputable def fghOf (qp : P) (a : QuadcoilArgs) (j : Joined P) : Fgh P where
  f := fun x => j.f qp x
  g := fun x => mergeCallables (j.g.map some) a.mergeConstraints a.smoothing a.sp qp x
  h := fun x => mergeCallables (j.h.map some) false none a.sp qp x
  nG := if a.mergeConstraints then 1 else j.g.length
  nH := j.h.length
  slack := j.slack

/-- All parts are accepted. -/
def AllOk (reg : Registry P) (sm : Option String) (sp : SmoothingParams) (objs : List ObjectiveItem) (cons : List Request) : Prop :=
  (∀ o ∈ objs, ∃ c, objPart reg sm sp o = .ok c) ∧ ∀ r ∈ cons, ∃ c, conPart reg sm sp r = .ok c

theorem fghFromY_listing (qp : P) (a : QuadcoilArgs) (objs : List ObjectiveItem) (cons : List Request) (p : Fgh P) :
    fghFromY reg qp (a.listing objs cons) = .ok p ↔
      AllOk reg a.smoothing a.sp objs cons ∧ p = fghOf qp a (joinedVal reg a.smoothing a.sp objs cons) := by
  have hv : (if (a.listing objs cons).constraintName.length > 0 then (a.listing objs cons).constraintValue else []) = cons.map Request.value := by
    cases cons <;> simp [QuadcoilArgs.listing]
  unfold fghFromY
  rw [hv]
  simp only [QuadcoilArgs.listing, parseObjectives, parseConstraints, List.length_map, ne_eq, not_true_eq_false, or_self, if_false,
    zipRequests_listing]
  cases ho : parseObjLoop reg a.smoothing a.sp (objs.map ObjectiveItem.name) (objs.map ObjectiveItem.unit) ⟨[], [], [], []⟩ with
  | error e =>
    simp only [bind, Except.bind, reduceCtorEq, false_iff]
    rintro ⟨⟨h, -⟩, -⟩
    rw [(objLoop_parts objs _ _).2 ⟨h, rfl⟩] at ho
    cases ho
  | ok O =>
    obtain ⟨h1, rfl⟩ := (objLoop_parts objs _ _).1 ho
    simp only [bind, Except.bind]
    cases hc : cons.foldlM (parseStep reg a.smoothing a.sp) ⟨[], [], []⟩ with
    | error e =>
      simp only [reduceCtorEq, false_iff]
      rintro ⟨⟨-, h⟩, -⟩
      rw [(foldlM_parts cons _ _).2 ⟨h, rfl⟩] at hc
      cases hc
    | ok C =>
      obtain ⟨h2, rfl⟩ := (foldlM_parts cons _ _).1 hc
      simp only [Except.ok.injEq]
      constructor
      · rintro rfl
        refine ⟨⟨h1, h2⟩, ?_⟩
        simp [fghOf, joinedVal, joinParsed]
      · rintro ⟨-, rfl⟩
        simp [fghOf, joinedVal, joinParsed]

variable {objs' objs : List ObjectiveItem} {cons' cons : List Request}

theorem AllOk.perm (h : AllOk reg sm sp objs cons) (ho : objs'.Perm objs) (hc : cons'.Perm cons) : AllOk reg sm sp objs' cons' :=
  ⟨fun o hm => h.1 o (ho.mem_iff.1 hm), fun r hm => h.2 r (hc.mem_iff.1 hm)⟩

theorem objVal_eq {o : ObjectiveItem} {c : Added P} (h : objPart reg sm sp o = .ok c) : objVal reg sm sp o = c := by rw [objVal, h]

theorem conVal_eq {r : Request} {c : Parsed P} (h : conPart reg sm sp r = .ok c) : conVal reg sm sp r = c := by rw [conVal, h]

/-- The units of repeated quantities agree, if they matter. -/
def UnitsAgree (sm : Option String) (objs : List ObjectiveItem) (cons : List Request) : Prop :=
  sm = some "slack" → OneUnitEach (objs.map fun o => (o.name, o.unit)) ∧ OneUnitEach (cons.map fun r => (r.name, r.unit))

theorem joined_slack_lookup (hown : AuxOwned reg) (h : AllOk reg sm sp objs' cons') (ho : objs'.Perm objs) (hc : cons'.Perm cons)
    (hu : UnitsAgree sm objs' cons') (k : String) :
    (joinedVal reg sm sp objs' cons').slack.lookup k = (joinedVal reg sm sp objs cons).slack.lookup k := by
  simp only [joinedVal, C94_union_lookup]
  rw [foldl_union_perm (ho.map _) ?_, foldl_union_perm (hc.map _) ?_]
  · intro d hd e he k v w hv hw
    obtain ⟨o, hm, rfl⟩ := List.mem_map.1 hd
    obtain ⟨o', hm', rfl⟩ := List.mem_map.1 he
    obtain ⟨c, hcc⟩ := h.2 o hm
    obtain ⟨c', hcc'⟩ := h.2 o' hm'
    rw [conVal_eq hcc] at hv
    rw [conVal_eq hcc'] at hw
    obtain ⟨A, hA, e⟩ := conPart_added hcc
    obtain ⟨A', hA', e'⟩ := conPart_added hcc'
    rw [e] at hv
    rw [e'] at hw
    exact slack_agree hown hA hA' (fun hs hn => (hu hs).2 _ (List.mem_map.2 ⟨o, hm, rfl⟩) _ (List.mem_map.2 ⟨o', hm', rfl⟩) hn) hv hw
  · intro d hd e he k v w hv hw
    obtain ⟨o, hm, rfl⟩ := List.mem_map.1 hd
    obtain ⟨o', hm', rfl⟩ := List.mem_map.1 he
    obtain ⟨c, hcc⟩ := h.1 o hm
    obtain ⟨c', hcc'⟩ := h.1 o' hm'
    rw [objVal_eq hcc] at hv
    rw [objVal_eq hcc'] at hw
    exact slack_agree hown hcc hcc' (fun hs hn => (hu hs).1 _ (List.mem_map.2 ⟨o, hm, rfl⟩) _ (List.mem_map.2 ⟨o', hm', rfl⟩) hn) hv hw

theorem foldl_slackOk {ds : List (List (String × (P → Dofs → Val)))} (h : ∀ d ∈ ds, SlackOk reg d) {acc : List (String × (P → Dofs → Val))}
    (ha : SlackOk reg acc) : SlackOk reg (ds.foldl dictUnion acc) := by
  induction ds generalizing acc with
  | nil => exact ha
  | cons d ds ih =>
    exact ih (fun e he => h e (List.mem_cons_of_mem _ he)) (slackOk_union ha (h d (List.mem_cons_self ..)))

theorem joined_slackOk (hreg : AuxNames reg) (h : AllOk reg sm sp objs cons) : SlackOk reg (joinedVal reg sm sp objs cons).slack := by
  refine slackOk_union (foldl_slackOk (fun d hd => ?_) (slackOk_nil reg)) (foldl_slackOk (fun d hd => ?_) (slackOk_nil reg))
  · obtain ⟨o, hm, rfl⟩ := List.mem_map.1 hd
    obtain ⟨c, hcc⟩ := h.1 o hm
    rw [objVal_eq hcc]
    exact slackOk_added hreg hcc
  · obtain ⟨o, hm, rfl⟩ := List.mem_map.1 hd
    obtain ⟨c, hcc⟩ := h.2 o hm
    rw [conVal_eq hcc]
    obtain ⟨A, hA, e⟩ := conPart_added hcc
    rw [e]
    exact slackOk_added hreg hA

theorem joined_static {qp : P} (hst : StaticRegistry reg qp) (h : AllOk reg sm sp objs cons) :
    (∀ fn ∈ (joinedVal reg sm sp objs cons).g, Static (fn qp)) ∧ ∀ fn ∈ (joinedVal reg sm sp objs cons).h, Static (fn qp) := by
  constructor <;>
  · intro fn hfn
    simp only [joinedVal, List.mem_append, List.mem_flatMap] at hfn
    rcases hfn with ⟨o, hm, hfn⟩ | ⟨r, hm, hfn⟩
    · obtain ⟨c, hcc⟩ := h.1 o hm
      rw [objVal_eq hcc] at hfn
      first
      | exact (added_static hst hcc).2.1 fn hfn
      | exact (added_static hst hcc).2.2 fn hfn
    · first
      | exact (conVal_static hst (h.2 r hm)).1 fn hfn
      | exact (conVal_static hst (h.2 r hm)).2 fn hfn

/-! ## The initial vector -/

theorem xTemplate_perm (hreg : AuxNames reg) {s' s : List (String × (P → Dofs → Val))} (h' : SlackOk reg s') (h : SlackOk reg s)
    (hl : ∀ k, s'.lookup k = s.lookup k) (qp : P) (phiInit : List ℝ) (phiUnit : ℝ) :
    xTemplate qp phiInit phiUnit s' = xTemplate qp phiInit phiUnit s :=
  sortKeys_eq_of_perm (template_nodup hreg h' qp phiInit phiUnit) (((perm_of_lookup h'.1 h.1 hl).map _).cons _)

/-! ## The constraint functions -/

theorem maxLse_perm {l' l : List ℝ} (h : l'.Perm l) (eps : ℝ) : maxLse l' eps = maxLse l eps := by
  unfold maxLse
  rw [(h.map _).sum_eq]

/-- The joined constraint functions in another order: an error in both cases, or one rearrangement for all values of the unknowns. -/
theorem merge_perm {fs' fs : List (P → Dofs → Val)} (h : fs'.Perm fs) {qp : P} (hst : ∀ fn ∈ fs, Static (fn qp)) (merge : Bool)
    (sm : Option String) (sp : SmoothingParams) (d0 : Dofs) :
    (∃ e' e, mergeCallables (fs'.map some) merge sm sp qp d0 = .error e' ∧ mergeCallables (fs.map some) merge sm sp qp d0 = .error e) ∨
    ∃ m R, Rearranges m R ∧ ∀ d, SameShapes d d0 → ∃ l, mergeCallables (fs.map some) merge sm sp qp d = .ok l ∧ l.length = m ∧
      mergeCallables (fs'.map some) merge sm sp qp d = .ok (R l) := by
  have hfm : ∀ fs : List (P → Dofs → Val), (fs.map some).filterMap id = fs := fun fs => by
    rw [List.filterMap_map]
    exact List.filterMap_some
  by_cases hnil : fs = []
  · subst hnil
    obtain rfl := h.eq_nil
    exact .inr ⟨0, id, .id 0, fun d _ => ⟨[], by simp [mergeCallables], rfl, by simp [mergeCallables]⟩⟩
  have hnil' : fs' ≠ [] := by
    rintro rfl
    exact hnil h.symm.eq_nil
  have l1 : ∀ d, (fs.map fun fn => (fn qp d).entries).length ≠ 0 := fun _ => by simpa using hnil
  have l2 : ∀ d, (fs'.map fun fn => (fn qp d).entries).length ≠ 0 := fun _ => by simpa using hnil'
  simp only [mergeCallables, hfm, if_neg (l1 _), if_neg (l2 _)]
  cases merge with
  | true =>
    simp only [if_true]
    by_cases hsm : sm = some "approx"
    · simp only [if_pos hsm]
      -- all outputs have the same length
      have key : ∀ (d : Dofs) (gs : List (P → Dofs → Val)), gs ≠ [] →
          (((gs.map fun fn => (fn qp d).entries).all fun o =>
            decide (o.length = ((gs.map fun fn => (fn qp d).entries).headD []).length)) = true ↔
            ∀ fn ∈ gs, ∀ fn' ∈ gs, (fn qp d).entries.length = (fn' qp d).entries.length) := by
        intro d gs hgs
        obtain ⟨g0, gs, rfl⟩ := List.exists_cons_of_ne_nil hgs
        simp only [List.map_cons, List.headD_cons, List.all_cons, decide_true, Bool.true_and, List.all_eq_true, List.mem_map,
          decide_eq_true_eq, forall_exists_index, and_imp, forall_apply_eq_imp_iff₂]
        constructor
        · intro H
          have H' : ∀ fn ∈ g0 :: gs, (fn qp d).entries.length = (g0 qp d).entries.length := List.forall_mem_cons.2 ⟨rfl, H⟩
          exact fun fn hfn fn' hfn' => (H' fn hfn).trans (H' fn' hfn').symm
        · intro H fn hfn
          exact H fn (List.mem_cons_of_mem _ hfn) g0 (List.mem_cons_self ..)
      have hp : ∀ d, (∀ fn ∈ fs', ∀ fn' ∈ fs', (fn qp d).entries.length = (fn' qp d).entries.length) ↔
          ∀ fn ∈ fs, ∀ fn' ∈ fs, (fn qp d).entries.length = (fn' qp d).entries.length := by
        intro d
        simp only [h.mem_iff]
      by_cases hall : ∀ fn ∈ fs, ∀ fn' ∈ fs, (fn qp d0).entries.length = (fn' qp d0).entries.length
      · refine .inr ⟨1, id, .id 1, fun d hd => ?_⟩
        have hall' : ∀ fn ∈ fs, ∀ fn' ∈ fs, (fn qp d).entries.length = (fn' qp d).entries.length := by
          intro fn hfn fn' hfn'
          rw [(hst fn hfn d d0 hd).length, (hst fn' hfn' d d0 hd).length]
          exact hall fn hfn fn' hfn'
        rw [if_pos ((key d fs hnil).2 hall'), if_pos ((key d fs' hnil').2 ((hp d).2 hall'))]
        refine ⟨_, rfl, rfl, ?_⟩
        rw [maxLse_perm (h.map _).flatten]
        rfl
      · left
        rw [if_neg (fun H => hall ((key d0 fs hnil).1 H)), if_neg (fun H => hall ((hp d0).1 ((key d0 fs' hnil').1 H)))]
        exact ⟨_, _, rfl, rfl⟩
    · simp only [if_neg hsm]
      exact .inl ⟨_, _, rfl, rfl⟩
  | false =>
    right
    simp only [Bool.false_eq_true, if_false]
    obtain ⟨R, hR, he⟩ := Rearranges.of_perm (D := { d // SameShapes d d0 }) (e := fun (fn : P → Dofs → Val) d => (fn qp d.1).entries) h
      (len := fun fn => (fn qp d0).entries.length) fun fn hfn d => (hst fn hfn d.1 d0 d.2).length
    refine ⟨_, R, hR, fun d hd => ⟨_, rfl, ?_, ?_⟩⟩
    · rw [List.length_flatten, List.map_map]
      congr 1
      exact List.map_congr_left fun fn hfn => (hst fn hfn d d0 hd).length
    · rw [he ⟨d, hd⟩]

/-! ## The problem passed to the solver -/

/-- The same problem with rearranged constraints. -/
structure ReorderedSetup (S' S : Setup) : Prop where
  template : S'.template = S.template
  phiUnit : S'.phiUnit = S.phiUnit
  unconstrained : S'.unconstrained = S.unconstrained
  x0 : S'.x0 = S.x0
  f : S'.problem.f = S.problem.f
  problem : ∃ m k R T, Rearranged S.x0.length m k R T S.problem S'.problem

theorem replicate_rearrange {m : ℕ} {R : List ℝ → List ℝ} (h : Rearranges m R) : R (List.replicate m 0) = List.replicate m 0 :=
  List.perm_replicate.1 (h.perm _ (by simp))

theorem fghFromY_both (qp : P) (a : QuadcoilArgs) (ho : objs'.Perm objs) (hc : cons'.Perm cons) :
    ((∃ e', fghFromY reg qp (a.listing objs' cons') = .error e') ∧ ∃ e, fghFromY reg qp (a.listing objs cons) = .error e) ∨
    (AllOk reg a.smoothing a.sp objs cons ∧
      fghFromY reg qp (a.listing objs' cons') = .ok (fghOf qp a (joinedVal reg a.smoothing a.sp objs' cons')) ∧
      fghFromY reg qp (a.listing objs cons) = .ok (fghOf qp a (joinedVal reg a.smoothing a.sp objs cons))) := by
  by_cases h : AllOk reg a.smoothing a.sp objs cons
  · exact .inr ⟨h, (fghFromY_listing ..).2 ⟨h.perm ho hc, rfl⟩, (fghFromY_listing ..).2 ⟨h, rfl⟩⟩
  · left
    constructor
    · cases h' : fghFromY reg qp (a.listing objs' cons') with
      | error e => exact ⟨e, rfl⟩
      | ok p => exact absurd (((fghFromY_listing ..).1 h').1.perm ho.symm hc.symm) h
    · cases h' : fghFromY reg qp (a.listing objs cons) with
      | error e => exact ⟨e, rfl⟩
      | ok p => exact absurd ((fghFromY_listing ..).1 h').1 h

/-- The last part of `quadcoilSetup`. -/
noncomputable def setupFrom (a : QuadcoilArgs) (u : ℝ) (t : List (String × Val)) (f : Dofs → Val) (g h : Dofs → Except PyErr (List ℝ))
    (nG nH : ℕ) : Except PyErr Setup := do
  let g0 ← g (dofsOf t u (ravel t))
  let h0 ← h (dofsOf t u (ravel t))
  if (f (dofsOf t u (ravel t))).isScalar = false then .error .typeError
  else .ok {
    template := t
    phiUnit := u
    unconstrained := nG == 0 && nH == 0
    x0 := ravel t
    problem := {
      f := fun x => (f (dofsOf t u x)).entries.headD 0
      g := fun x => okList (g (dofsOf t u x))
      h := fun x => okList (h (dofsOf t u x))
      cInit := a.cInit
      cGrowth := a.cGrowth
      lamInit := List.replicate h0.length 0
      muInit := List.replicate g0.length 0
      xstopOuter := a.xstopOuter
      ctolOuter := a.ctolOuter
      fstopInner := a.fstopInner
      xstopInner := a.xstopInner
      gtolInner := a.gtolInner
      fstopInnerLast := a.fstopInnerLast
      xstopInnerLast := a.xstopInnerLast
      gtolInnerLast := a.gtolInnerLast
      maxiterTot := a.maxiterTot
      maxiterInner := a.maxiterInner
      cSafe := 1e15 } }

theorem quadcoilSetup_from (qp : P) (a : QuadcoilArgs) (os : List ObjectiveItem) (cs : List Request) (u : ℝ) {p : Fgh P}
    (h : fghFromY reg qp (a.listing os cs) = .ok p) : quadcoilSetup reg qp (a.listing os cs) u =
      setupFrom a u (xTemplate qp (a.phiInit.getD (List.replicate (HasQp.ndofs qp) 0)) u p.slack) p.f p.g p.h p.nG p.nH := by
  unfold quadcoilSetup
  rw [h]
  rfl

theorem setupFrom_perm (a : QuadcoilArgs) (u : ℝ) {t : List (String × Val)} {s : Val} (hphis : t.lookup "phi_scaled" = some s)
    (f : Dofs → Val) {gs' gs hs' hs : List (P → Dofs → Val)} (qp : P) (hg : gs'.Perm gs) (hh : hs'.Perm hs)
    (sg : ∀ fn ∈ gs, Static (fn qp)) (sh : ∀ fn ∈ hs, Static (fn qp)) (nG nH : ℕ) :
    ((∃ e', setupFrom a u t f (mergeCallables (gs'.map some) a.mergeConstraints a.smoothing a.sp qp)
        (mergeCallables (hs'.map some) false none a.sp qp) nG nH = .error e') ∧
      ∃ e, setupFrom a u t f (mergeCallables (gs.map some) a.mergeConstraints a.smoothing a.sp qp)
        (mergeCallables (hs.map some) false none a.sp qp) nG nH = .error e) ∨
    ∃ S' S, setupFrom a u t f (mergeCallables (gs'.map some) a.mergeConstraints a.smoothing a.sp qp)
        (mergeCallables (hs'.map some) false none a.sp qp) nG nH = .ok S' ∧
      setupFrom a u t f (mergeCallables (gs.map some) a.mergeConstraints a.smoothing a.sp qp)
        (mergeCallables (hs.map some) false none a.sp qp) nG nH = .ok S ∧ ReorderedSetup S' S := by
  have hshape : ∀ x : List ℝ, x.length = (ravel t).length → SameShapes (dofsOf t u x) (dofsOf t u (ravel t)) :=
    fun x hx => dofsOf_sameShapes hx rfl hphis
  have hg' := merge_perm hg sg a.mergeConstraints a.smoothing a.sp (dofsOf t u (ravel t))
  have hh' := merge_perm hh sh false none a.sp (dofsOf t u (ravel t))
  generalize mergeCallables (gs'.map some) a.mergeConstraints a.smoothing a.sp qp = g' at hg' ⊢
  generalize mergeCallables (gs.map some) a.mergeConstraints a.smoothing a.sp qp = g at hg' ⊢
  generalize mergeCallables (hs'.map some) false none a.sp qp = h' at hh' ⊢
  generalize mergeCallables (hs.map some) false none a.sp qp = h at hh' ⊢
  unfold setupFrom
  simp only [bind, Except.bind]
  rcases hg' with ⟨e', e, h1, h2⟩ | ⟨m, R, hR, H⟩
  · rw [h1, h2]
    exact .inl ⟨⟨_, rfl⟩, _, rfl⟩
  obtain ⟨g0, g1, g3, g2⟩ := H _ (fun _ => .refl _)
  rw [g1, g2]
  rcases hh' with ⟨e', e, h1, h2⟩ | ⟨k, T, hT, H'⟩
  · rw [h1, h2]
    exact .inl ⟨⟨_, rfl⟩, _, rfl⟩
  obtain ⟨h0, k1, k3, k2⟩ := H' _ (fun _ => .refl _)
  rw [k1, k2]
  simp only
  by_cases hsc : (f (dofsOf t u (ravel t))).isScalar = false
  · simp only [if_pos hsc]
    exact .inl ⟨⟨_, rfl⟩, _, rfl⟩
  · simp only [if_neg hsc]
    refine .inr ⟨_, _, rfl, rfl, rfl, rfl, rfl, rfl, rfl, m, k, R, T, ?_⟩
    refine ⟨hR, hT, fun x _ => rfl, fun x hx => ?_, fun x hx => ?_, fun x hx => ?_, fun x hx => ?_, ?_, ?_, ?_⟩
    · obtain ⟨l, e1, e2, -⟩ := H _ (hshape x hx)
      simp only [e1, okList, e2]
    · obtain ⟨l, e1, e2, -⟩ := H' _ (hshape x hx)
      simp only [e1, okList, e2]
    · obtain ⟨l, e1, -, e2⟩ := H _ (hshape x hx)
      simp only [e1, okList, e2]
    · obtain ⟨l, e1, -, e2⟩ := H' _ (hshape x hx)
      simp only [e1, okList, e2]
    · simp [g3]
    · simp [k3]
    · refine ⟨fun x => okList (g' (dofsOf t u x)), fun x => okList (h' (dofsOf t u x)), fun x => (f (dofsOf t u x)).entries.headD 0, ?_⟩
      simp only [hR.length g3, hT.length k3, g3, k3, replicate_rearrange hR, replicate_rearrange hT]

theorem quadcoilSetup_perm {qp : P} (hreg : AuxNames reg) (hown : AuxOwned reg) (hst : StaticRegistry reg qp) (a : QuadcoilArgs)
    (ho : objs'.Perm objs) (hc : cons'.Perm cons) (hu : UnitsAgree a.smoothing objs' cons') (u : ℝ) :
    ((∃ e', quadcoilSetup reg qp (a.listing objs' cons') u = .error e') ∧ ∃ e, quadcoilSetup reg qp (a.listing objs cons) u = .error e) ∨
    ∃ S' S, quadcoilSetup reg qp (a.listing objs' cons') u = .ok S' ∧ quadcoilSetup reg qp (a.listing objs cons) u = .ok S ∧ ReorderedSetup S' S := by
  rcases fghFromY_both (reg := reg) qp a ho hc with ⟨⟨e', h'⟩, e, h⟩ | ⟨hall, h', h⟩
  · unfold quadcoilSetup
    rw [h', h]
    exact .inl ⟨⟨e', rfl⟩, e, rfl⟩
  rw [quadcoilSetup_from qp a _ _ u h', quadcoilSetup_from qp a _ _ u h]
  have hall' := hall.perm ho hc
  have hf : (joinedVal reg a.smoothing a.sp objs' cons').f = (joinedVal reg a.smoothing a.sp objs cons).f := fTot_perm ho _
  have hg : (joinedVal reg a.smoothing a.sp objs' cons').g.Perm (joinedVal reg a.smoothing a.sp objs cons).g :=
    (ho.flatMap_right _).append (hc.flatMap_right _)
  have hh : (joinedVal reg a.smoothing a.sp objs' cons').h.Perm (joinedVal reg a.smoothing a.sp objs cons).h :=
    (ho.flatMap_right _).append (hc.flatMap_right _)
  have hok := joined_slackOk hreg hall
  have hok' := joined_slackOk hreg hall'
  have hl := joined_slack_lookup hown hall' ho hc hu
  have hs := joined_static hst hall
  have ht := xTemplate_perm hreg hok' hok hl qp (a.phiInit.getD (List.replicate (HasQp.ndofs qp) 0)) u
  have hphis := xTemplate_phi hreg hok qp (a.phiInit.getD (List.replicate (HasQp.ndofs qp) 0)) u
  have hn : (fghOf qp a (joinedVal reg a.smoothing a.sp objs' cons')).nG = (fghOf qp a (joinedVal reg a.smoothing a.sp objs cons)).nG := by
    simp only [fghOf, hg.length_eq]
  have hn' : (fghOf qp a (joinedVal reg a.smoothing a.sp objs' cons')).nH = (fghOf qp a (joinedVal reg a.smoothing a.sp objs cons)).nH := by
    simp only [fghOf, hh.length_eq]
  have hf' : (fghOf qp a (joinedVal reg a.smoothing a.sp objs' cons')).f = (fghOf qp a (joinedVal reg a.smoothing a.sp objs cons)).f := by
    simp only [fghOf, hf]
  rw [hn, hn', hf']
  have ht' : xTemplate qp (a.phiInit.getD (List.replicate (HasQp.ndofs qp) 0)) u (fghOf qp a (joinedVal reg a.smoothing a.sp objs' cons')).slack =
      xTemplate qp (a.phiInit.getD (List.replicate (HasQp.ndofs qp) 0)) u (fghOf qp a (joinedVal reg a.smoothing a.sp objs cons)).slack := ht
  rw [ht']
  exact setupFrom_perm a u hphis _ qp hg hh hs.1 hs.2 _ _

/-! ## Solving -/

theorem quadcoilSolve_perm {opt : Optimizer ℝ} {gradOp : (List ℝ → ℝ) → List ℝ → List ℝ} (hsh : opt.ShapeContract gradOp)
    (hloc : opt.LocalContract gradOp) {S' S : Setup} (h : ReorderedSetup S' S) :
    (quadcoilSolve opt gradOp S' = none ∧ quadcoilSolve opt gradOp S = none) ∨
    ∃ r' r d, quadcoilSolve opt gradOp S' = some (r', d) ∧ quadcoilSolve opt gradOp S = some (r, d) ∧ r'.SameUpToOrder r := by
  obtain ⟨m, k, R, T, hp⟩ := h.problem
  unfold quadcoilSolve
  rw [h.unconstrained, h.x0, h.template, h.phiUnit, h.f]
  split
  · obtain ⟨g', h', f', e⟩ := hp.rest
    have t1 : S'.problem.maxiterTot = S.problem.maxiterTot := by rw [e]
    have t2 : S'.problem.fstopInnerLast = S.problem.fstopInnerLast := by rw [e]
    have t3 : S'.problem.xstopInnerLast = S.problem.xstopInnerLast := by rw [e]
    have t4 : S'.problem.gtolInner = S.problem.gtolInner := by rw [e]
    rw [t1, t2, t3, t4]
    cases runOpt opt gradOp S.problem.f S.x0 ⟨S.problem.maxiterTot, S.problem.fstopInnerLast, S.problem.xstopInnerLast,
      S.problem.gtolInner⟩ with
    | none => exact .inl ⟨rfl, rfl⟩
    | some r => exact .inr ⟨_, _, _, rfl, rfl, .inner r⟩
  · rw [solve_rearrange hsh hloc hp rfl]
    cases hs : solveConstrained opt gradOp S.problem gplusHard S.x0 with
    | none => exact .inl ⟨rfl, rfl⟩
    | some s =>
      refine .inr ⟨.outer (s.rearrange R T), .outer s, dofsOf S.template S.phiUnit s.finX, rfl, rfl, ?_⟩
      exact .outer ((solve_fits hsh hloc hp rfl hs).sameUpToOrder hp.ineq hp.eq)

/-! ## The whole call -/

theorem shipped_owned (others : List String) : AuxOwned (shippedRegistry FieldProblem.fns others) := by
  intro n n' q q' k h h' hk hk'
  refine auxTable_injective ((aux_mem _ _ (shipped_lookup _ h)).1 k ?_) ((aux_mem _ _ (shipped_lookup _ h')).1 k ?_)
  · rw [auxOf, if_pos rfl]
    exact hk
  · rw [auxOf, if_pos rfl]
    exact hk'

theorem registry_static (others : List String) (Q : FieldProblem) : StaticRegistry (shippedRegistry FieldProblem.fns others) Q :=
  fun _ _ h => shipped_static Q _ (shipped_lookup _ h)

theorem setup_perm (a : CallArgs) (others : List String) (ho : objs'.Perm objs) (hc : cons'.Perm cons)
    (hu : UnitsAgree a.opts.smoothing objs' cons') :
    ((∃ e', (a.listing objs' cons').setup (shippedRegistry FieldProblem.fns others) = .error e') ∧
      ∃ e, (a.listing objs cons).setup (shippedRegistry FieldProblem.fns others) = .error e) ∨
    ∃ Q S' S, (a.listing objs' cons').setup (shippedRegistry FieldProblem.fns others) = .ok (Q, S') ∧
      (a.listing objs cons).setup (shippedRegistry FieldProblem.fns others) = .ok (Q, S) ∧ ReorderedSetup S' S := by
  unfold CallArgs.setup
  have e1 : (a.listing objs' cons').checked = (a.listing objs cons).checked := by
    simp only [CallArgs.checked, CallArgs.listing, CallArgs.namesObj, CallArgs.weightsObj, CallArgs.unitsObj, List.length_map, ho.length_eq,
      hc.length_eq]
  rw [e1]
  by_cases hn : a.nfp = 0
  · have h1 : ∀ os cs, (a.listing os cs).nfp = 0 := fun _ _ => hn
    rw [if_pos (h1 _ _), if_pos (h1 _ _)]
    exact .inl ⟨⟨_, rfl⟩, _, rfl⟩
  have h1 : ∀ os cs, (a.listing os cs).nfp ≠ 0 := fun _ _ => hn
  rw [if_neg (h1 _ _), if_neg (h1 _ _)]
  simp only [bind, Except.bind]
  cases quadcoilChecks (a.listing objs cons).checked with
  | error e => exact .inl ⟨⟨_, rfl⟩, _, rfl⟩
  | ok _ =>
  have e2 : (a.listing objs' cons').generatorShapes = (a.listing objs cons).generatorShapes := rfl
  have e3 : (a.listing objs' cons').paramsObj = (a.listing objs cons).paramsObj := rfl
  have e4 : (a.listing objs' cons').unitShapes = (a.listing objs cons).unitShapes := rfl
  have e5 : (a.listing objs' cons').phiInit = (a.listing objs cons).phiInit := rfl
  have e6 : (a.listing objs' cons').unit = (a.listing objs cons).unit := rfl
  have e7 : ∀ os cs, (a.listing os cs).opts = a.opts.listing os cs := fun _ _ => rfl
  simp only [e2, e3, e4, e5, e6, e7]
  cases (a.listing objs cons).generatorShapes with
  | error e => exact .inl ⟨⟨_, rfl⟩, _, rfl⟩
  | ok _ =>
  cases (a.listing objs cons).paramsObj with
  | error e => exact .inl ⟨⟨_, rfl⟩, _, rfl⟩
  | ok o =>
  simp only
  rcases fghFromY_both (reg := shippedRegistry FieldProblem.fns others) o.toField a.opts ho hc with ⟨⟨e', h'⟩, e, h⟩ | ⟨-, h', h⟩
  · rw [h', h]
    exact .inl ⟨⟨e', rfl⟩, e, rfl⟩
  rw [h', h]
  simp only
  cases requireShape ((a.listing objs cons).phiInit.length = o.ndofs) with
  | error e => exact .inl ⟨⟨_, rfl⟩, _, rfl⟩
  | ok _ =>
  cases (a.listing objs cons).unitShapes with
  | error e => exact .inl ⟨⟨_, rfl⟩, _, rfl⟩
  | ok _ =>
  simp only
  rcases quadcoilSetup_perm (shipped_auxNames _ others) (shipped_owned others) (registry_static others o.toField) a.opts ho hc hu
    ((a.listing objs cons).unit o.toField) with ⟨⟨e', h1'⟩, e, h1⟩ | ⟨S', S, h1', h1, hS⟩
  · rw [h1', h1]
    exact .inl ⟨⟨_, rfl⟩, _, rfl⟩
  · rw [h1', h1]
    exact .inr ⟨_, S', S, rfl, rfl, hS⟩

theorem quadcoilCall_perm {opt : Optimizer ℝ} {gradOp : (List ℝ → ℝ) → List ℝ → List ℝ} (hsh : opt.ShapeContract gradOp)
    (hloc : opt.LocalContract gradOp) (others : List String) (a : CallArgs) (ho : objs'.Perm objs) (hc : cons'.Perm cons)
    (hu : UnitsAgree a.opts.smoothing objs' cons') :
    SameCallUpToOrder (quadcoilCall opt gradOp (shippedRegistry FieldProblem.fns others) (a.listing objs' cons'))
      (quadcoilCall opt gradOp (shippedRegistry FieldProblem.fns others) (a.listing objs cons)) := by
  unfold quadcoilCall
  rcases setup_perm a others ho hc hu with ⟨⟨e', h'⟩, e, h⟩ | ⟨Q, S', S, h', h, hS⟩
  · rw [h', h]
    exact .error _ _
  rw [h', h]
  simp only [bind, Except.bind]
  have e7 : ∀ os cs, (a.listing os cs).opts = a.opts.listing os cs := fun _ _ => rfl
  simp only [e7]
  rcases fghFromY_both (reg := shippedRegistry FieldProblem.fns others) Q a.opts ho hc with ⟨⟨e', h1'⟩, e, h1⟩ | ⟨-, h1', h1⟩
  · rw [h1', h1]
    exact .error _ _
  rw [h1', h1]
  simp only
  rcases quadcoilSolve_perm hsh hloc hS with ⟨s', s⟩ | ⟨r', r, d, s', s, hr⟩
  · rw [s', s]
    exact .none
  rw [s', s]
  simp only
  have hf : (joinedVal (shippedRegistry FieldProblem.fns others) a.opts.smoothing a.opts.sp objs' cons').f =
      (joinedVal (shippedRegistry FieldProblem.fns others) a.opts.smoothing a.opts.sp objs cons).f := fTot_perm ho _
  have ey : (a.listing objs' cons').yArgs = (a.listing objs cons).yArgs := by
    simp only [CallArgs.yArgs, CallArgs.listing, List.length_map, hc.length_eq]
  have eo : ∀ p' p : Fgh FieldProblem, p'.f = p.f →
      (a.listing objs' cons').outDict (shippedRegistry FieldProblem.fns others) Q p' d =
        (a.listing objs cons).outDict (shippedRegistry FieldProblem.fns others) Q p d := by
    intro p' p hp
    unfold CallArgs.outDict
    rw [ey, hp]
    rfl
  rw [eo _ (fghOf Q a.opts (joinedVal (shippedRegistry FieldProblem.fns others) a.opts.smoothing a.opts.sp objs cons)) (by
    simp only [fghOf, hf])]
  cases (a.listing objs cons).outDict (shippedRegistry FieldProblem.fns others) Q
    (fghOf Q a.opts (joinedVal (shippedRegistry FieldProblem.fns others) a.opts.smoothing a.opts.sp objs cons)) d with
  | error e => exact .error _ _
  | ok out => exact .some hr

/-- **C157.** A call that lists the same objectives (with units and weights) and the same constraints in another order fails if and only if the
first one fails, stops if and only if it stops, and returns the same outputs and the same solution; the constraint values reported by the
solver and their multipliers are the same up to order. In slack mode a quantity that is listed several times must have one unit. -/
theorem C157_order {opt : Optimizer ℝ} {gradOp : (List ℝ → ℝ) → List ℝ → List ℝ} (hsh : opt.ShapeContract gradOp)
    (hloc : opt.LocalContract gradOp) (others : List String) (a : CallArgs) {objs' objs : List ObjectiveItem} {cons' cons : List Request}
    (ho : objs'.Perm objs) (hc : cons'.Perm cons)
    (hu : a.opts.smoothing = some "slack" →
      OneUnitEach (objs.map fun o => (o.name, o.unit)) ∧ OneUnitEach (cons.map fun r => (r.name, r.unit))) :
    SameCallUpToOrder (quadcoilCall opt gradOp (shippedRegistry FieldProblem.fns others) (a.listing objs' cons'))
      (quadcoilCall opt gradOp (shippedRegistry FieldProblem.fns others) (a.listing objs cons)) := by
  refine quadcoilCall_perm hsh hloc others a ho hc fun hs => ⟨?_, ?_⟩
  · intro x hx y hy
    exact (hu hs).1 x ((ho.map _).mem_iff.1 hx) y ((ho.map _).mem_iff.1 hy)
  · intro x hx y hy
    exact (hu hs).2 x ((hc.map _).mem_iff.1 hx) y ((hc.map _).mem_iff.1 hy)

/-! ## Examples -/

theorem realGrad_local {f f' : List ℝ → ℝ} {x : List ℝ} (h : ∀ y : List ℝ, y.length = x.length → f y = f' y) : realGrad f x = realGrad f' x := by
  unfold realGrad
  refine List.map_congr_left fun i _ => ?_
  have : (fun t => f (x.set i t)) = fun t => f' (x.set i t) := funext fun t => h _ (by simp)
  rw [this]

theorem gradientDescent_local (step : ℝ) : (gradientDescent realGrad step).LocalContract realGrad where
  grad _ _ _ h := realGrad_local h
  update f f' g s x v hg h := by
    have hl : (Num.vadd x (g.map fun t => Num.neg (Num.mul step t))).length = x.length := by simp [Num.vadd, hg]
    simp only [gradientDescent]
    rw [h _ hl, realGrad_local fun y hy => h y (hy.trans hl)]

/-- Two objectives and three constraints, one quantity twice with the same unit, in another order. -/
example (a : CallArgs) (others : List String) :
    SameCallUpToOrder
      (quadcoilCall (gradientDescent realGrad (1 / 4)) realGrad (shippedRegistry FieldProblem.fns others)
        (a.listing [⟨"f_K", .scalar 3, 1 / 2⟩, ⟨"f_B", .none, 1⟩]
          [⟨"f_max_Phi", "<=", .scalar 2, 5⟩, ⟨"f_max_K2", "<=", .none, 7⟩, ⟨"f_max_Phi", "<=", .scalar 2, 4⟩]))
      (quadcoilCall (gradientDescent realGrad (1 / 4)) realGrad (shippedRegistry FieldProblem.fns others)
        (a.listing [⟨"f_B", .none, 1⟩, ⟨"f_K", .scalar 3, 1 / 2⟩]
          [⟨"f_max_Phi", "<=", .scalar 2, 4⟩, ⟨"f_max_Phi", "<=", .scalar 2, 5⟩, ⟨"f_max_K2", "<=", .none, 7⟩])) := by
  refine C157_order (gradientDescent_shape _ (by simp [realGrad]) _) (gradientDescent_local _) others a (.swap ..) ?_ fun _ => ⟨?_, ?_⟩
  · exact ((List.Perm.swap ..).cons _).trans (.swap ..)
  · simp [OneUnitEach]
  · simp [OneUnitEach]

/-! ## Where it does not hold -/

theorem setupFrom_template {a : QuadcoilArgs} {u : ℝ} {t : List (String × Val)} {f : Dofs → Val} {g h : Dofs → Except PyErr (List ℝ)}
    {nG nH : ℕ} {S : Setup} (hS : setupFrom a u t f g h nG nH = .ok S) : S.template = t := by
  unfold setupFrom at hS
  cases hg : g (dofsOf t u (ravel t)) with
  | error e => simp [hg, bind, Except.bind] at hS
  | ok g0 =>
    cases hh : h (dofsOf t u (ravel t)) with
    | error e => simp [hg, hh, bind, Except.bind] at hS
    | ok h0 =>
      simp only [hg, hh, bind, Except.bind] at hS
      split at hS
      · cases hS
      · cases hS
        rfl

/-- The same quantity twice as objective, with two units. -/
def twoUnits (u v : ℝ) : List ObjectiveItem := [⟨"f_max_Phi", .scalar u, 1⟩, ⟨"f_max_Phi", .scalar v, 1⟩]

/-- **C157 fails (units of a repeated quantity).** In slack mode both objectives share one auxiliary variable; its start is the one computed with
the unit that is listed last. -/
theorem C157_last_unit_partial (Q : FieldProblem) (a : QuadcoilArgs) (others : List String) (hsm : a.smoothing = some "slack")
    (hm : a.mergeConstraints = false) (u v U : ℝ) :
    ∃ S, quadcoilSetup (shippedRegistry FieldProblem.fns others) Q (a.listing (twoUnits u v) []) U = .ok S ∧
      S.template.lookup "scaled_max_Phi" = some (.scalar (Quantity.maxAbs (.array (FieldProblem.fns.Phi Q
        (phiOnly (.array (a.phiInit.getD (List.replicate (HasQp.ndofs Q) 0)))))) / |v|)) := by
  have hlegal : ∀ u, LegalUse (shippedRegistry FieldProblem.fns others) a.smoothing "f_max_Phi" (.scalar u) "f" :=
    fun u => ⟨⟨Quantity.generateLinf (arr FieldProblem.fns.Phi) "scaled_max_Phi" false false, rfl, by simp [Quantity.generateLinf]⟩,
      .inr (.inl hsm), by simp⟩
  have hobj : LegalObjectives (shippedRegistry FieldProblem.fns others) a.smoothing (a.listing (twoUnits u v) []).objectiveName
      (a.listing (twoUnits u v) []).objectiveUnit (a.listing (twoUnits u v) []).objectiveWeight := by
    refine ⟨rfl, le_rfl, fun i h1 h2 => ?_⟩
    have : i = 0 ∨ i = 1 := by
      simp [twoUnits] at h1
      omega
    obtain rfl | rfl := this
    · exact hlegal u
    · exact hlegal v
  obtain ⟨S, hS⟩ := (C131_setup_succeeds_iff_legal (F := FieldProblem.fns) others Q (a.listing (twoUnits u v) []) U).2
    ⟨hobj, ⟨rfl, rfl, fun _ => rfl, by simp [QuadcoilArgs.requests, QuadcoilArgs.listing, zipRequests]⟩,
      fun h => absurd h (by simp [QuadcoilArgs.listing, hm])⟩
  refine ⟨S, hS, ?_⟩
  have hp : ∀ u w, objPart (shippedRegistry FieldProblem.fns others) (some "slack") a.sp ⟨"f_max_Phi", .scalar u, w⟩ = .ok
      (addedOf (Quantity.generateLinf (arr FieldProblem.fns.Phi) "scaled_max_Phi" false false) (some "slack") a.sp fun _ => .scalar |u|) := by
    intro u w
    exact addQuantity_ok.2 ⟨_, _, rfl, .inr (.inl rfl), by simp [Quantity.generateLinf], rfl, rfl⟩
  have hall : AllOk (shippedRegistry FieldProblem.fns others) a.smoothing a.sp (twoUnits u v) [] := by
    rw [hsm]
    exact ⟨by simp [twoUnits, hp], by simp⟩
  rw [quadcoilSetup_from Q a _ _ U ((fghFromY_listing ..).2 ⟨hall, rfl⟩)] at hS
  rw [setupFrom_template hS]
  have hl : (joinedVal (shippedRegistry FieldProblem.fns others) a.smoothing a.sp (twoUnits u v) []).slack.lookup "scaled_max_Phi" =
      some fun Q d => .scalar (Quantity.maxAbs (.array (FieldProblem.fns.Phi Q d)) / |v|) := by
    simp only [joinedVal, twoUnits, List.map_cons, List.map_nil, List.foldl_cons, List.foldl_nil, hsm, objVal_eq (hp _ _), dictUnion_nil]
    simp [addedOf, Quantity.generateLinf, dictUnion, arr]
    rfl
  have hx := xTemplate_lookup (shipped_auxNames FieldProblem.fns others) (joined_slackOk (shipped_auxNames FieldProblem.fns others) hall) Q
    (a.phiInit.getD (List.replicate (HasQp.ndofs Q) 0)) U "scaled_max_Phi" (by decide)
  rw [hl] at hx
  exact hx

/-- **C157 fails (order of two objectives).** Swapping them moves the start of the optimisation. -/
theorem C157_swap_partial (a : QuadcoilArgs) (others : List String) (hsm : a.smoothing = some "slack") (hm : a.mergeConstraints = false) (hp : a.phiInit = some [1])
  (U : ℝ) : ∃ S S', quadcoilSetup (shippedRegistry FieldProblem.fns others) resolvedTorus (a.listing (twoUnits 1 2) []) U = .ok S ∧
    quadcoilSetup (shippedRegistry FieldProblem.fns others) resolvedTorus (a.listing (twoUnits 2 1) []) U = .ok S' ∧
    (twoUnits 1 2).Perm (twoUnits 2 1) ∧ S.template ≠ S'.template := by
  obtain ⟨S, h1, h2⟩ := C157_last_unit_partial resolvedTorus a others hsm hm 1 2 U
  obtain ⟨S', h1', h2'⟩ := C157_last_unit_partial resolvedTorus a others hsm hm 2 1 U
  refine ⟨S, S', h1, h1', .swap .., fun h => ?_⟩
  rw [h, h2', hp] at h2
  obtain ⟨x, hx, h0⟩ := resolved_Phi
  simp only [Option.getD_some, Option.some.injEq, Val.scalar.injEq, abs_one, div_one, abs_two] at h2
  have hm : |x| ≤ Quantity.maxAbs (.array (FieldProblem.fns.Phi resolvedTorus (phiOnly (.array [1])))) :=
    le_jmax (List.mem_map.2 ⟨x, hx, rfl⟩)
  have := abs_pos.2 h0
  linarith

end Verif
