import Verif.Lemmas.Rearranged
import Verif.Lemmas.StaticShape
import Verif.Props.Exact

/-!
# Parsing objectives and constraints listed in another order
-/

namespace Verif

variable {P : Type} [HasQp P] {reg : Registry P} {sm : Option String} {sp : SmoothingParams}

/-! ## Dictionaries -/

theorem dictUnion_nil {β : Type} (b : List (String × β)) : dictUnion [] b = b := by simp [dictUnion]

/-- Later entries win. -/
theorem listed_union_lookup {β : Type} (ds : List (List (String × β))) (acc : List (String × β)) :
    (fun k => (ds.foldl dictUnion acc).lookup k) = ds.foldl (fun m d k => (d.lookup k).or (m k)) fun k => acc.lookup k := by
  induction ds generalizing acc with
  | nil => rfl
  | cons d ds ih =>
    rw [List.foldl_cons, List.foldl_cons, ih]
    congr 1
    funext k
    exact C94_union_lookup acc d k

/-- If equal keys have equal values the order of the dictionaries does not matter. -/
theorem foldl_union_perm {β : Type} {ds' ds : List (List (String × β))} (h : ds'.Perm ds)
    (hc : ∀ d ∈ ds', ∀ e ∈ ds', ∀ k v w, d.lookup k = some v → e.lookup k = some w → v = w) (acc : List (String × β)) :
    ∀ k, (ds'.foldl dictUnion acc).lookup k = (ds.foldl dictUnion acc).lookup k := by
  refine congrFun ?_
  rw [listed_union_lookup, listed_union_lookup]
  refine h.foldl_eq' (fun d hd e he m => ?_) _
  funext k
  cases hdk : d.lookup k with
  | none => cases hek : e.lookup k <;> simp only [hdk, hek, Option.or_some, Option.none_or]
  | some v =>
    cases hek : e.lookup k with
    | none => simp only [hdk, hek, Option.none_or]
    | some w => simp only [hdk, hek, Option.some_or, hc d hd e he k v w hdk hek]

theorem perm_of_lookup {β : Type} {a b : List (String × β)} (ha : (a.map Prod.fst).Nodup) (hb : (b.map Prod.fst).Nodup)
    (h : ∀ k, a.lookup k = b.lookup k) : a.Perm b := by
  rw [List.perm_ext_iff_of_nodup (ha.of_map _) (hb.of_map _)]
  rintro ⟨k, v⟩
  constructor
  · intro hm
    have := lookup_of_mem ha hm
    rw [h] at this
    exact mem_of_lookup this
  · intro hm
    have := lookup_of_mem hb hm
    rw [← h] at this
    exact mem_of_lookup this

theorem sortKeys_eq_of_perm {β : Type} {a b : List (String × β)} (ha : (a.map Prod.fst).Nodup) (h : a.Perm b) : sortKeys a = sortKeys b := by
  have htr : ∀ x y z : String × β, decide (x.1 ≤ y.1) = true → decide (y.1 ≤ z.1) = true → decide (x.1 ≤ z.1) = true := by
    intro x y z h1 h2
    simp only [decide_eq_true_eq] at *
    exact String.le_trans h1 h2
  have htot : ∀ x y : String × β, (decide (x.1 ≤ y.1) || decide (y.1 ≤ x.1)) = true := by
    intro x y
    simpa using String.le_total x.1 y.1
  refine List.Perm.eq_of_pairwise (le := fun x y : String × β => decide (x.1 ≤ y.1) = true) ?_ (List.pairwise_mergeSort htr htot a)
    (List.pairwise_mergeSort htr htot b) (((sortKeys_perm a).trans h).trans (sortKeys_perm b).symm)
  rintro ⟨k, v⟩ ⟨k', v'⟩ h1 h2 h3 h4
  have hk : k = k' := String.le_antisymm (by simpa using h3) (by simpa using h4)
  subst hk
  have e1 := lookup_of_mem ha ((sortKeys_perm a).mem_iff.1 h1)
  have e2 := lookup_of_mem ha (h.mem_iff.2 ((sortKeys_perm b).mem_iff.1 h2))
  rw [e1] at e2
  cases e2
  rfl

/-! ## The part of one item -/

/-- What one constraint contributes. -/
noncomputable def conPart (reg : Registry P) (sm : Option String) (sp : SmoothingParams) (r : Request) : Except PyErr (Parsed P) :=
  parseStep reg sm sp ⟨[], [], []⟩ r

/-- The same as a value. -/
noncomputable def conVal (reg : Registry P) (sm : Option String) (sp : SmoothingParams) (r : Request) : Parsed P :=
  match conPart reg sm sp r with
  | .ok p => p
  | .error _ => ⟨[], [], []⟩

theorem parseStep_part (acc p : Parsed P) (r : Request) : parseStep reg sm sp acc r = .ok p ↔
    ∃ c, conPart reg sm sp r = .ok c ∧ p = ⟨acc.g ++ c.g, acc.h ++ c.h, dictUnion acc.slack c.slack⟩ := by
  rw [parseStep_ok]
  constructor
  · rintro ⟨a, ha, hc⟩
    rcases hc with ⟨h1, rfl⟩ | ⟨h1, rfl⟩ | ⟨h1, rfl⟩
    · exact ⟨_, parseStep_ok.2 ⟨a, ha, .inl ⟨h1, rfl⟩⟩, by simp [dictUnion_nil]⟩
    · exact ⟨_, parseStep_ok.2 ⟨a, ha, .inr (.inl ⟨h1, rfl⟩)⟩, by simp [dictUnion_nil]⟩
    · exact ⟨_, parseStep_ok.2 ⟨a, ha, .inr (.inr ⟨h1, rfl⟩)⟩, by simp [dictUnion_nil]⟩
  · rintro ⟨c, hc, rfl⟩
    obtain ⟨a, ha, h⟩ := parseStep_ok.1 hc
    refine ⟨a, ha, ?_⟩
    rcases h with ⟨h1, rfl⟩ | ⟨h1, rfl⟩ | ⟨h1, rfl⟩
    · exact .inl ⟨h1, by simp [dictUnion_nil]⟩
    · exact .inr (.inl ⟨h1, by simp [dictUnion_nil]⟩)
    · exact .inr (.inr ⟨h1, by simp [dictUnion_nil]⟩)

theorem foldlM_parts (rs : List Request) (acc p : Parsed P) : rs.foldlM (parseStep reg sm sp) acc = .ok p ↔
    (∀ r ∈ rs, ∃ c, conPart reg sm sp r = .ok c) ∧ p = ⟨acc.g ++ rs.flatMap fun r => (conVal reg sm sp r).g,
      acc.h ++ rs.flatMap fun r => (conVal reg sm sp r).h, (rs.map fun r => (conVal reg sm sp r).slack).foldl dictUnion acc.slack⟩ := by
  induction rs generalizing acc with
  | nil => simp [pure, Except.pure, eq_comm]
  | cons r rs ih =>
    rw [foldlM_except_cons]
    constructor
    · rintro ⟨b, hb, hr⟩
      obtain ⟨c, hc, rfl⟩ := (parseStep_part _ _ _).1 hb
      obtain ⟨h1, h2⟩ := (ih _).1 hr
      have hv : conVal reg sm sp r = c := by rw [conVal, hc]
      refine ⟨List.forall_mem_cons.2 ⟨⟨c, hc⟩, h1⟩, ?_⟩
      rw [h2]
      simp [hv]
    · rintro ⟨h1, h2⟩
      obtain ⟨⟨c, hc⟩, h1⟩ := List.forall_mem_cons.1 h1
      have hv : conVal reg sm sp r = c := by rw [conVal, hc]
      refine ⟨_, (parseStep_part _ _ _).2 ⟨c, hc, rfl⟩, (ih _).2 ⟨h1, ?_⟩⟩
      rw [h2]
      simp [hv]

/-- What one objective contributes. -/
noncomputable def objPart (reg : Registry P) (sm : Option String) (sp : SmoothingParams) (o : ObjectiveItem) : Except PyErr (Added P) :=
  addQuantity reg o.name o.unit "f" sm sp

/-- The same as a value. -/
noncomputable def objVal (reg : Registry P) (sm : Option String) (sp : SmoothingParams) (o : ObjectiveItem) : Added P :=
  match objPart reg sm sp o with
  | .ok p => p
  | .error _ => ⟨fun _ _ => .scalar 0, [], [], fun _ => .scalar 0, []⟩

theorem objLoop_parts (os : List ObjectiveItem) (acc p : ObjAcc P) :
    parseObjLoop reg sm sp (os.map ObjectiveItem.name) (os.map ObjectiveItem.unit) acc = .ok p ↔
    (∀ o ∈ os, ∃ c, objPart reg sm sp o = .ok c) ∧ p = ⟨acc.f ++ os.map fun o => (objVal reg sm sp o).val,
      acc.g ++ os.flatMap fun o => (objVal reg sm sp o).g, acc.h ++ os.flatMap fun o => (objVal reg sm sp o).h,
      (os.map fun o => (objVal reg sm sp o).slack).foldl dictUnion acc.slack⟩ := by
  induction os generalizing acc with
  | nil => simp [parseObjLoop, eq_comm]
  | cons o os ih =>
    simp only [List.map_cons, parseObjLoop]
    cases hc : addQuantity reg o.name o.unit "f" sm sp with
    | error e =>
      simp only [bind, Except.bind, reduceCtorEq, false_iff]
      rintro ⟨h, -⟩
      obtain ⟨c, h⟩ := h o (List.mem_cons_self ..)
      rw [objPart, hc] at h
      cases h
    | ok c =>
      have hv : objVal reg sm sp o = c := by rw [objVal, objPart, hc]
      simp only [bind, Except.bind]
      rw [ih]
      simp [hv, objPart, hc]

/-! ## Shapes -/

/-- All quantities of the table have static shapes. -/
def StaticRegistry (reg : Registry P) (qp : P) : Prop := ∀ n q, reg n = some (.quantity q) → StaticForms q qp

theorem added_static {qp : P} (hreg : StaticRegistry reg qp) {name uc : String} {unit : UnitArg} {A : Added P}
    (h : addQuantity reg name unit uc sm sp = .ok A) :
    Static (A.val qp) ∧ (∀ fn ∈ A.g, Static (fn qp)) ∧ ∀ fn ∈ A.h, Static (fn qp) := by
  obtain ⟨q, u, hq, -, -, hu, rfl⟩ := addQuantity_ok.1 h
  have hs := hreg _ _ hq
  unfold addedOf
  split
  · refine ⟨hs.slackF _, ?_, ?_⟩
    · intro fn hfn
      simp only [Option.mem_toList, Option.map_eq_some_iff] at hfn
      obtain ⟨g, hg, rfl⟩ := hfn
      exact hs.slackG g hg _
    · intro fn hfn
      simp only [Option.mem_toList, Option.map_eq_some_iff] at hfn
      obtain ⟨g, hg, rfl⟩ := hfn
      exact hs.slackH g hg _
  · split
    · exact ⟨hs.raw.div _, by simp, by simp⟩
    · exact ⟨hs.approx _ _, by simp, by simp⟩

theorem consFunc_static {qp : P} {A : Added P} (h : Static (A.val qp)) (v sign : ℝ) : Static (consFunc A v sign sm sp qp) := by
  intro d d' hd
  have h1 : SameShape (Val.map (fun x => sign * x) (Val.map2 (· - ·) (A.val qp d) (Val.map2 (· / ·) (Val.scalar v) (A.unit qp))))
      (Val.map (fun x => sign * x) (Val.map2 (· - ·) (A.val qp d') (Val.map2 (· / ·) (Val.scalar v) (A.unit qp)))) :=
    ((h d d' hd).map2 (.refl _) _).map _ _
  unfold consFunc
  simp only [h1.isScalar]
  split
  · trivial
  · exact h1

theorem conVal_static {qp : P} (hreg : StaticRegistry reg qp) {r : Request} (h : ∃ c, conPart reg sm sp r = .ok c) :
    (∀ fn ∈ (conVal reg sm sp r).g, Static (fn qp)) ∧ ∀ fn ∈ (conVal reg sm sp r).h, Static (fn qp) := by
  obtain ⟨c, hc⟩ := h
  have hv : conVal reg sm sp r = c := by rw [conVal, hc]
  rw [hv]
  obtain ⟨A, hA, h⟩ := parseStep_ok.1 hc
  obtain ⟨h1, h2, h3⟩ := added_static hreg hA
  rcases h with ⟨-, rfl⟩ | ⟨-, rfl⟩ | ⟨-, rfl⟩
  · refine ⟨by simpa using h2, fun fn hfn => ?_⟩
    simp only [List.nil_append, List.mem_append, List.mem_singleton] at hfn
    rcases hfn with hfn | rfl
    · exact h3 fn hfn
    · exact consFunc_static h1 _ _
  · refine ⟨fun fn hfn => ?_, by simpa using h3⟩
    simp only [List.nil_append, List.mem_append, List.mem_singleton] at hfn
    rcases hfn with hfn | rfl
    · exact h2 fn hfn
    · exact consFunc_static h1 _ _
  · refine ⟨fun fn hfn => ?_, by simpa using h3⟩
    simp only [List.nil_append, List.mem_append, List.mem_singleton] at hfn
    rcases hfn with hfn | rfl
    · exact h2 fn hfn
    · exact consFunc_static h1 _ _

/-! ## Units of auxiliary variables -/

/-- An auxiliary variable belongs to one quantity. -/
def AuxOwned (reg : Registry P) : Prop :=
  ∀ n n' q q' k, reg n = some (.quantity q) → reg n' = some (.quantity q') → k ∈ (q.slackInit.getD []).map Prod.fst →
    k ∈ (q'.slackInit.getD []).map Prod.fst → n = n'

theorem slack_agree (hown : AuxOwned reg) {n n' uc uc' : String} {u u' : UnitArg} {A A' : Added P}
    (h : addQuantity reg n u uc sm sp = .ok A) (h' : addQuantity reg n' u' uc' sm sp = .ok A')
    (hu : sm = some "slack" → n = n' → u = u') {k : String} {v w : P → Dofs → Val} (hv : A.slack.lookup k = some v)
    (hw : A'.slack.lookup k = some w) : v = w := by
  obtain ⟨q, U, hq, -, -, hU, rfl⟩ := addQuantity_ok.1 h
  obtain ⟨q', U', hq', -, -, hU', rfl⟩ := addQuantity_ok.1 h'
  by_cases hsm : sm = some "slack"
  · have m1 : k ∈ (q.slackInit.getD []).map Prod.fst := by
      have := List.mem_map_of_mem (f := Prod.fst) (mem_of_lookup hv)
      rw [addedOf_slack_keys, auxOf, if_pos hsm] at this
      exact this
    have m2 : k ∈ (q'.slackInit.getD []).map Prod.fst := by
      have := List.mem_map_of_mem (f := Prod.fst) (mem_of_lookup hw)
      rw [addedOf_slack_keys, auxOf, if_pos hsm] at this
      exact this
    obtain rfl := hown _ _ _ _ _ hq hq' m1 m2
    rw [hq] at hq'
    cases hq'
    rw [hu hsm rfl] at hU
    rw [hU] at hU'
    cases hU'
    rw [hv] at hw
    exact Option.some.inj hw
  · unfold addedOf at hv
    rw [if_neg hsm] at hv
    split at hv <;> simp at hv

theorem conPart_added {r : Request} {c : Parsed P} (h : conPart reg sm sp r = .ok c) :
    ∃ A, addQuantity reg r.name r.unit r.type sm sp = .ok A ∧ c.slack = A.slack := by
  obtain ⟨A, hA, h⟩ := parseStep_ok.1 h
  rcases h with ⟨-, rfl⟩ | ⟨-, rfl⟩ | ⟨-, rfl⟩ <;> exact ⟨A, hA, dictUnion_nil _⟩

/-! ## The whole problem -/

theorem map2_add_right_comm (a b c : Val) : Val.map2 (· + ·) (Val.map2 (· + ·) a b) c = Val.map2 (· + ·) (Val.map2 (· + ·) a c) b := by
  cases a <;> cases b <;> cases c <;> simp only [Val.map2, List.map_map, Val.scalar.injEq, Val.array.injEq]
  · ring
  · refine List.map_congr_left fun x _ => ?_
    simp only [Function.comp_apply]
    ring
  · refine List.map_congr_left fun x _ => ?_
    simp only [Function.comp_apply]
    ring
  · rw [List.zipWith_map_left, List.zipWith_map_left, List.zipWith_comm]
    congr 1
    funext x y
    ring
  · refine List.map_congr_left fun x _ => ?_
    simp only [Function.comp_apply]
    ring
  · rw [List.zipWith_map_left, List.map_zipWith]
    congr 1
    funext x y
    ring
  · rw [List.zipWith_map_left, List.map_zipWith]
    congr 1
    funext x y
    ring
  · rename_i xs ys zs
    induction xs generalizing ys zs with
    | nil => simp
    | cons x xs ih =>
      cases ys <;> cases zs <;> simp [ih]
      ring

theorem fTot_perm {os' os : List ObjectiveItem} (h : os'.Perm os) (v : ObjectiveItem → P → Dofs → Val) :
    fTot (os'.map v) (os'.map ObjectiveItem.weight) = fTot (os.map v) (os.map ObjectiveItem.weight) := by
  funext qp d
  unfold fTot
  rw [List.zip_map', List.zip_map']
  refine List.Perm.foldl_eq' (h.map _) ?_ _
  intro x _ y _ z
  exact map2_add_right_comm _ _ _

end Verif
