import Verif.Model.Quadcoil
import Verif.Props.Api
import Verif.Props.Join
import Verif.Spec.UserProblem

/-!
# Flat vectors and dictionaries of unknowns
-/

namespace Verif

theorem mem_of_lookup {β : Type} {l : List (String × β)} {k : String} {v : β} (h : l.lookup k = some v) : (k, v) ∈ l := by
  induction l with
  | nil => simp at h
  | cons a l ih =>
    obtain ⟨ka, va⟩ := a
    rw [lookup_cons_ite] at h
    by_cases hk : k = ka
    · rw [if_pos hk] at h
      cases h
      rw [hk]
      exact List.mem_cons_self ..
    · rw [if_neg hk] at h
      exact List.mem_cons_of_mem _ (ih h)

theorem lookup_of_mem {β : Type} {l : List (String × β)} (hn : (l.map Prod.fst).Nodup) {k : String} {v : β} (h : (k, v) ∈ l) :
    l.lookup k = some v := by
  induction l with
  | nil => simp at h
  | cons a l ih =>
    obtain ⟨ka, va⟩ := a
    rw [List.map_cons, List.nodup_cons] at hn
    rw [lookup_cons_ite]
    rcases List.mem_cons.1 h with h' | h'
    · cases h'
      rw [if_pos rfl]
    · have : k ≠ ka := by
        rintro rfl
        exact hn.1 (List.mem_map.2 ⟨_, h', rfl⟩)
      rw [if_neg this]
      exact ih hn.2 h'

theorem sortKeys_perm {β : Type} (d : List (String × β)) : (sortKeys d).Perm d := List.mergeSort_perm _ _

theorem sortKeys_nodup {β : Type} {d : List (String × β)} (h : (d.map Prod.fst).Nodup) : ((sortKeys d).map Prod.fst).Nodup :=
  ((sortKeys_perm d).map Prod.fst).nodup_iff.2 h

theorem sortKeys_lookup {β : Type} {d : List (String × β)} (h : (d.map Prod.fst).Nodup) (k : String) :
    (sortKeys d).lookup k = d.lookup k := by
  cases hd : d.lookup k with
  | none =>
    cases hs : (sortKeys d).lookup k with
    | none => rfl
    | some v =>
      have := lookup_of_mem h ((sortKeys_perm d).mem_iff.1 (mem_of_lookup hs))
      rw [hd] at this
      cases this
  | some v => exact lookup_of_mem (sortKeys_nodup h) ((sortKeys_perm d).mem_iff.2 (mem_of_lookup hd))

theorem unravelLike_keys (t : List (String × Val)) (x : List ℝ) : (unravelLike t x).map Prod.fst = t.map Prod.fst := by
  induction t generalizing x with
  | nil => rfl
  | cons a t ih =>
    obtain ⟨k, v⟩ := a
    cases v <;> simp [unravelLike, ih]

/-- Unflattening keeps shapes: scalars always, arrays if the vector has the right length. -/
theorem unravelLike_lookup {t : List (String × Val)} {x : List ℝ} {k : String} {v : Val} (h : t.lookup k = some v) :
    ∃ w, (unravelLike t x).lookup k = some w ∧ w.isScalar = v.isScalar ∧ (x.length = (ravel t).length → SameShape w v) := by
  induction t generalizing x with
  | nil => simp at h
  | cons a t ih =>
    obtain ⟨ka, va⟩ := a
    rw [lookup_cons_ite] at h
    by_cases hk : k = ka
    · rw [if_pos hk] at h
      cases h
      cases v with
      | scalar y =>
        refine ⟨.scalar (x.headD 0), ?_, rfl, fun _ => trivial⟩
        rw [unravelLike, lookup_cons_ite, if_pos hk]
      | array ys =>
        refine ⟨.array (x.take ys.length), ?_, rfl, fun hl => ?_⟩
        · rw [unravelLike, lookup_cons_ite, if_pos hk]
        · simp only [ravel, List.flatMap_cons, Val.entries, List.length_append] at hl
          simp only [SameShape, List.length_take]
          omega
    · rw [if_neg hk] at h
      cases va with
      | scalar y =>
        obtain ⟨w, h1, h2, h3⟩ := ih (x := x.drop 1) h
        refine ⟨w, ?_, h2, fun hl => h3 ?_⟩
        · rw [unravelLike, lookup_cons_ite, if_neg hk, h1]
        · simp only [ravel, List.flatMap_cons, Val.entries, List.length_append, List.length_drop, List.length_singleton] at hl ⊢
          omega
      | array ys =>
        obtain ⟨w, h1, h2, h3⟩ := ih (x := x.drop ys.length) h
        refine ⟨w, ?_, h2, fun hl => h3 ?_⟩
        · rw [unravelLike, lookup_cons_ite, if_neg hk, h1]
        · simp only [ravel, List.flatMap_cons, Val.entries, List.length_append, List.length_drop] at hl ⊢
          omega

/-- The dictionary passed to the physical functions, for the other keys. -/
theorem dofsOf_other {t : List (String × Val)} {u : ℝ} {x : List ℝ} {s : Val} (hs : t.lookup "phi_scaled" = some s) {k : String}
    (h1 : k ≠ "phi") (h2 : k ≠ "phi_scaled") : dofsOf t u x k = ((unravelLike t x).lookup k).getD (Val.scalar 0) := by
  obtain ⟨w, hw, -⟩ := unravelLike_lookup (x := x) hs
  simp only [dofsOf, toDofs, unravelUnscale, hw, Option.map_some, Option.getD_some]
  rw [lookup_filter_ne _ _ _ h2, mem_dictSet_lookup, if_neg h1]

/-- The potential passed to the physical functions. -/
theorem dofsOf_phi {t : List (String × Val)} {u : ℝ} {x : List ℝ} {w : Val} (hw : (unravelLike t x).lookup "phi_scaled" = some w) :
    dofsOf t u x "phi" = Val.map (fun s => s * u) w := by
  simp only [dofsOf, toDofs, unravelUnscale, hw, Option.map_some, Option.getD_some]
  rw [lookup_filter_ne _ _ _ (by decide), mem_dictSet_lookup, if_pos rfl]
  rfl

/-- Every potential and all values of the auxiliary variables of the right shapes come from a flat vector. -/
theorem exists_flat {t : List (String × Val)} (hn : (t.map Prod.fst).Nodup) {u : ℝ} (hu : u ≠ 0) {d : Dofs} {ys phi : List ℝ}
    (hs : t.lookup "phi_scaled" = some (.array ys)) (hphi : d "phi" = .array phi) (hlen : phi.length = ys.length)
    (hshape : ∀ k v, (k, v) ∈ t → k ≠ "phi_scaled" → SameShape (d k) v) :
    ∃ x, x.length = (ravel t).length ∧ dofsOf t u x "phi" = d "phi" ∧
      ∀ k v, (k, v) ∈ t → k ≠ "phi" → k ≠ "phi_scaled" → dofsOf t u x k = d k := by
  let e : List (String × Val) := t.map fun kv => (kv.1, if kv.1 = "phi_scaled" then .array (phi.map fun s => s / u) else d kv.1)
  have hF : List.Forall₂ (fun a b : String × Val => a.1 = b.1 ∧
      ((∃ x y, a.2 = Val.scalar x ∧ b.2 = Val.scalar y) ∨
        ∃ x y, a.2 = Val.array x ∧ b.2 = Val.array y ∧ x.length = y.length)) t e := by
    rw [List.forall₂_map_right_iff, List.forall₂_same]
    rintro ⟨k, v⟩ hkv
    refine ⟨rfl, ?_⟩
    by_cases hk : k = "phi_scaled"
    · subst hk
      have := lookup_of_mem hn hkv
      rw [hs] at this
      cases this
      exact Or.inr ⟨ys, phi.map fun s => s / u, rfl, by simp, by simp [hlen]⟩
    · have hsh := hshape k v hkv hk
      simp only [if_neg hk]
      cases v with
      | scalar y =>
        cases hd : d k with
        | scalar z => exact Or.inl ⟨y, z, rfl, rfl⟩
        | array z => rw [hd] at hsh; exact hsh.elim
      | array y =>
        cases hd : d k with
        | scalar z => rw [hd] at hsh; exact hsh.elim
        | array z => rw [hd] at hsh; exact Or.inr ⟨y, z, rfl, rfl, Eq.symm hsh⟩
  have hun : unravelLike t (ravel e) = e := C73_flatten_roundtrip t e hF
  have hek : ∀ k, e.lookup k = (t.lookup k).map fun _ => if k = "phi_scaled" then .array (phi.map fun s => s / u) else d k := by
    intro k
    exact lookup_map_snd t (fun k _ => if k = "phi_scaled" then .array (phi.map fun s => s / u) else d k) k
  refine ⟨ravel e, ?_, ?_, ?_⟩
  · clear hun hek
    have : ∀ {t e : List (String × Val)}, List.Forall₂ (fun a b : String × Val => a.1 = b.1 ∧
      ((∃ x y, a.2 = Val.scalar x ∧ b.2 = Val.scalar y) ∨
        ∃ x y, a.2 = Val.array x ∧ b.2 = Val.array y ∧ x.length = y.length)) t e → (ravel e).length = (ravel t).length := by
      intro t e h
      induction h with
      | nil => rfl
      | cons hab _ ih =>
        simp only [ravel, List.flatMap_cons, List.length_append] at ih ⊢
        rw [ih]
        rcases hab.2 with ⟨x, y, h1, h2⟩ | ⟨x, y, h1, h2, h3⟩
        · rw [h1, h2]; rfl
        · rw [h1, h2]; simp [Val.entries, h3]
    exact this hF
  · rw [dofsOf_phi (w := .array (phi.map fun s => s / u)) (by rw [hun, hek, hs]; simp), hphi]
    simp only [Val.map, List.map_map]
    congr 1
    conv_rhs => rw [← List.map_id phi]
    apply List.map_congr_left
    intro s _
    simp [hu]
  · intro k v hkv h1 h2
    rw [dofsOf_other hs h1 h2, hun, hek, lookup_of_mem hn hkv]
    simp [h2]

/-! ## The auxiliary variables in the flat vector -/

variable {P : Type} [HasQp P]

set_option linter.unusedSectionVars false

/-- The names of auxiliary variables are the keys of a dictionary and differ from the names of the potential. -/
def AuxNames (reg : Registry P) : Prop :=
  ∀ n q, reg n = some (.quantity q) → ((q.slackInit.getD []).map Prod.fst).Nodup ∧
    "phi" ∉ (q.slackInit.getD []).map Prod.fst ∧ "phi_scaled" ∉ (q.slackInit.getD []).map Prod.fst

/-- An initial value that comes from a quantity of the table. -/
def FromReg (reg : Registry P) (k : String) (fn : P → Dofs → Val) : Prop :=
  ∃ n q unit u init, reg n = some (.quantity q) ∧ unitCallable q unit = .ok u ∧ (k, init) ∈ q.slackInit.getD [] ∧
    fn = fun qp d => init qp d (u qp)

/-- A dictionary of initial values that come from quantities of the table. -/
def SlackOk (reg : Registry P) (l : List (String × (P → Dofs → Val))) : Prop :=
  (l.map Prod.fst).Nodup ∧ ∀ k fn, l.lookup k = some fn → FromReg reg k fn

theorem slackOk_nil (reg : Registry P) : SlackOk reg [] := ⟨List.nodup_nil, by simp⟩

theorem slackOk_union {reg : Registry P} {a b : List (String × (P → Dofs → Val))} (ha : SlackOk reg a) (hb : SlackOk reg b) :
    SlackOk reg (dictUnion a b) := by
  refine ⟨C94_union_nodup a b ha.1 hb.1, fun k fn h => ?_⟩
  rw [C94_union_lookup] at h
  cases hk : b.lookup k with
  | none =>
    rw [hk] at h
    exact ha.2 k fn h
  | some v =>
    rw [hk] at h
    cases h
    exact hb.2 k _ hk

theorem slackOk_added {reg : Registry P} (hreg : AuxNames reg) {name uc : String} {unit : UnitArg} {sm : Option String}
    {sp : SmoothingParams} {A : Added P} (h : addQuantity reg name unit uc sm sp = .ok A) : SlackOk reg A.slack := by
  obtain ⟨q, u, hq, -, -, hu, rfl⟩ := addQuantity_ok.1 h
  constructor
  · rw [addedOf_slack_keys]
    unfold auxOf
    split
    · exact (hreg _ _ hq).1
    · exact List.nodup_nil
  · intro k fn hk
    have hm := mem_of_lookup hk
    unfold addedOf at hm
    split at hm
    · obtain ⟨kv, hkv, he⟩ := List.mem_map.1 hm
      cases he
      exact ⟨name, q, unit, u, kv.2, hq, hu, hkv, rfl⟩
    · split at hm <;> simp at hm

theorem slackOk_parse {reg : Registry P} (hreg : AuxNames reg) {sm : Option String} {sp : SmoothingParams} (rs : List Request)
    (acc p : Parsed P) (h : rs.foldlM (parseStep reg sm sp) acc = .ok p) (ha : SlackOk reg acc.slack) : SlackOk reg p.slack := by
  induction rs generalizing acc with
  | nil =>
    rw [foldlM_except_nil] at h
    cases h
    exact ha
  | cons r rs ih =>
    obtain ⟨b, hb, hrest⟩ := (foldlM_except_cons _ _ _ _ _).1 h
    obtain ⟨a, hadd, hc⟩ := parseStep_ok.1 hb
    refine ih b hrest ?_
    rcases hc with ⟨-, rfl⟩ | ⟨-, rfl⟩ | ⟨-, rfl⟩ <;> exact slackOk_union ha (slackOk_added hreg hadd)

theorem slackOk_constraints {reg : Registry P} (hreg : AuxNames reg) {names types : List String} {units : List UnitArg}
    {values : List ℝ} {sm : Option String} {sp : SmoothingParams} {c : Parsed P}
    (h : parseConstraints reg names types units values sm sp = .ok c) : SlackOk reg c.slack := by
  unfold parseConstraints at h
  split at h
  · cases h
  · exact slackOk_parse hreg _ _ c h (slackOk_nil reg)

theorem slackOk_objLoop {reg : Registry P} (hreg : AuxNames reg) {sm : Option String} {sp : SmoothingParams} (ns : List String)
    (us : List UnitArg) (acc r : ObjAcc P) (h : parseObjLoop reg sm sp ns us acc = .ok r) (ha : SlackOk reg acc.slack) :
    SlackOk reg r.slack := by
  induction ns generalizing us acc with
  | nil =>
    simp only [parseObjLoop, Except.ok.injEq] at h
    rw [← h]
    exact ha
  | cons n ns ih =>
    cases us with
    | nil => simp [parseObjLoop] at h
    | cons u us =>
      simp only [parseObjLoop] at h
      cases hA : addQuantity reg n u "f" sm sp with
      | error e => simp [hA, bind, Except.bind] at h
      | ok A =>
        simp only [hA, bind, Except.bind] at h
        exact ih us _ h (slackOk_union ha (slackOk_added hreg hA))

/-- Parsed objectives are the result of the loop over the list of objectives. -/
theorem parseObjectives_ok {reg : Registry P} {names : OneOrMany String} {units : OneOrMany UnitArg} {weights : OneOrMany ℝ}
    {sm : Option String} {sp : SmoothingParams} {o : ParsedObj P} (h : parseObjectives reg names units weights sm sp = .ok o) :
    ∃ ns us ws acc, ns.length = ws.length ∧ parseObjLoop reg sm sp ns us ⟨[], [], [], []⟩ = .ok acc ∧
      o = ⟨fTot acc.f ws, acc.g, acc.h, acc.slack⟩ ∧ objectiveList names units weights = ns.zip (us.zip ws) := by
  have run : ∀ (ns : List String) (us : List UnitArg) (ws : List ℝ),
      (if ns.length ≠ ws.length then .error .valueError
        else do
          let acc ← parseObjLoop reg sm sp ns us ⟨[], [], [], []⟩
          .ok ⟨fTot acc.f ws, acc.g, acc.h, acc.slack⟩ : Except PyErr (ParsedObj P)) = .ok o →
      ns.length = ws.length ∧ ∃ acc, parseObjLoop reg sm sp ns us ⟨[], [], [], []⟩ = .ok acc ∧
        o = ⟨fTot acc.f ws, acc.g, acc.h, acc.slack⟩ := by
    intro ns us ws h
    split at h
    · cases h
    rename_i hlen
    cases hl : parseObjLoop reg sm sp ns us ⟨[], [], [], []⟩ with
    | error e => simp [hl, bind, Except.bind] at h
    | ok acc =>
      simp only [hl, bind, Except.bind, Except.ok.injEq] at h
      exact ⟨not_not.1 hlen, acc, rfl, h.symm⟩
  unfold parseObjectives at h
  simp only at h
  split at h
  · obtain ⟨h1, acc, h2, h3⟩ := run _ _ _ h
    exact ⟨_, _, _, acc, h1, h2, h3, rfl⟩
  · obtain ⟨h1, acc, h2, h3⟩ := run _ _ _ h
    rename_i n _
    simp only [parseObjLoop] at h2
    cases hA : addQuantity reg n .other "f" sm sp with
    | error e => simp [hA, bind, Except.bind] at h2
    | ok A =>
      obtain ⟨q, u, -, -, -, hu, -⟩ := addQuantity_ok.1 hA
      simp [unitCallable] at hu
  · cases h
  · obtain ⟨h1, acc, h2, h3⟩ := run _ _ _ h
    exact ⟨_, _, _, acc, h1, h2, h3, rfl⟩
  · split at h
    · cases h
    · split at h
      · obtain ⟨h1, acc, h2, h3⟩ := run _ _ _ h
        exact ⟨_, _, _, acc, h1, h2, h3, by simp [objectiveList]⟩
      · cases h

theorem slackOk_objectives {reg : Registry P} (hreg : AuxNames reg) {names : OneOrMany String} {units : OneOrMany UnitArg}
    {weights : OneOrMany ℝ} {sm : Option String} {sp : SmoothingParams} {o : ParsedObj P}
    (h : parseObjectives reg names units weights sm sp = .ok o) : SlackOk reg o.slack := by
  obtain ⟨ns, us, ws, acc, -, hl, rfl, -⟩ := parseObjectives_ok h
  exact slackOk_objLoop hreg ns us _ acc hl (slackOk_nil reg)

/-- The keys of the flat vector are distinct. -/
theorem template_nodup {reg : Registry P} (hreg : AuxNames reg) {slack : List (String × (P → Dofs → Val))} (h : SlackOk reg slack)
    (qp : P) (phiInit : List ℝ) (phiUnit : ℝ) :
    ((("phi_scaled", Val.array (phiInit.map fun t => t / phiUnit)) ::
      slack.map fun kv => (kv.1, kv.2 qp (phiOnly (Val.array phiInit)))).map Prod.fst).Nodup := by
  rw [List.map_cons, List.nodup_cons, List.map_map]
  have hk : (Prod.fst ∘ fun kv : String × (P → Dofs → Val) => (kv.1, kv.2 qp (phiOnly (Val.array phiInit)))) = Prod.fst := rfl
  rw [hk]
  refine ⟨fun hm => ?_, h.1⟩
  have := (lookup_isSome_iff slack "phi_scaled").2 hm
  obtain ⟨fn, hfn⟩ := Option.isSome_iff_exists.1 this
  obtain ⟨n, q, -, -, init, hq, -, hi, -⟩ := h.2 _ _ hfn
  exact (hreg n q hq).2.2 (List.mem_map.2 ⟨_, hi, rfl⟩)

theorem xTemplate_lookup {reg : Registry P} (hreg : AuxNames reg) {slack : List (String × (P → Dofs → Val))} (h : SlackOk reg slack)
    (qp : P) (phiInit : List ℝ) (phiUnit : ℝ) (k : String) (hk : k ≠ "phi_scaled") :
    (xTemplate qp phiInit phiUnit slack).lookup k = (slack.lookup k).map fun fn => fn qp (phiOnly (Val.array phiInit)) := by
  unfold xTemplate
  rw [sortKeys_lookup (template_nodup hreg h qp phiInit phiUnit), lookup_cons_ite, if_neg hk]
  exact lookup_map_snd slack (fun _ fn => fn qp (phiOnly (Val.array phiInit))) k

theorem xTemplate_phi {reg : Registry P} (hreg : AuxNames reg) {slack : List (String × (P → Dofs → Val))} (h : SlackOk reg slack)
    (qp : P) (phiInit : List ℝ) (phiUnit : ℝ) :
    (xTemplate qp phiInit phiUnit slack).lookup "phi_scaled" = some (Val.array (phiInit.map fun t => t / phiUnit)) := by
  unfold xTemplate
  rw [sortKeys_lookup (template_nodup hreg h qp phiInit phiUnit), lookup_cons_ite, if_pos rfl]

theorem xTemplate_nodup {reg : Registry P} (hreg : AuxNames reg) {slack : List (String × (P → Dofs → Val))} (h : SlackOk reg slack)
    (qp : P) (phiInit : List ℝ) (phiUnit : ℝ) : ((xTemplate qp phiInit phiUnit slack).map Prod.fst).Nodup :=
  sortKeys_nodup (template_nodup hreg h qp phiInit phiUnit)

/-- The value of an auxiliary variable in the dictionary passed to the physical functions has the shape of its initial value. -/
theorem dofsOf_aux {reg : Registry P} (hreg : AuxNames reg) {slack : List (String × (P → Dofs → Val))} (h : SlackOk reg slack)
    (qp : P) (phiInit : List ℝ) (phiUnit : ℝ) (x : List ℝ) {k : String} {fn : P → Dofs → Val} (hk : slack.lookup k = some fn) :
    k ≠ "phi" ∧ k ≠ "phi_scaled" ∧
    (dofsOf (xTemplate qp phiInit phiUnit slack) phiUnit x k).isScalar = (fn qp (phiOnly (Val.array phiInit))).isScalar ∧
    (x.length = (ravel (xTemplate qp phiInit phiUnit slack)).length →
      SameShape (dofsOf (xTemplate qp phiInit phiUnit slack) phiUnit x k) (fn qp (phiOnly (Val.array phiInit)))) := by
  obtain ⟨n, q, -, -, init, hq, -, hi, -⟩ := h.2 _ _ hk
  have h1 : k ≠ "phi" := by
    rintro rfl
    exact (hreg n q hq).2.1 (List.mem_map.2 ⟨_, hi, rfl⟩)
  have h2 : k ≠ "phi_scaled" := by
    rintro rfl
    exact (hreg n q hq).2.2 (List.mem_map.2 ⟨_, hi, rfl⟩)
  have hl := xTemplate_lookup hreg h qp phiInit phiUnit k h2
  rw [hk, Option.map_some] at hl
  obtain ⟨w, hw, hs, hsh⟩ := unravelLike_lookup (x := x) hl
  rw [dofsOf_other (xTemplate_phi hreg h qp phiInit phiUnit) h1 h2, hw, Option.getD_some]
  exact ⟨h1, h2, hs, hsh⟩

/-- The potential in the dictionary is an array; with the right length of the flat vector it has the length of the initial one. -/
theorem dofsOf_phi_array {reg : Registry P} (hreg : AuxNames reg) {slack : List (String × (P → Dofs → Val))} (h : SlackOk reg slack)
    (qp : P) (phiInit : List ℝ) (phiUnit : ℝ) (x : List ℝ) :
    ∃ phi, dofsOf (xTemplate qp phiInit phiUnit slack) phiUnit x "phi" = .array phi ∧
      (x.length = (ravel (xTemplate qp phiInit phiUnit slack)).length → phi.length = phiInit.length) := by
  obtain ⟨w, hw, hs, hsh⟩ := unravelLike_lookup (x := x) (xTemplate_phi hreg h qp phiInit phiUnit)
  cases w with
  | scalar y => simp [Val.isScalar] at hs
  | array ys =>
    rw [dofsOf_phi hw]
    refine ⟨_, rfl, fun hx => ?_⟩
    have := hsh hx
    simpa [SameShape] using this

end Verif
