import Verif.Lemmas.Wrapper
import Verif.Spec.Constraint
import Verif.Spec.ToyQp

/-!
# Properties C15, C16, C17, C18: what the parsed constraints mean
-/

namespace Verif

set_option linter.unusedSectionVars false

variable {P : Type} [HasQp P]

theorem map_map2_scalar (f : ℝ → ℝ → ℝ) (v : Val) (w : ℝ) :
    (Val.map2 f v (Val.scalar w)).entries = v.entries.map fun x => f x w := by
  cases v <;> simp [Val.map2, Val.entries]

theorem entries_map (f : ℝ → ℝ) (v : Val) : (Val.map f v).entries = v.entries.map f := by
  cases v <;> simp [Val.map, Val.entries]

theorem isScalar_map (f : ℝ → ℝ) (v : Val) : (Val.map f v).isScalar = v.isScalar := by
  cases v <;> rfl

theorem isScalar_map2_scalar (f : ℝ → ℝ → ℝ) (v : Val) (w : ℝ) :
    (Val.map2 f v (Val.scalar w)).isScalar = v.isScalar := by
  cases v <;> rfl

/-- Entries of the centred constraint function before smoothing, scalar unit. -/
theorem consFunc_entries_none (q : Quantity P) (u : P → Val) (w value sign : ℝ) (sp : SmoothingParams) (qp : P)
    (dofs : Dofs) (hu : u qp = Val.scalar w) :
    (consFunc (addedOf q none sp u) value sign none sp qp dofs).entries =
      (q.rawF qp dofs).entries.map fun x => sign * (x / w - value / w) := by
  cases hr : q.rawF qp dofs <;> simp [consFunc, addedOf, hu, hr, Val.map2, Val.map, Val.entries]

/-- Whether a request is an inequality. -/
def Request.isIneq (r : Request) : Bool := r.type = "<=" || r.type = ">="
/-- Whether a request is an equality. -/
def Request.isEq (r : Request) : Bool := r.type = "=="

/-- The meaning of a request. -/
def Request.Holds (reg : Registry P) (r : Request) (qp : P) (dofs : Dofs) : Prop :=
  ∃ q, reg r.name = some (.quantity q) ∧ FieldConstraint r.type r.value (q.rawF qp dofs).entries

theorem scaled_le_iff {x v w : ℝ} (hw : 0 < w) : 1 * (x / w - v / w) ≤ 0 ↔ x ≤ v := by
  rw [one_mul, sub_nonpos, div_le_div_iff_of_pos_right hw]

theorem scaled_ge_iff {x v w : ℝ} (hw : 0 < w) : -1 * (x / w - v / w) ≤ 0 ↔ v ≤ x := by
  rw [neg_one_mul, neg_nonpos, sub_nonneg, div_le_div_iff_of_pos_right hw]

theorem scaled_eq_iff {x v w : ℝ} (hw : 0 < w) : 1 * (x / w - v / w) = 0 ↔ x = v := by
  rw [one_mul, sub_eq_zero, div_left_inj' hw.ne']

theorem holds_iff {reg : Registry P} {r : Request} {q : Quantity P} (hq : reg r.name = some (.quantity q)) (qp : P)
    (dofs : Dofs) : r.Holds reg qp dofs ↔ FieldConstraint r.type r.value (q.rawF qp dofs).entries := by
  unfold Request.Holds
  rw [hq]
  simp

/-- Loop invariant for `C15`. -/
theorem parse_none_aux (reg : Registry P) (sp : SmoothingParams) (rs : List Request) (acc p : Parsed P)
    (h : rs.foldlM (parseStep reg none sp) acc = .ok p)
    (hu : ∀ r ∈ rs, ∃ u, r.unit = .scalar u ∧ u ≠ 0) :
    ∃ gs hs, p.g = acc.g ++ gs ∧ p.h = acc.h ++ hs ∧
      List.Forall₂ (fun g r => ∀ qp dofs, AllNonpos (g qp dofs).entries ↔ r.Holds reg qp dofs) gs
        (rs.filter Request.isIneq) ∧
      List.Forall₂ (fun h r => ∀ qp dofs, AllZero (h qp dofs).entries ↔ r.Holds reg qp dofs) hs
        (rs.filter Request.isEq) ∧
      (∀ r ∈ rs, r.isIneq = true ∨ r.isEq = true) := by
  induction rs generalizing acc with
  | nil =>
    rw [foldlM_except_nil] at h
    cases h
    exact ⟨[], [], by simp⟩
  | cons r rs ih =>
    obtain ⟨b, hb, hrest⟩ := (foldlM_except_cons _ _ _ _ _).1 h
    obtain ⟨gs, hs, hg, hh, hF, hE, hall⟩ := ih b hrest fun r' hr' => hu r' (List.mem_cons_of_mem _ hr')
    obtain ⟨a, ha, hcases⟩ := parseStep_ok.1 hb
    obtain ⟨q, u, hq, -, -, huc, rfl⟩ := addQuantity_ok.1 ha
    obtain ⟨w, hw, hw0⟩ := hu r (List.mem_cons_self ..)
    rw [hw] at huc
    simp only [unitCallable, Except.ok.injEq] at huc
    have hwpos : 0 < |w| := abs_pos.2 hw0
    have hent : ∀ sign qp dofs, (consFunc (addedOf q none sp u) r.value sign none sp qp dofs).entries =
        (q.rawF qp dofs).entries.map fun x => sign * (x / |w| - r.value / |w|) := fun sign qp dofs =>
      consFunc_entries_none q u |w| r.value sign sp qp dofs (by rw [← huc])
    rcases hcases with ⟨ht, rfl⟩ | ⟨ht, rfl⟩ | ⟨ht, rfl⟩
    · refine ⟨gs, consFunc (addedOf q none sp u) r.value 1 none sp :: hs, ?_, ?_, ?_, ?_, ?_⟩
      · simpa [addedOf] using hg
      · simpa [addedOf] using hh
      · rw [List.filter_cons_of_neg (by simp [Request.isIneq, ht])]; exact hF
      · rw [List.filter_cons_of_pos (by simp [Request.isEq, ht])]
        refine List.Forall₂.cons (fun qp dofs => ?_) hE
        rw [hent, holds_iff hq]
        simp [AllZero, FieldConstraint, ht, scaled_eq_iff hwpos, -one_mul]
      · intro r' hr'
        rcases List.mem_cons.1 hr' with rfl | hr'
        · right; simp [Request.isEq, ht]
        · exact hall r' hr'
    · refine ⟨consFunc (addedOf q none sp u) r.value 1 none sp :: gs, hs, ?_, ?_, ?_, ?_, ?_⟩
      · simpa [addedOf] using hg
      · simpa [addedOf] using hh
      · rw [List.filter_cons_of_pos (by simp [Request.isIneq, ht])]
        refine List.Forall₂.cons (fun qp dofs => ?_) hF
        rw [hent, holds_iff hq]
        simp only [AllNonpos, List.mem_map, forall_exists_index, and_imp, forall_apply_eq_imp_iff₂,
          scaled_le_iff hwpos, FieldConstraint, ht]
        simp
      · rw [List.filter_cons_of_neg (by simp [Request.isEq, ht])]; exact hE
      · intro r' hr'
        rcases List.mem_cons.1 hr' with rfl | hr'
        · left; simp [Request.isIneq, ht]
        · exact hall r' hr'
    · refine ⟨consFunc (addedOf q none sp u) r.value (-1) none sp :: gs, hs, ?_, ?_, ?_, ?_, ?_⟩
      · simpa [addedOf] using hg
      · simpa [addedOf] using hh
      · rw [List.filter_cons_of_pos (by simp [Request.isIneq, ht])]
        refine List.Forall₂.cons (fun qp dofs => ?_) hF
        rw [hent, holds_iff hq]
        simp only [AllNonpos, List.mem_map, forall_exists_index, and_imp, forall_apply_eq_imp_iff₂,
          scaled_ge_iff hwpos, FieldConstraint, ht]
        simp
      · rw [List.filter_cons_of_neg (by simp [Request.isEq, ht])]; exact hE
      · intro r' hr'
        rcases List.mem_cons.1 hr' with rfl | hr'
        · left; simp [Request.isIneq, ht]
        · exact hall r' hr'

/-- **C15.** Without smoothing and with non-zero units, the generated inequality functions correspond one to one and in
order to the requested inequalities, and the generated equality functions to the requested equalities: a generated
function is satisfied at a point if and only if the requested constraint holds there at every grid point. -/
theorem C15_blocks_match_requests (reg : Registry P) (names types : List String) (units : List UnitArg)
    (values : List ℝ) (sp : SmoothingParams) (p : Parsed P)
    (h : parseConstraints reg names types units values none sp = .ok p)
    (hu : ∀ u ∈ units, ∃ x, u = .scalar x ∧ x ≠ 0) :
    List.Forall₂ (fun g r => ∀ qp dofs, AllNonpos (g qp dofs).entries ↔ r.Holds reg qp dofs) p.g
        ((zipRequests names types units values).filter Request.isIneq) ∧
    List.Forall₂ (fun h r => ∀ qp dofs, AllZero (h qp dofs).entries ↔ r.Holds reg qp dofs) p.h
        ((zipRequests names types units values).filter Request.isEq) := by
  unfold parseConstraints at h
  split at h
  · cases h
  obtain ⟨gs, hs, hg, hh, hF, hE, -⟩ := parse_none_aux reg sp _ _ _ h (by
    intro r hr
    unfold zipRequests at hr
    obtain ⟨i, hi, rfl⟩ := List.mem_iff_getElem.1 hr
    simp only [List.getElem_zipWith, List.getElem_zip]
    exact hu _ (List.getElem_mem _))
  simp only [List.nil_append] at hg hh
  rw [hg, hh]
  exact ⟨hF, hE⟩

/-- **C15.** The whole constraint set: all generated functions are satisfied exactly when every requested constraint
`names[i] types[i] values[i]` holds at every grid point. -/
theorem C15_feasible_iff_requests_hold (reg : Registry P) (names types : List String) (units : List UnitArg)
    (values : List ℝ) (sp : SmoothingParams) (p : Parsed P)
    (h : parseConstraints reg names types units values none sp = .ok p)
    (hu : ∀ u ∈ units, ∃ x, u = .scalar x ∧ x ≠ 0) (qp : P) (dofs : Dofs) :
    ((∀ g ∈ p.g, AllNonpos (g qp dofs).entries) ∧ (∀ k ∈ p.h, AllZero (k qp dofs).entries)) ↔
      ∀ (i : ℕ) (h1 : i < names.length) (h2 : i < types.length) (h3 : i < values.length),
        ∃ q, reg names[i] = some (.quantity q) ∧ FieldConstraint types[i] values[i] (q.rawF qp dofs).entries := by
  have hlen : ¬ (names.length ≠ types.length ∨ names.length ≠ units.length ∨ names.length ≠ values.length) := by
    intro hc
    simp [parseConstraints, hc] at h
  have hblocks := C15_blocks_match_requests reg names types units values sp p h hu
  unfold parseConstraints at h
  rw [if_neg hlen] at h
  push Not at hlen
  obtain ⟨hl1, hl2, hl3⟩ := hlen
  obtain ⟨_, _, -, -, -, -, hall⟩ := parse_none_aux reg sp _ _ _ h (by
    intro r hr
    unfold zipRequests at hr
    obtain ⟨i, hi, rfl⟩ := List.mem_iff_getElem.1 hr
    simp only [List.getElem_zipWith, List.getElem_zip]
    exact hu _ (List.getElem_mem _))
  have hreq : (∀ r ∈ zipRequests names types units values, r.Holds reg qp dofs) ↔
      ∀ (i : ℕ) (h1 : i < names.length) (h2 : i < types.length) (h3 : i < values.length),
        ∃ q, reg names[i] = some (.quantity q) ∧ FieldConstraint types[i] values[i] (q.rawF qp dofs).entries := by
    constructor
    · intro H i h1 h2 h3
      have hi : i < (zipRequests names types units values).length := by
        simp [zipRequests]; omega
      have := H _ (List.getElem_mem hi)
      simpa [zipRequests, Request.Holds] using this
    · intro H r hr
      obtain ⟨i, hi, rfl⟩ := List.mem_iff_getElem.1 hr
      have hi' := hi
      simp [zipRequests] at hi'
      have := H i (by omega) (by omega) (by omega)
      simpa [zipRequests, Request.Holds] using this
  rw [← hreq]
  generalize zipRequests names types units values = rs at hblocks hall
  have key : ∀ (Q : List ℝ → Prop) (fs : List (P → Dofs → Val)) (l : List Request),
      List.Forall₂ (fun g r => ∀ qp dofs, Q (g qp dofs).entries ↔ r.Holds reg qp dofs) fs l →
      ((∀ g ∈ fs, Q (g qp dofs).entries) ↔ ∀ r ∈ l, r.Holds reg qp dofs) := by
    intro Q fs l hf
    induction hf with
    | nil => simp
    | cons hab _ ih => simp only [List.forall_mem_cons, hab qp dofs, ih]
  rw [key AllNonpos _ _ hblocks.1, key AllZero _ _ hblocks.2]
  constructor
  · rintro ⟨h1, h2⟩ r hr
    rcases hall r hr with h | h
    · exact h1 r (List.mem_filter.2 ⟨hr, h⟩)
    · exact h2 r (List.mem_filter.2 ⟨hr, h⟩)
  · intro H
    exact ⟨fun r hr => H r (List.mem_filter.1 hr).1, fun r hr => H r (List.mem_filter.1 hr).1⟩

/-- `C15` is not vacuous: a '<=' and an '==' request are parsed, with the units 2 and -3. -/
example (sp : SmoothingParams) : ∃ p, parseConstraints toyRegistry ["K_theta", "K_dot_grad_K"] ["<=", "=="]
    [.scalar 2, .scalar (-3)] [1, 0] none sp = .ok p ∧ p.g.length = 1 ∧ p.h.length = 1 := by
  simp [parseConstraints, zipRequests, parseStep, addQuantity, getQuantity, toyRegistry, Quantity.scaledF,
    Quantity.scaledG, Quantity.scaledH, Quantity.scaledInit, unitCallable, Quantity.generateC2, bind, Except.bind,
    pure, Except.pure]

/-! ## C16: unit `None` -/

/-- Same shape: both zero-dimensional, or both arrays of the same size. -/
def SameShape : Val → Val → Prop
  | .scalar _, .scalar _ => True
  | .array xs, .array ys => xs.length = ys.length
  | _, _ => False

/-- The value of a quantity when all current potential coefficients are zero (the documented automatic unit). -/
def valueAtZero (q : Quantity P) (qp : P) : Val :=
  q.rawF qp (phiOnly (Val.array (List.replicate (HasQp.ndofs qp) 0)))

theorem consFunc_auto (q : Quantity P) (value sign : ℝ) (sp : SmoothingParams) (qp : P) (dofs : Dofs)
    (hs : SameShape (q.rawF qp dofs) (valueAtZero q qp)) (x : ℝ) (u : P → Val) (hu : unitCallable q .none = .ok u) :
    x ∈ (consFunc (addedOf q none sp u) value sign none sp qp dofs).entries ↔
      ∃ yw ∈ (q.rawF qp dofs).entries.zip (valueAtZero q qp).entries, x = sign * (yw.1 / yw.2 - value / yw.2) := by
  simp only [unitCallable, Except.ok.injEq] at hu
  have huq : u qp = valueAtZero q qp := by rw [← hu]; simp [Quantity.call, valueAtZero, phiOnly]
  simp only [consFunc, addedOf, reduceCtorEq, if_false, if_true, huq, false_and]
  generalize q.rawF qp dofs = v at hs
  generalize valueAtZero q qp = w at hs
  cases v with
  | scalar a =>
    cases w with
    | scalar b => simp [Val.map2, Val.map, Val.entries]
    | array bs => exact absurd hs (by simp [SameShape])
  | array as =>
    cases w with
    | scalar b => exact absurd hs (by simp [SameShape])
    | array bs =>
      simp only [Val.map2, Val.map, Val.entries]
      have : List.map (fun x => sign * x) (List.zipWith (fun x1 x2 => x1 - x2)
          (List.zipWith (fun x1 x2 => x1 / x2) as bs) (List.map (fun x => value / x) bs)) =
          (as.zip bs).map fun yw => sign * (yw.1 / yw.2 - value / yw.2) := by
        clear hs
        induction as generalizing bs with
        | nil => simp
        | cons a as ih =>
          cases bs with
          | nil => simp
          | cons b bs => simp [ih]
      rw [this, List.mem_map]
      exact ⟨fun ⟨yw, h, e⟩ => ⟨yw, h, e.symm⟩, fun ⟨yw, h, e⟩ => ⟨yw, h, e.symm⟩⟩

theorem mem_zip_left_of_length {as bs : List ℝ} (h : as.length = bs.length) {a : ℝ} (ha : a ∈ as) :
    ∃ b, (a, b) ∈ as.zip bs := by
  obtain ⟨i, hi, rfl⟩ := List.mem_iff_getElem.1 ha
  exact ⟨bs[i], List.mem_iff_getElem.2 ⟨i, by simp; omega, by simp⟩⟩

theorem SameShape.length {v w : Val} (h : SameShape v w) : v.entries.length = w.entries.length := by
  cases v <;> cases w <;> simp_all [SameShape, Val.entries]

/-- Inequality functions generated by one request with unit `None`. -/
theorem parse_one_auto (reg : Registry P) (name type : String) (value : ℝ) (sp : SmoothingParams) (p : Parsed P)
    (q : Quantity P) (hq : reg name = some (.quantity q))
    (h : parseConstraints reg [name] [type] [.none] [value] none sp = .ok p) :
    ∃ u, unitCallable q .none = .ok u ∧
      ((type = "==" ∧ p.g = [] ∧ p.h = [consFunc (addedOf q none sp u) value 1 none sp]) ∨
       (type = "<=" ∧ p.h = [] ∧ p.g = [consFunc (addedOf q none sp u) value 1 none sp]) ∨
       (type = ">=" ∧ p.h = [] ∧ p.g = [consFunc (addedOf q none sp u) value (-1) none sp])) := by
  unfold parseConstraints at h
  rw [if_neg (by simp)] at h
  obtain ⟨b, hb, hrest⟩ := (foldlM_except_cons _ _ _ _ _).1 h
  change Except.ok b = Except.ok p at hrest
  cases hrest
  obtain ⟨a, ha, hc⟩ := parseStep_ok.1 hb
  obtain ⟨q', u, hq', -, -, hu, rfl⟩ := addQuantity_ok.1 ha
  change reg name = _ at hq'
  rw [hq] at hq'
  cases hq'
  refine ⟨u, hu, ?_⟩
  rcases hc with ⟨ht, rfl⟩ | ⟨ht, rfl⟩ | ⟨ht, rfl⟩
  · exact Or.inl ⟨ht, by simp [addedOf], by simp [addedOf]⟩
  · exact Or.inr (Or.inl ⟨ht, by simp [addedOf], by simp [addedOf]⟩)
  · exact Or.inr (Or.inr ⟨ht, by simp [addedOf], by simp [addedOf]⟩)

/-- **C16, true part.** With unit `None` and a quantity that is positive at zero coefficients at every grid point, the
generated functions encode the requested constraint. Missing: quantities that are zero or negative there. -/
theorem C16_auto_unit_positive_partial (reg : Registry P) (name type : String) (value : ℝ) (sp : SmoothingParams)
    (p : Parsed P) (q : Quantity P) (hq : reg name = some (.quantity q))
    (h : parseConstraints reg [name] [type] [.none] [value] none sp = .ok p) (qp : P) (dofs : Dofs)
    (hs : SameShape (q.rawF qp dofs) (valueAtZero q qp)) (hpos : ∀ w ∈ (valueAtZero q qp).entries, 0 < w) :
    ((∀ g ∈ p.g, AllNonpos (g qp dofs).entries) ∧ (∀ k ∈ p.h, AllZero (k qp dofs).entries)) ↔
      FieldConstraint type value (q.rawF qp dofs).entries := by
  obtain ⟨u, hu, hc⟩ := parse_one_auto reg name type value sp p q hq h
  have hmem := fun sign x => consFunc_auto q value sign sp qp dofs hs x u hu
  have hlen := hs.length
  rcases hc with ⟨rfl, hg, hh⟩ | ⟨rfl, hh, hg⟩ | ⟨rfl, hh, hg⟩
  · rw [hg, hh]
    simp only [List.not_mem_nil, false_imp_iff, implies_true, true_and, List.mem_singleton, forall_eq, AllZero, hmem]
    constructor
    · intro H
      refine ⟨by simp, by simp, fun _ x hx => ?_⟩
      obtain ⟨w, hw⟩ := mem_zip_left_of_length hlen hx
      exact (scaled_eq_iff (hpos w (List.of_mem_zip hw).2)).1 (H _ ⟨_, hw, rfl⟩)
    · rintro ⟨-, -, H⟩ _ ⟨yw, hyw, rfl⟩
      exact (scaled_eq_iff (hpos _ (List.of_mem_zip hyw).2)).2 (H rfl _ (List.of_mem_zip hyw).1)
  · rw [hg, hh]
    simp only [List.not_mem_nil, false_imp_iff, implies_true, and_true, List.mem_singleton, forall_eq, AllNonpos, hmem]
    constructor
    · intro H
      refine ⟨fun _ x hx => ?_, by simp, by simp⟩
      obtain ⟨w, hw⟩ := mem_zip_left_of_length hlen hx
      exact (scaled_le_iff (hpos w (List.of_mem_zip hw).2)).1 (H _ ⟨_, hw, rfl⟩)
    · rintro ⟨H, -, -⟩ _ ⟨yw, hyw, rfl⟩
      exact (scaled_le_iff (hpos _ (List.of_mem_zip hyw).2)).2 (H rfl _ (List.of_mem_zip hyw).1)
  · rw [hg, hh]
    simp only [List.not_mem_nil, false_imp_iff, implies_true, and_true, List.mem_singleton, forall_eq, AllNonpos, hmem]
    constructor
    · intro H
      refine ⟨by simp, fun _ x hx => ?_, by simp⟩
      obtain ⟨w, hw⟩ := mem_zip_left_of_length hlen hx
      exact (scaled_ge_iff (hpos w (List.of_mem_zip hw).2)).1 (H _ ⟨_, hw, rfl⟩)
    · rintro ⟨-, H, -⟩ _ ⟨yw, hyw, rfl⟩
      exact (scaled_ge_iff (hpos _ (List.of_mem_zip hyw).2)).2 (H rfl _ (List.of_mem_zip hyw).1)

/-- **C16 fails.** With unit `None` and a quantity that is negative at zero coefficients, a '<=' request is turned into
the opposite constraint `value <= quantity`. -/
theorem C16_auto_unit_negative_flips_partial (reg : Registry P) (name : String) (value : ℝ) (sp : SmoothingParams)
    (p : Parsed P) (q : Quantity P) (hq : reg name = some (.quantity q))
    (h : parseConstraints reg [name] ["<="] [.none] [value] none sp = .ok p) (qp : P) (dofs : Dofs)
    (hs : SameShape (q.rawF qp dofs) (valueAtZero q qp)) (hneg : ∀ w ∈ (valueAtZero q qp).entries, w < 0) :
    ((∀ g ∈ p.g, AllNonpos (g qp dofs).entries) ∧ (∀ k ∈ p.h, AllZero (k qp dofs).entries)) ↔
      FieldConstraint ">=" value (q.rawF qp dofs).entries := by
  obtain ⟨u, hu, hc⟩ := parse_one_auto reg name "<=" value sp p q hq h
  have hmem := fun sign x => consFunc_auto q value sign sp qp dofs hs x u hu
  have hlen := hs.length
  simp only [String.reduceEq, false_and, true_and, false_or, or_false] at hc
  obtain ⟨hh, hg⟩ := hc
  have hflip : ∀ {x w : ℝ}, w < 0 → (1 * (x / w - value / w) ≤ 0 ↔ value ≤ x) := by
    intro x w hw
    rw [one_mul, sub_nonpos, div_le_div_right_of_neg hw]
  rw [hg, hh]
  simp only [List.not_mem_nil, false_imp_iff, implies_true, and_true, List.mem_singleton, forall_eq, AllNonpos, hmem]
  constructor
  · intro H
    refine ⟨by simp, fun _ x hx => ?_, by simp⟩
    obtain ⟨w, hw⟩ := mem_zip_left_of_length hlen hx
    exact (hflip (hneg w (List.of_mem_zip hw).2)).1 (H _ ⟨_, hw, rfl⟩)
  · rintro ⟨-, H, -⟩ _ ⟨yw, hyw, rfl⟩
    exact (hflip (hneg _ (List.of_mem_zip hyw).2)).2 (H rfl _ (List.of_mem_zip hyw).1)

/-- **C16 fails, witness.** With negative net poloidal current, requesting `K_theta <= 0` with unit `None` accepts a point
with `K_theta = 4 > 0` everywhere, and the same request with unit 1 rejects it. -/
theorem C16_violated_partial (sp : SmoothingParams) :
    ∃ (qp : ToyQp) (dofs : Dofs) (p p1 : Parsed ToyQp),
      parseConstraints toyRegistry ["K_theta"] ["<="] [.none] [0] none sp = .ok p ∧
      parseConstraints toyRegistry ["K_theta"] ["<="] [.scalar 1] [0] none sp = .ok p1 ∧
      (∀ g ∈ p.g, AllNonpos (g qp dofs).entries) ∧ ¬ (∀ g ∈ p1.g, AllNonpos (g qp dofs).entries) ∧
      ¬ FieldConstraint "<=" 0 (toyKTheta qp dofs).entries := by
  refine ⟨⟨-1⟩, phiOnly (Val.array [5, 5]), _, _, rfl, rfl, ?_, ?_, ?_⟩
  · simp [AllNonpos, consFunc, Quantity.generateC2, toyKTheta, phiOnly, Val.entries, Val.map2, Val.map, Quantity.call,
      HasQp.ndofs]
    norm_num
  · simp [AllNonpos, consFunc, Quantity.generateC2, toyKTheta, phiOnly, Val.entries, Val.map2, Val.map]
  · simp [FieldConstraint, toyKTheta, phiOnly, Val.entries]

/-- The hypotheses of `C16_auto_unit_positive_partial` hold for a positive net current. -/
example : SameShape ((Quantity.generateC2 toyKTheta ["<=", ">="]).rawF ⟨2⟩ (phiOnly (Val.array [1, 3])))
      (valueAtZero (Quantity.generateC2 toyKTheta ["<=", ">="]) ⟨2⟩) ∧
    ∀ w ∈ (valueAtZero (Quantity.generateC2 toyKTheta ["<=", ">="]) (⟨2⟩ : ToyQp)).entries, 0 < w := by
  constructor
  · simp [SameShape, valueAtZero, Quantity.generateC2, toyKTheta, phiOnly, Val.entries, HasQp.ndofs]
  · simp [valueAtZero, Quantity.generateC2, toyKTheta, phiOnly, Val.entries, HasQp.ndofs]

end Verif
