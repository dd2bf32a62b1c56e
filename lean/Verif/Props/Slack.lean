import Verif.Props.Constraints

/-!
# Properties C19, C20, C22, C61: the slack reformulations of max-type and L1 quantities

Throughout, the field of a quantity only depends on the current potential coefficients (`PhiOnly`), the name of the
auxiliary variable is not `"phi"`, and the user gave a non-zero unit.
-/

namespace Verif

set_option linter.unusedSectionVars false

variable {P : Type} [HasQp P]

/-- The field reads nothing but `dofs['phi']`. -/
def PhiOnly (func : P → Dofs → Val) : Prop := ∀ qp d d', d "phi" = d' "phi" → func qp d = func qp d'

/-- Give the auxiliary variable `aux` the value `v`. -/
def setAux (dofs : Dofs) (aux : String) (v : Val) : Dofs := fun k => if k = aux then v else dofs k

theorem setAux_self (dofs : Dofs) (aux : String) (v : Val) : setAux dofs aux v aux = v := by simp [setAux]

theorem PhiOnly.setAux {func : P → Dofs → Val} (h : PhiOnly func) {aux : String} (ha : aux ≠ "phi") (qp : P)
    (dofs : Dofs) (v : Val) : func qp (setAux dofs aux v) = func qp dofs :=
  h _ _ _ (by simp [Verif.setAux, ha.symm])

/-- A quantity as the solver sees it in slack mode, with unit `u`. -/
theorem addQuantity_slack {reg : Registry P} {name uc : String} {u : ℝ} {sp : SmoothingParams} {a : Added P}
    {q : Quantity P} (hq : reg name = some (.quantity q))
    (h : addQuantity reg name (.scalar u) uc (some "slack") sp = .ok a) :
    a = addedOf q (some "slack") sp fun _ => Val.scalar |u| := by
  obtain ⟨q', u', hq', -, -, hu, rfl⟩ := addQuantity_ok.1 h
  rw [hq] at hq'
  cases hq'
  simp only [unitCallable, Except.ok.injEq] at hu
  rw [← hu]

theorem entries_array (xs : List ℝ) : (Val.array xs).entries = xs := rfl

/-- Entries of the slack inequality with a scalar unit and a scalar auxiliary variable. -/
theorem slackIneq_nonpos (field : Val) (w p : ℝ) (hw : 0 < w) (pd : Bool)
    (hpd : pd = true → ∀ x ∈ field.entries, 0 ≤ x) (hp : pd = true → field.entries ≠ []) :
    AllNonpos (Quantity.slackIneq field (Val.scalar w) (Val.scalar p) pd).entries ↔
      ∀ x ∈ field.entries, |x| ≤ p * w := by
  cases pd with
  | true =>
    simp only [Quantity.slackIneq, if_true, Val.map2, Val.entries, AllNonpos, List.map_map, List.mem_map,
      Function.comp_apply, forall_exists_index, and_imp, forall_apply_eq_imp_iff₂, sub_nonpos]
    refine forall₂_congr fun x hx => ?_
    rw [abs_of_nonneg (hpd rfl x hx), div_le_iff₀ hw]
  | false =>
    simp only [Quantity.slackIneq, Bool.false_eq_true, if_false, Val.map2, Val.map, Val.entries, AllNonpos,
      List.mem_append, List.map_map, List.mem_map, Function.comp_apply]
    constructor
    · intro H x hx
      have h1 := H (x / w - p) (Or.inl ⟨x, hx, rfl⟩)
      have h2 := H (-x / w - p) (Or.inr ⟨x, hx, rfl⟩)
      rw [sub_nonpos, div_le_iff₀ hw] at h1 h2
      exact abs_le.2 ⟨by linarith, h1⟩
    · rintro H y (⟨x, hx, rfl⟩ | ⟨x, hx, rfl⟩)
      · rw [sub_nonpos, div_le_iff₀ hw]
        exact (abs_le.1 (H x hx)).2
      · rw [sub_nonpos, div_le_iff₀ hw]
        have := (abs_le.1 (H x hx)).1
        linarith

/-- **C19.** Max-norm quantity in slack mode (objective or '<=' constraint): for every threshold `t`, some value of the
auxiliary variable satisfies the generated inequalities and makes the generated quantity at most `t`, if and only if
`|field| / |unit| <= t` at every grid point. If `positive_definite` was declared, the field must be non-negative. -/
theorem C19_slack_max_exact (reg : Registry P) (name uc aux : String) (func : P → Dofs → Val) (pd : Bool)
    (hreg : reg name = some (.quantity (Quantity.generateLinf func aux pd false))) (hfunc : PhiOnly func)
    (haux : aux ≠ "phi") (u : ℝ) (hu : u ≠ 0) (sp : SmoothingParams) (a : Added P)
    (h : addQuantity reg name (.scalar u) uc (some "slack") sp = .ok a) (qp : P) (dofs : Dofs)
    (hne : (func qp dofs).entries ≠ []) (hpd : pd = true → ∀ x ∈ (func qp dofs).entries, 0 ≤ x) (t : ℝ) :
    (∃ p v, (∀ g ∈ a.g, AllNonpos (g qp (setAux dofs aux (.scalar p))).entries) ∧
      (∀ k ∈ a.h, AllZero (k qp (setAux dofs aux (.scalar p))).entries) ∧
      a.val qp (setAux dofs aux (.scalar p)) = .scalar v ∧ v ≤ t) ↔
    ∀ x ∈ (func qp dofs).entries, |x| / |u| ≤ t := by
  have hu' : 0 < |u| := abs_pos.2 hu
  rw [addQuantity_slack hreg h]
  simp only [addedOf, if_true, Quantity.generateLinf, Bool.false_eq_true, if_false, Option.map_some, Option.toList_some,
    List.mem_singleton, forall_eq, Option.map_none, Option.toList_none, List.not_mem_nil, false_imp_iff, implies_true,
    true_and, setAux_self, hfunc.setAux haux, Val.scalar.injEq, slackIneq_nonpos _ _ _ hu' pd hpd fun _ => hne]
  constructor
  · rintro ⟨p, v, H, rfl, ht⟩ x hx
    rw [div_le_iff₀ hu']
    exact (H x hx).trans (mul_le_mul_of_nonneg_right ht hu'.le)
  · intro H
    exact ⟨t, t, fun x hx => (div_le_iff₀ hu').1 (H x hx), rfl, le_rfl⟩

/-- **C19, initial value.** The supplied initial auxiliary value satisfies the generated inequalities and makes the
generated quantity equal to the true maximum of `|field|` divided by the unit. -/
theorem C19_slack_max_initial (reg : Registry P) (name uc aux : String) (func : P → Dofs → Val) (pd : Bool)
    (hreg : reg name = some (.quantity (Quantity.generateLinf func aux pd false))) (hfunc : PhiOnly func)
    (haux : aux ≠ "phi") (u : ℝ) (hu : u ≠ 0) (sp : SmoothingParams) (a : Added P)
    (h : addQuantity reg name (.scalar u) uc (some "slack") sp = .ok a) (qp : P) (dofs : Dofs)
    (hpd : pd = true → ∀ x ∈ (func qp dofs).entries, 0 ≤ x) (m : ℝ)
    (hm : ∃ x ∈ (func qp dofs).entries, |x| = m) (hmax : ∀ x ∈ (func qp dofs).entries, |x| ≤ m) :
    ∃ init, a.slack = [(aux, init)] ∧
      (∀ g ∈ a.g, AllNonpos (g qp (setAux dofs aux (init qp dofs))).entries) ∧
      a.val qp (setAux dofs aux (init qp dofs)) = .scalar (m / |u|) := by
  have hu' : 0 < |u| := abs_pos.2 hu
  obtain ⟨x0, hx0, hx0m⟩ := hm
  have hne : (func qp dofs).entries ≠ [] := List.ne_nil_of_mem hx0
  have hj : Quantity.maxAbs (func qp dofs) = m := by
    unfold Quantity.maxAbs
    refine jmax_eq (List.mem_map.2 ⟨x0, hx0, hx0m⟩) ?_
    intro y hy
    obtain ⟨x, hx, rfl⟩ := List.mem_map.1 hy
    exact hmax x hx
  rw [addQuantity_slack hreg h]
  refine ⟨_, rfl, ?_, ?_⟩
  · simp only [addedOf, if_true, Quantity.generateLinf, Bool.false_eq_true, if_false, Option.map_some,
      Option.toList_some, List.mem_singleton, forall_eq, setAux_self, hfunc.setAux haux, Val.map2, hj,
      slackIneq_nonpos _ _ _ hu' pd hpd fun _ => hne]
    intro x hx
    rw [div_mul_cancel₀ _ hu'.ne']
    exact hmax x hx
  · simp [addedOf, Quantity.generateLinf, setAux_self, Val.map2, hj]

/-- **C20 (square).** Squared max-norm quantity in slack mode: the generated quantity can be made at most `t` exactly when
`field^2 / |unit| <= t` at every grid point. -/
theorem C20_slack_square_exact (reg : Registry P) (name uc aux : String) (func : P → Dofs → Val) (pd : Bool)
    (hreg : reg name = some (.quantity (Quantity.generateLinf func aux pd true))) (hfunc : PhiOnly func)
    (haux : aux ≠ "phi") (u : ℝ) (hu : u ≠ 0) (sp : SmoothingParams) (a : Added P)
    (h : addQuantity reg name (.scalar u) uc (some "slack") sp = .ok a) (qp : P) (dofs : Dofs)
    (hne : (func qp dofs).entries ≠ []) (hpd : pd = true → ∀ x ∈ (func qp dofs).entries, 0 ≤ x) (t : ℝ) :
    (∃ p v, (∀ g ∈ a.g, AllNonpos (g qp (setAux dofs aux (.scalar p))).entries) ∧
      (∀ k ∈ a.h, AllZero (k qp (setAux dofs aux (.scalar p))).entries) ∧
      a.val qp (setAux dofs aux (.scalar p)) = .scalar v ∧ v ≤ t) ↔
    ∀ x ∈ (func qp dofs).entries, x ^ 2 / |u| ≤ t := by
  have hu' : 0 < |u| := abs_pos.2 hu
  have hs : 0 < Real.sqrt |u| := Real.sqrt_pos.2 hu'
  have hss : Real.sqrt |u| * Real.sqrt |u| = |u| := Real.mul_self_sqrt hu'.le
  rw [addQuantity_slack hreg h]
  simp only [addedOf, if_true, Quantity.generateLinf, Option.map_some, Option.toList_some,
    List.mem_singleton, forall_eq, Option.map_none, Option.toList_none, List.not_mem_nil, false_imp_iff, implies_true,
    true_and, setAux_self, hfunc.setAux haux, Val.map, Val.scalar.injEq,
    slackIneq_nonpos _ _ _ hs pd hpd fun _ => hne]
  constructor
  · rintro ⟨p, v, H, rfl, ht⟩ x hx
    have h1 := H x hx
    rw [div_le_iff₀ hu']
    calc x ^ 2 = |x| * |x| := by rw [← sq_abs]; ring
      _ ≤ (p * Real.sqrt |u|) * (p * Real.sqrt |u|) := mul_self_le_mul_self (abs_nonneg _) h1
      _ = p ^ 2 * |u| := by linear_combination p ^ 2 * hss
      _ ≤ t * |u| := mul_le_mul_of_nonneg_right ht hu'.le
  · intro H
    obtain ⟨x0, hx0⟩ := List.exists_mem_of_ne_nil _ hne
    have ht : 0 ≤ t := le_trans (by positivity) (H x0 hx0)
    refine ⟨Real.sqrt t, Real.sqrt t ^ 2, ?_, rfl, (Real.sq_sqrt ht).le⟩
    intro x hx
    have := (div_le_iff₀ hu').1 (H x hx)
    rw [← Real.sqrt_mul ht]
    exact Real.abs_le_sqrt this

/-- **C20 (fourth power).** -/
theorem C20_slack_fourth_exact (reg : Registry P) (name uc aux : String) (func : P → Dofs → Val)
    (hreg : reg name = some (.quantity (Quantity.generateLinf4 func aux))) (hfunc : PhiOnly func)
    (haux : aux ≠ "phi") (u : ℝ) (hu : u ≠ 0) (sp : SmoothingParams) (a : Added P)
    (h : addQuantity reg name (.scalar u) uc (some "slack") sp = .ok a) (qp : P) (dofs : Dofs)
    (hne : (func qp dofs).entries ≠ []) (t : ℝ) :
    (∃ p v, (∀ g ∈ a.g, AllNonpos (g qp (setAux dofs aux (.scalar p))).entries) ∧
      (∀ k ∈ a.h, AllZero (k qp (setAux dofs aux (.scalar p))).entries) ∧
      a.val qp (setAux dofs aux (.scalar p)) = .scalar v ∧ v ≤ t) ↔
    ∀ x ∈ (func qp dofs).entries, x ^ 4 / |u| ≤ t := by
  have hu' : 0 < |u| := abs_pos.2 hu
  have hs : 0 < Real.sqrt |u| := Real.sqrt_pos.2 hu'
  have hss : Real.sqrt |u| * Real.sqrt |u| = |u| := Real.mul_self_sqrt hu'.le
  have hineq : ∀ (f : Val) (p : ℝ), AllNonpos (Val.map2 (· - ·) (Val.map2 (· / ·) (Val.map (· ^ 2) f)
      (Val.scalar (Real.sqrt |u|))) (Val.scalar p)).entries ↔ ∀ x ∈ f.entries, x ^ 2 ≤ p * Real.sqrt |u| := by
    intro f p
    cases f <;> simp [AllNonpos, Val.map, Val.map2, Val.entries, div_le_iff₀ hs]
  rw [addQuantity_slack hreg h]
  simp only [addedOf, if_true, Quantity.generateLinf4, Option.map_some, Option.toList_some,
    List.mem_singleton, forall_eq, Option.map_none, Option.toList_none, List.not_mem_nil, false_imp_iff, implies_true,
    true_and, setAux_self, hfunc.setAux haux]
  have e1 : ∀ x, Val.map Real.sqrt (Val.scalar x) = Val.scalar (Real.sqrt x) := fun _ => rfl
  have e2 : ∀ x, Val.map (· ^ 2) (Val.scalar x) = Val.scalar (x ^ 2) := fun _ => rfl
  simp only [e1, e2, hineq, Val.scalar.injEq]
  constructor
  · rintro ⟨p, v, H, rfl, ht⟩ x hx
    have h1 := H x hx
    rw [div_le_iff₀ hu']
    calc x ^ 4 = x ^ 2 * x ^ 2 := by ring
      _ ≤ (p * Real.sqrt |u|) * (p * Real.sqrt |u|) := mul_self_le_mul_self (sq_nonneg _) h1
      _ = p ^ 2 * |u| := by linear_combination p ^ 2 * hss
      _ ≤ t * |u| := mul_le_mul_of_nonneg_right ht hu'.le
  · intro H
    obtain ⟨x0, hx0⟩ := List.exists_mem_of_ne_nil _ hne
    have ht : 0 ≤ t := le_trans (by positivity) (H x0 hx0)
    refine ⟨Real.sqrt t, Real.sqrt t ^ 2, ?_, rfl, (Real.sq_sqrt ht).le⟩
    intro x hx
    have := (div_le_iff₀ hu').1 (H x hx)
    rw [← Real.sqrt_mul ht]
    apply Real.le_sqrt_of_sq_le
    calc (x ^ 2) ^ 2 = x ^ 4 := by ring
      _ ≤ _ := this

/-- **C61 fails.** Squared max-norm quantity, constant field 1/2, unit 1: the supplied initial auxiliary value is 1/4 and
violates the generated inequality `|field| <= 1/4`. -/
theorem C61_violated_partial (sp : SmoothingParams) :
    ∃ (a : Added ToyQp) (init : ToyQp → Dofs → Val),
      addQuantity toyRegistry "f_max_Phi2" (.scalar 1) "f" (some "slack") sp = .ok a ∧
      a.slack = [("scaled_max_Phi_f_max_Phi2", init)] ∧
      ¬ ∀ g ∈ a.g, AllNonpos (g ⟨0⟩ (setAux (phiOnly (.array [1 / 2, 1 / 2])) "scaled_max_Phi_f_max_Phi2"
        (init ⟨0⟩ (phiOnly (.array [1 / 2, 1 / 2]))))).entries := by
  refine ⟨_, _, rfl, rfl, ?_⟩
  intro H
  have h1 := H _ (List.mem_singleton.2 rfl) (1 / 4)
  simp [Quantity.generateLinf, toyPhi, setAux, phiOnly, Val.entries, Val.map, Val.map2,
    Quantity.slackIneq, Quantity.maxAbs, jmax] at h1
  norm_num at h1

/-- **C61, exact condition.** The supplied initial value of a squared max-norm quantity satisfies the generated
inequalities if and only if `max |field|` is 0 or at least 1, whatever the unit. -/
theorem C61_initial_feasible_iff_partial (reg : Registry P) (name uc aux : String) (func : P → Dofs → Val) (pd : Bool)
    (hreg : reg name = some (.quantity (Quantity.generateLinf func aux pd true))) (hfunc : PhiOnly func)
    (haux : aux ≠ "phi") (u : ℝ) (hu : u ≠ 0) (sp : SmoothingParams) (a : Added P)
    (h : addQuantity reg name (.scalar u) uc (some "slack") sp = .ok a) (qp : P) (dofs : Dofs)
    (hpd : pd = true → ∀ x ∈ (func qp dofs).entries, 0 ≤ x) (m : ℝ)
    (hm : ∃ x ∈ (func qp dofs).entries, |x| = m) (hmax : ∀ x ∈ (func qp dofs).entries, |x| ≤ m) :
    ∃ init, a.slack = [(aux, init)] ∧
      ((∀ g ∈ a.g, AllNonpos (g qp (setAux dofs aux (init qp dofs))).entries) ↔ m = 0 ∨ 1 ≤ m) := by
  have hu' : 0 < |u| := abs_pos.2 hu
  have hs : 0 < Real.sqrt |u| := Real.sqrt_pos.2 hu'
  obtain ⟨x0, hx0, hx0m⟩ := hm
  have hm0 : 0 ≤ m := hx0m ▸ abs_nonneg x0
  have hne : (func qp dofs).entries ≠ [] := List.ne_nil_of_mem hx0
  have hj : Quantity.maxAbs (func qp dofs) = m := by
    unfold Quantity.maxAbs
    refine jmax_eq (List.mem_map.2 ⟨x0, hx0, hx0m⟩) ?_
    intro y hy
    obtain ⟨x, hx, rfl⟩ := List.mem_map.1 hy
    exact hmax x hx
  rw [addQuantity_slack hreg h]
  refine ⟨_, rfl, ?_⟩
  have e1 : ∀ x, Val.map Real.sqrt (Val.scalar x) = Val.scalar (Real.sqrt x) := fun _ => rfl
  simp only [addedOf, if_true, Quantity.generateLinf, Option.map_some,
      Option.toList_some, List.mem_singleton, forall_eq, setAux_self, hfunc.setAux haux, e1, Val.map2, hj,
      slackIneq_nonpos _ _ _ hs pd hpd fun _ => hne]
  rw [div_mul_cancel₀ _ hs.ne']
  constructor
  · intro H
    have := H x0 hx0
    rw [hx0m] at this
    rcases hm0.eq_or_lt with h0 | h0
    · exact Or.inl h0.symm
    · right
      nlinarith
  · rintro (rfl | h1) x hx
    · simpa using hmax x hx
    · exact (hmax x hx).trans (by nlinarith)

/-! ## L1 quantities -/

/-- The area-weighted L1 norm of a field, per the documentation: sum over the grid and over the field periods. -/
noncomputable def l1Norm (qp : P) (field : List ℝ) : ℝ :=
  ((List.zipWith (fun da x => da * |x|) (HasQp.da qp) field).sum) * HasQp.nfp qp

theorem slackIneq_array_nonpos (field : Val) (w : ℝ) (ps : List ℝ) (hw : 0 < w) (pd : Bool)
    (hlen : ps.length = field.entries.length) (hpd : pd = true → ∀ x ∈ field.entries, 0 ≤ x) :
    AllNonpos (Quantity.slackIneq field (Val.scalar w) (Val.array ps) pd).entries ↔
      ∀ xp ∈ field.entries.zip ps, |xp.1| ≤ xp.2 * w := by
  have key : ∀ (xs : List ℝ) (ps : List ℝ) (s : ℝ), xs.length = ps.length →
      (AllNonpos (List.zipWith (· - ·) (xs.map fun x => s * x / w) ps) ↔
        ∀ xp ∈ xs.zip ps, s * xp.1 ≤ xp.2 * w) := by
    intro xs
    induction xs with
    | nil => intro ps s h; simp [AllNonpos]
    | cons x xs ih =>
      intro ps s h
      cases ps with
      | nil => simp at h
      | cons p ps =>
        have ih' := ih ps s (by simpa using h)
        simp only [AllNonpos, List.map_cons, List.zipWith_cons_cons, List.mem_cons, forall_eq_or_imp,
          List.zip_cons_cons] at ih' ⊢
        rw [ih', sub_nonpos, div_le_iff₀ hw]
  have e1 : field.entries.map (fun x => x / w) = field.entries.map fun x => 1 * x / w := by simp
  have e2 : (field.entries.map (fun x => -x)).map (fun x => x / w) = field.entries.map fun x => -1 * x / w := by
    simp [Function.comp_def]
  cases pd with
  | true =>
    simp only [Quantity.slackIneq, if_true, Val.map2, entries_array, e1]
    rw [key _ _ 1 hlen.symm]
    refine forall₂_congr fun xp hx => ?_
    rw [abs_of_nonneg (hpd rfl _ (List.of_mem_zip hx).1), one_mul]
  | false =>
    simp only [Quantity.slackIneq, Bool.false_eq_true, if_false, Val.map2, Val.map, entries_array, e2]
    rw [e1]
    have happ : ∀ l1 l2 : List ℝ, AllNonpos (l1 ++ l2) ↔ AllNonpos l1 ∧ AllNonpos l2 := by
      intro l1 l2
      simp [AllNonpos, or_imp, forall_and]
    rw [happ, key _ _ 1 hlen.symm, key _ _ (-1) hlen.symm]
    constructor
    · rintro ⟨h1, h2⟩ xp hx
      have := h1 xp hx
      have := h2 xp hx
      exact abs_le.2 ⟨by linarith, by linarith⟩
    · intro H
      refine ⟨fun xp hx => ?_, fun xp hx => ?_⟩
      · have := (abs_le.1 (H xp hx)).2; linarith
      · have := (abs_le.1 (H xp hx)).1; linarith

theorem l1_mono (da xs ps : List ℝ) (w : ℝ) (hw : 0 < w) (hda : ∀ d ∈ da, 0 ≤ d) (hlen : xs.length = ps.length)
    (h : ∀ xp ∈ xs.zip ps, |xp.1| ≤ xp.2 * w) :
    (List.zipWith (fun d x => d * |x|) da xs).sum ≤ w * (List.zipWith (· * ·) da (ps.map fun x => |x|)).sum := by
  induction da generalizing xs ps with
  | nil => simp
  | cons d da ih =>
    cases xs with
    | nil =>
      have hp : ps = [] := by cases ps with
        | nil => rfl
        | cons p ps => simp at hlen
      simp [hp]
    | cons x xs =>
      cases ps with
      | nil => simp at hlen
      | cons p ps =>
        simp only [List.zipWith_cons_cons, List.map_cons, List.sum_cons]
        have h1 := h (x, p) (by simp)
        have h2 := ih xs ps (fun d hd => hda d (List.mem_cons_of_mem _ hd)) (by simpa using hlen)
          fun xp hxp => h xp (by simp [hxp])
        have h3 : |x| ≤ w * |p| := h1.trans (by rw [mul_comm]; exact mul_le_mul_of_nonneg_left (le_abs_self _) hw.le)
        have h4 := mul_le_mul_of_nonneg_left h3 (hda d (List.mem_cons_self ..))
        linarith [h4, h2, mul_left_comm d w |p|]

/-- **C22.** L1 quantity of a scalar field in slack mode: some auxiliary field satisfies the generated inequalities and
makes the generated quantity at most `t`, if and only if the area-weighted L1 norm divided by the unit is at most `t`. -/
theorem C22_slack_l1_exact (reg : Registry P) (name uc aux : String) (func : P → Dofs → Val) (pd : Bool)
    (hreg : reg name = some (.quantity (Quantity.generateL1 func aux pd))) (hfunc : PhiOnly func)
    (haux : aux ≠ "phi") (u : ℝ) (hu : u ≠ 0) (sp : SmoothingParams) (a : Added P)
    (h : addQuantity reg name (.scalar u) uc (some "slack") sp = .ok a) (qp : P) (dofs : Dofs)
    (hda : ∀ d ∈ HasQp.da qp, 0 ≤ d) (hnfp : 0 ≤ HasQp.nfp qp)
    (hpd : pd = true → ∀ x ∈ (func qp dofs).entries, 0 ≤ x) (t : ℝ) :
    (∃ ps v, ps.length = (func qp dofs).entries.length ∧
      (∀ g ∈ a.g, AllNonpos (g qp (setAux dofs aux (.array ps))).entries) ∧
      (∀ k ∈ a.h, AllZero (k qp (setAux dofs aux (.array ps))).entries) ∧
      a.val qp (setAux dofs aux (.array ps)) = .scalar v ∧ v ≤ t) ↔
    l1Norm qp (func qp dofs).entries / |u| ≤ t := by
  have hu' : 0 < |u| := abs_pos.2 hu
  rw [addQuantity_slack hreg h]
  simp only [addedOf, if_true, Quantity.generateL1, Option.map_some, Option.toList_some,
    List.mem_singleton, forall_eq, Option.map_none, Option.toList_none, List.not_mem_nil, false_imp_iff, implies_true,
    true_and, setAux_self, hfunc.setAux haux, Val.scalar.injEq]
  constructor
  · rintro ⟨ps, v, hlen, H, rfl, ht⟩
    rw [slackIneq_array_nonpos _ _ _ hu' pd hlen hpd] at H
    rw [div_le_iff₀ hu']
    have := l1_mono (HasQp.da qp) _ ps |u| hu' hda hlen.symm H
    unfold l1Norm
    calc _ ≤ (|u| * (List.zipWith (· * ·) (HasQp.da qp) (ps.map fun x => |x|)).sum) * HasQp.nfp qp :=
          mul_le_mul_of_nonneg_right this hnfp
      _ = Quantity.l1Integral qp (ps.map fun x => |x|) * |u| := by unfold Quantity.l1Integral; ring
      _ ≤ t * |u| := mul_le_mul_of_nonneg_right ht hu'.le
  · intro H
    refine ⟨(func qp dofs).entries.map fun x => |x| / |u|, _, by simp, ?_, rfl, ?_⟩
    · rw [slackIneq_array_nonpos _ _ _ hu' pd (by simp) hpd]
      intro xp hxp
      rw [List.zip_map_right] at hxp
      obtain ⟨yz, hyz, rfl⟩ := List.mem_map.1 hxp
      obtain ⟨i, hi, hi2⟩ := List.mem_iff_getElem.1 hyz
      rw [List.getElem_zip] at hi2
      rw [← hi2]
      simp [div_mul_cancel₀ _ hu'.ne']
    · refine le_trans (le_of_eq ?_) H
      simp only [entries_array, Quantity.l1Integral, l1Norm, List.map_map]
      rw [mul_div_right_comm]
      congr 1
      generalize (func qp dofs).entries = xs
      generalize HasQp.da qp = da
      induction da generalizing xs with
      | nil => simp
      | cons d da ih =>
        cases xs with
        | nil => simp
        | cons x xs =>
          simp only [List.map_cons, List.zipWith_cons_cons, List.sum_cons, ih, Function.comp_apply, abs_div, abs_abs]
          ring

/-- **C22, initial value.** The supplied initial auxiliary field is feasible and attains the L1 norm over the unit. -/
theorem C22_slack_l1_initial (reg : Registry P) (name uc aux : String) (func : P → Dofs → Val) (pd : Bool)
    (hreg : reg name = some (.quantity (Quantity.generateL1 func aux pd))) (hfunc : PhiOnly func)
    (haux : aux ≠ "phi") (u : ℝ) (hu : u ≠ 0) (sp : SmoothingParams) (a : Added P)
    (h : addQuantity reg name (.scalar u) uc (some "slack") sp = .ok a) (qp : P) (dofs : Dofs)
    (hpd : pd = true → ∀ x ∈ (func qp dofs).entries, 0 ≤ x) :
    ∃ init, a.slack = [(aux, init)] ∧
      (∀ g ∈ a.g, AllNonpos (g qp (setAux dofs aux (init qp dofs))).entries) ∧
      a.val qp (setAux dofs aux (init qp dofs)) = .scalar (l1Norm qp (func qp dofs).entries / |u|) := by
  have hu' : 0 < |u| := abs_pos.2 hu
  rw [addQuantity_slack hreg h]
  refine ⟨_, rfl, ?_, ?_⟩
  · simp only [addedOf, if_true, Quantity.generateL1, Option.map_some, Option.toList_some, List.mem_singleton, forall_eq,
      setAux_self, hfunc.setAux haux, Val.map, Val.map2, List.map_map]
    rw [slackIneq_array_nonpos _ _ _ hu' pd (by simp) hpd]
    intro xp hxp
    rw [List.zip_map_right] at hxp
    obtain ⟨yz, hyz, rfl⟩ := List.mem_map.1 hxp
    obtain ⟨i, hi, hi2⟩ := List.mem_iff_getElem.1 hyz
    rw [List.getElem_zip] at hi2
    rw [← hi2]
    simp [div_mul_cancel₀ _ hu'.ne']
  · simp only [addedOf, if_true, Quantity.generateL1, setAux_self, Val.map, Val.map2, entries_array,
      Quantity.l1Integral, l1Norm, List.map_map]
    rw [mul_div_right_comm]
    congr 2
    generalize (func qp dofs).entries = xs
    generalize HasQp.da qp = da
    induction da generalizing xs with
    | nil => simp
    | cons d da ih =>
      cases xs with
      | nil => simp
      | cons x xs =>
        simp only [List.map_cons, List.zipWith_cons_cons, List.sum_cons, ih, Function.comp_apply, abs_div, abs_abs]
        ring

/-! The hypotheses can be met. -/

theorem toyPhi_phiOnly : PhiOnly toyPhi := fun _ d d' h => by simp [toyPhi, h]

example (sp : SmoothingParams) : (∃ a, addQuantity toyRegistry "f_max_Phi" (.scalar 2) "<=" (some "slack") sp = .ok a) ∧
    toyRegistry "f_max_Phi" = some (.quantity (Quantity.generateLinf toyPhi "scaled_max_Phi" false false)) ∧
    (∃ x ∈ (toyPhi ⟨0⟩ (phiOnly (.array [1, -3]))).entries, |x| = 3) :=
  ⟨⟨_, rfl⟩, rfl, -3, by simp [toyPhi, phiOnly, Val.entries], by norm_num⟩

example (sp : SmoothingParams) : (∃ a, addQuantity toyRegistry "f_max_Phi2" (.scalar 2) "f" (some "slack") sp = .ok a) ∧
    (∃ a, addQuantity toyRegistry "f_l1_Phi" (.scalar 2) "f" (some "slack") sp = .ok a) ∧
    (∀ d ∈ HasQp.da (⟨0⟩ : ToyQp), 0 ≤ d) :=
  ⟨⟨_, rfl⟩, ⟨_, rfl⟩, by simp [HasQp.da]⟩

end Verif
