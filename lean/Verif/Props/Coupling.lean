import Verif.Props.Slack

/-!
# Property C23: using one slack quantity twice
-/

namespace Verif

set_option linter.unusedSectionVars false

variable {P : Type} [HasQp P]

theorem parseObjectives_single {reg : Registry P} {name : String} {unit : UnitArg} {w : OneOrMany ℝ}
    {sm : Option String} {sp : SmoothingParams} {o : ParsedObj P}
    (h : parseObjectives reg (.one name) (.one unit) w sm sp = .ok o) :
    ∃ a, addQuantity reg name unit "f" sm sp = .ok a ∧ o.g = a.g ∧ o.h = a.h ∧
      (∀ qp dofs v, a.val qp dofs = .scalar v → o.f qp dofs = .scalar v) ∧ o.slack = dictUnion [] a.slack := by
  simp only [parseObjectives] at h
  rw [if_neg (by simp)] at h
  simp only [parseObjLoop] at h
  cases ha : addQuantity reg name unit "f" sm sp with
  | error e => simp [ha, bind, Except.bind] at h
  | ok a =>
    simp only [ha, bind, Except.bind, Except.ok.injEq] at h
    subst h
    refine ⟨a, rfl, rfl, rfl, ?_, rfl⟩
    intro qp dofs v hv
    simp [fTot, hv, Val.map, Val.map2]

theorem parseConstraints_single {reg : Registry P} {name : String} {unit : UnitArg} {value : ℝ}
    {sm : Option String} {sp : SmoothingParams} {p : Parsed P}
    (h : parseConstraints reg [name] ["<="] [unit] [value] sm sp = .ok p) :
    ∃ a, addQuantity reg name unit "<=" sm sp = .ok a ∧ p.g = a.g ++ [consFunc a value 1 sm sp] ∧ p.h = a.h := by
  unfold parseConstraints at h
  rw [if_neg (by simp)] at h
  obtain ⟨b, hb, hrest⟩ := (foldlM_except_cons _ _ _ _ _).1 h
  change Except.ok b = Except.ok p at hrest
  cases hrest
  obtain ⟨a, ha, hc⟩ := parseStep_ok.1 hb
  refine ⟨a, ha, ?_⟩
  simp only [String.reduceEq, false_and, true_and, false_or, or_false] at hc
  subst hc
  simp

/-- **C23, exact behaviour.** The same max-norm quantity is the objective with unit `u1` and bounded by `value` with unit
`u2`, in slack mode. A point can be completed to a feasible one with objective at most `t` exactly when, with
`s = min(|u1|, |u2|)`, every grid point has `|field| <= t * s` and `|field| * |u2| <= value * s`.
So the encoded bound on `max |field|` is `value * min(|u1|,|u2|) / |u2|`, not `value`. -/
theorem C23_shared_slack_feasible_set_partial (reg : Registry P) (name aux : String) (func : P → Dofs → Val)
    (hreg : reg name = some (.quantity (Quantity.generateLinf func aux false false))) (hfunc : PhiOnly func)
    (haux : aux ≠ "phi") (u1 u2 value : ℝ) (hu1 : u1 ≠ 0) (hu2 : u2 ≠ 0) (sp : SmoothingParams) (w : OneOrMany ℝ)
    (o : ParsedObj P) (c : Parsed P)
    (ho : parseObjectives reg (.one name) (.one (.scalar u1)) w (some "slack") sp = .ok o)
    (hc : parseConstraints reg [name] ["<="] [.scalar u2] [value] (some "slack") sp = .ok c)
    (qp : P) (dofs : Dofs) (hne : (func qp dofs).entries ≠ []) (t : ℝ) :
    (∃ p v, (∀ g ∈ (joinParsed o c).g, AllNonpos (g qp (setAux dofs aux (.scalar p))).entries) ∧
        (∀ k ∈ (joinParsed o c).h, AllZero (k qp (setAux dofs aux (.scalar p))).entries) ∧
        (joinParsed o c).f qp (setAux dofs aux (.scalar p)) = .scalar v ∧ v ≤ t) ↔
      ∀ x ∈ (func qp dofs).entries, |x| ≤ t * min |u1| |u2| ∧ |x| * |u2| ≤ value * min |u1| |u2| := by
  have h1 : 0 < |u1| := abs_pos.2 hu1
  have h2 : 0 < |u2| := abs_pos.2 hu2
  obtain ⟨a, ha, hog, hoh, hof, -⟩ := parseObjectives_single ho
  obtain ⟨b, hb, hcg, hch⟩ := parseConstraints_single hc
  have ha' := addQuantity_slack hreg ha
  have hb' := addQuantity_slack hreg hb
  have hag : a.g = [fun qp d => Quantity.slackIneq (func qp d) (Val.scalar |u1|) (d aux) false] := by
    rw [ha']; simp [addedOf, Quantity.generateLinf]
  have hah : a.h = [] := by rw [ha']; simp [addedOf, Quantity.generateLinf]
  have hbg : b.g = [fun qp d => Quantity.slackIneq (func qp d) (Val.scalar |u2|) (d aux) false] := by
    rw [hb']; simp [addedOf, Quantity.generateLinf]
  have hbh : b.h = [] := by rw [hb']; simp [addedOf, Quantity.generateLinf]
  have hval : ∀ p, a.val qp (setAux dofs aux (.scalar p)) = .scalar p := by
    intro p; rw [ha']; simp [addedOf, Quantity.generateLinf, setAux_self]
  have hcons : ∀ p, (consFunc b value 1 (some "slack") sp qp (setAux dofs aux (.scalar p))).entries =
      [p - value / |u2|] := by
    intro p; rw [hb']; simp [consFunc, addedOf, Quantity.generateLinf, setAux_self, Val.map, Val.map2, Val.entries]
  have hfeas : ∀ p, ((∀ g ∈ (joinParsed o c).g, AllNonpos (g qp (setAux dofs aux (.scalar p))).entries) ∧
        (∀ k ∈ (joinParsed o c).h, AllZero (k qp (setAux dofs aux (.scalar p))).entries)) ↔
      (∀ x ∈ (func qp dofs).entries, |x| ≤ p * |u1|) ∧ (∀ x ∈ (func qp dofs).entries, |x| ≤ p * |u2|) ∧
        p * |u2| ≤ value := by
    intro p
    simp only [joinParsed, hog, hoh, hcg, hch, hag, hah, hbg, hbh, List.cons_append, List.nil_append, List.mem_cons,
      List.not_mem_nil, or_false, forall_eq_or_imp, forall_eq, false_imp_iff, implies_true, and_true, setAux_self,
      hfunc.setAux haux, hcons, slackIneq_nonpos _ _ _ h1 false (by simp) (by simp),
      slackIneq_nonpos _ _ _ h2 false (by simp) (by simp)]
    simp [AllNonpos, le_div_iff₀ h2]
  obtain ⟨x0, hx0⟩ := List.exists_mem_of_ne_nil _ hne
  have hminpos : 0 < min |u1| |u2| := lt_min h1 h2
  constructor
  · rintro ⟨p, v, hg, hh, hv, ht⟩ x hx
    rw [show (joinParsed o c).f = o.f from rfl, hof _ _ _ (hval p)] at hv
    cases hv
    obtain ⟨e1, e2, e3⟩ := (hfeas p).1 ⟨hg, hh⟩
    have hp : 0 ≤ p := by
      have := (abs_nonneg _).trans (e1 x0 hx0)
      exact nonneg_of_mul_nonneg_left this h1
    have hx' : |x| ≤ p * min |u1| |u2| := by
      rcases min_choice |u1| |u2| with h | h <;> rw [h]
      · exact e1 x hx
      · exact e2 x hx
    refine ⟨hx'.trans (mul_le_mul_of_nonneg_right ht hminpos.le), ?_⟩
    calc |x| * |u2| ≤ (p * min |u1| |u2|) * |u2| := mul_le_mul_of_nonneg_right hx' h2.le
      _ = (p * |u2|) * min |u1| |u2| := by ring
      _ ≤ value * min |u1| |u2| := mul_le_mul_of_nonneg_right e3 hminpos.le
  · intro H
    refine ⟨min t (value / |u2|), _, and_assoc.1 ⟨(hfeas _).2 ⟨?_, ?_, ?_⟩, hof _ _ _ (hval _), min_le_left _ _⟩⟩
    · intro x hx
      have hbnd : |x| ≤ min t (value / |u2|) * min |u1| |u2| := by
        rcases min_choice t (value / |u2|) with h | h <;> rw [h]
        · exact (H x hx).1
        · rw [div_mul_eq_mul_div, le_div_iff₀ h2]; exact (H x hx).2
      have hp : 0 ≤ min t (value / |u2|) := nonneg_of_mul_nonneg_left ((abs_nonneg _).trans hbnd) hminpos
      exact hbnd.trans (mul_le_mul_of_nonneg_left (min_le_left _ _) hp)
    · intro x hx
      have hbnd : |x| ≤ min t (value / |u2|) * min |u1| |u2| := by
        rcases min_choice t (value / |u2|) with h | h <;> rw [h]
        · exact (H x hx).1
        · rw [div_mul_eq_mul_div, le_div_iff₀ h2]; exact (H x hx).2
      have hp : 0 ≤ min t (value / |u2|) := nonneg_of_mul_nonneg_left ((abs_nonneg _).trans hbnd) hminpos
      exact hbnd.trans (mul_le_mul_of_nonneg_left (min_le_right _ _) hp)
    · calc min t (value / |u2|) * |u2| ≤ value / |u2| * |u2| := mul_le_mul_of_nonneg_right (min_le_right _ _) h2.le
        _ = value := div_mul_cancel₀ _ h2.ne'

/-- **C23, true part.** If the unit of the constraint is not larger than the unit of the objective, the encoded constraint
is the requested one. Missing: the other order of units, where it is false. -/
theorem C23_no_coupling_when_units_ordered_partial (reg : Registry P) (name aux : String) (func : P → Dofs → Val)
    (hreg : reg name = some (.quantity (Quantity.generateLinf func aux false false))) (hfunc : PhiOnly func)
    (haux : aux ≠ "phi") (u1 u2 value : ℝ) (hu1 : u1 ≠ 0) (hu2 : u2 ≠ 0) (hle : |u2| ≤ |u1|) (sp : SmoothingParams)
    (w : OneOrMany ℝ) (o : ParsedObj P) (c : Parsed P)
    (ho : parseObjectives reg (.one name) (.one (.scalar u1)) w (some "slack") sp = .ok o)
    (hc : parseConstraints reg [name] ["<="] [.scalar u2] [value] (some "slack") sp = .ok c)
    (qp : P) (dofs : Dofs) (hne : (func qp dofs).entries ≠ []) :
    (∃ p v, (∀ g ∈ (joinParsed o c).g, AllNonpos (g qp (setAux dofs aux (.scalar p))).entries) ∧
        (∀ k ∈ (joinParsed o c).h, AllZero (k qp (setAux dofs aux (.scalar p))).entries) ∧
        (joinParsed o c).f qp (setAux dofs aux (.scalar p)) = .scalar v) ↔
      ∀ x ∈ (func qp dofs).entries, |x| ≤ value := by
  have h2 : 0 < |u2| := abs_pos.2 hu2
  have key := C23_shared_slack_feasible_set_partial reg name aux func hreg hfunc haux u1 u2 value hu1 hu2 sp w o c ho hc
    qp dofs hne
  rw [min_eq_right hle] at key
  constructor
  · rintro ⟨p, v, hg, hh, hv⟩ x hx
    have := ((key v).1 ⟨p, v, hg, hh, hv, le_rfl⟩ x hx).2
    exact le_of_mul_le_mul_right this h2
  · intro H
    obtain ⟨p, v, hg, hh, hv, -⟩ := (key (value / |u2|)).2 fun x hx => by
      rw [div_mul_cancel₀ _ h2.ne']
      exact ⟨H x hx, mul_le_mul_of_nonneg_right (H x hx) h2.le⟩
    exact ⟨p, v, hg, hh, hv⟩

/-- **C23 fails, witness.** Objective `f_max_Phi` with unit 1 and the constraint `f_max_Phi <= 2` with unit 4: the field
`[1, 1]` satisfies the requested constraint but no auxiliary value makes it feasible. -/
theorem C23_violated_partial (sp : SmoothingParams) :
    ∃ (o : ParsedObj ToyQp) (c : Parsed ToyQp) (dofs : Dofs),
      parseObjectives toyRegistry (.one "f_max_Phi") (.one (.scalar 1)) (.one 1) (some "slack") sp = .ok o ∧
      parseConstraints toyRegistry ["f_max_Phi"] ["<="] [.scalar 4] [2] (some "slack") sp = .ok c ∧
      (∀ x ∈ (toyPhi ⟨0⟩ dofs).entries, |x| ≤ 2) ∧
      ¬ ∃ p v, (∀ g ∈ (joinParsed o c).g, AllNonpos (g ⟨0⟩ (setAux dofs "scaled_max_Phi" (.scalar p))).entries) ∧
        (∀ k ∈ (joinParsed o c).h, AllZero (k ⟨0⟩ (setAux dofs "scaled_max_Phi" (.scalar p))).entries) ∧
        (joinParsed o c).f ⟨0⟩ (setAux dofs "scaled_max_Phi" (.scalar p)) = .scalar v := by
  refine ⟨_, _, phiOnly (.array [1, 1]), rfl, rfl, ?_, ?_⟩
  · intro x hx
    simp [toyPhi, phiOnly, Val.entries] at hx
    rw [hx]; norm_num
  · rintro ⟨p, v, hg, hh, hv⟩
    have := (C23_shared_slack_feasible_set_partial toyRegistry "f_max_Phi" "scaled_max_Phi" toyPhi rfl toyPhi_phiOnly
      (by simp) 1 4 2 (by norm_num) (by norm_num) sp (.one 1) _ _ rfl rfl ⟨0⟩ (phiOnly (.array [1, 1]))
      (by simp [toyPhi, phiOnly, Val.entries]) v).1 ⟨p, v, hg, hh, hv, le_rfl⟩ 1
      (by simp [toyPhi, phiOnly, Val.entries])
    norm_num at this

end Verif
