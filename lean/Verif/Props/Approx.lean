import Verif.Props.Constraints

/-!
# Properties C17, C18: constraints in `'approx'` mode
-/

namespace Verif

set_option linter.unusedSectionVars false

variable {P : Type} [HasQp P]

/-- Loop invariant of `_parse_constraints` outside slack mode: whatever is known about each centred function transfers to
the lists, in order. -/
theorem parse_forall₂ (reg : Registry P) (sm : Option String) (sp : SmoothingParams) (hsm : sm ≠ some "slack")
    (Rg Rh : (P → Dofs → Val) → Request → Prop) (rs : List Request) (acc p : Parsed P)
    (h : rs.foldlM (parseStep reg sm sp) acc = .ok p)
    (hstep : ∀ r ∈ rs, ∀ q u, reg r.name = some (.quantity q) → unitCallable q r.unit = .ok u →
      (r.type = "<=" → Rg (consFunc (addedOf q sm sp u) r.value 1 sm sp) r) ∧
      (r.type = ">=" → Rg (consFunc (addedOf q sm sp u) r.value (-1) sm sp) r) ∧
      (r.type = "==" → Rh (consFunc (addedOf q sm sp u) r.value 1 sm sp) r)) :
    ∃ gs hs, p.g = acc.g ++ gs ∧ p.h = acc.h ++ hs ∧
      List.Forall₂ Rg gs (rs.filter Request.isIneq) ∧ List.Forall₂ Rh hs (rs.filter Request.isEq) := by
  induction rs generalizing acc with
  | nil =>
    rw [foldlM_except_nil] at h
    cases h
    exact ⟨[], [], by simp⟩
  | cons r rs ih =>
    obtain ⟨b, hb, hrest⟩ := (foldlM_except_cons _ _ _ _ _).1 h
    obtain ⟨gs, hs, hg, hh, hF, hE⟩ := ih b hrest fun r' hr' => hstep r' (List.mem_cons_of_mem _ hr')
    obtain ⟨a, ha, hcases⟩ := parseStep_ok.1 hb
    obtain ⟨q, u, hq, -, -, huc, rfl⟩ := addQuantity_ok.1 ha
    obtain ⟨s1, s2, s3⟩ := hstep r (List.mem_cons_self ..) q u hq huc
    have hag : (addedOf q sm sp u).g = [] ∧ (addedOf q sm sp u).h = [] := by
      unfold addedOf
      rw [if_neg hsm]
      split <;> exact ⟨rfl, rfl⟩
    rcases hcases with ⟨ht, rfl⟩ | ⟨ht, rfl⟩ | ⟨ht, rfl⟩
    · refine ⟨gs, consFunc (addedOf q sm sp u) r.value 1 sm sp :: hs, ?_, ?_, ?_, ?_⟩
      · simpa [hag.1] using hg
      · simpa [hag.2] using hh
      · rw [List.filter_cons_of_neg (by simp [Request.isIneq, ht])]; exact hF
      · rw [List.filter_cons_of_pos (by simp [Request.isEq, ht])]
        exact List.Forall₂.cons (s3 ht) hE
    · refine ⟨consFunc (addedOf q sm sp u) r.value 1 sm sp :: gs, hs, ?_, ?_, ?_, ?_⟩
      · simpa [hag.1] using hg
      · simpa [hag.2] using hh
      · rw [List.filter_cons_of_pos (by simp [Request.isIneq, ht])]
        exact List.Forall₂.cons (s1 ht) hF
      · rw [List.filter_cons_of_neg (by simp [Request.isEq, ht])]; exact hE
    · refine ⟨consFunc (addedOf q sm sp u) r.value (-1) sm sp :: gs, hs, ?_, ?_, ?_, ?_⟩
      · simpa [hag.1] using hg
      · simpa [hag.2] using hh
      · rw [List.filter_cons_of_pos (by simp [Request.isIneq, ht])]
        exact List.Forall₂.cons (s2 ht) hF
      · rw [List.filter_cons_of_neg (by simp [Request.isEq, ht])]; exact hE

/-- The scaled and centred field before smoothing. -/
theorem consFunc_entries_approx (q : Quantity P) (u : P → Val) (w value sign : ℝ) (sp : SmoothingParams) (qp : P)
    (dofs : Dofs) (hu : u qp = Val.scalar w)
    (hq : q.approxF qp dofs (Val.scalar w) sp = Val.map2 (· / ·) (q.rawF qp dofs) (Val.scalar w)) :
    (consFunc (addedOf q (some "approx") sp u) value sign (some "approx") sp qp dofs).entries =
      if (q.rawF qp dofs).isScalar then (q.rawF qp dofs).entries.map fun x => sign * (x / w - value / w)
      else [maxLse ((q.rawF qp dofs).entries.map fun x => sign * (x / w - value / w)) sp.lseEpsilon] := by
  cases hr : q.rawF qp dofs <;>
    simp [consFunc, addedOf, hu, hq, hr, Val.map2, Val.map, Val.entries, Val.isScalar, Function.comp_def]

/-- The field of a request keeps a distance `margin` from the threshold, on the allowed side. -/
def Request.HoldsWithMargin (reg : Registry P) (r : Request) (margin : ℝ) (qp : P) (dofs : Dofs) : Prop :=
  ∃ q, reg r.name = some (.quantity q) ∧
    (r.type = "<=" → ∀ x ∈ (q.rawF qp dofs).entries, x + margin ≤ r.value) ∧
    (r.type = ">=" → ∀ x ∈ (q.rawF qp dofs).entries, r.value + margin ≤ x)

/-- Number of grid points of the field of a request. -/
def Request.Size (reg : Registry P) (r : Request) (qp : P) (dofs : Dofs) (n : ℕ) : Prop :=
  ∀ q, reg r.name = some (.quantity q) → (q.rawF qp dofs).entries.length = n

/-- **C17.** In approx mode, for smooth quantities and non-zero units: the generated inequality functions are in one to
one correspondence and in order with the requested inequalities. Each one, when satisfied, implies the requested
inequality at every grid point; and if the requested inequality holds at all `n` grid points with margin
`|unit| * eps * log n`, it is satisfied. -/
theorem C17_approx_conservative (reg : Registry P) (names types : List String) (units : List UnitArg)
    (values : List ℝ) (sp : SmoothingParams) (he : 0 < sp.lseEpsilon) (p : Parsed P)
    (h : parseConstraints reg names types units values (some "approx") sp = .ok p)
    (hu : ∀ u ∈ units, ∃ x, u = .scalar x ∧ x ≠ 0)
    (hsmooth : ∀ n ∈ names, ∃ func compat, reg n = some (.quantity (Quantity.generateC2 func compat))) :
    List.Forall₂ (fun g r => ∀ qp dofs,
        (AllNonpos (g qp dofs).entries → r.Holds reg qp dofs) ∧
        (∀ n w, r.Size reg qp dofs n → r.unit = .scalar w →
          r.HoldsWithMargin reg (|w| * (sp.lseEpsilon * Real.log n)) qp dofs → AllNonpos (g qp dofs).entries))
      p.g ((zipRequests names types units values).filter Request.isIneq) := by
  unfold parseConstraints at h
  split at h
  · cases h
  obtain ⟨gs, hs, hg, hh, hF, -⟩ := parse_forall₂ reg (some "approx") sp (by simp)
    (fun g r => ∀ qp dofs,
        (AllNonpos (g qp dofs).entries → r.Holds reg qp dofs) ∧
        (∀ n w, r.Size reg qp dofs n → r.unit = .scalar w →
          r.HoldsWithMargin reg (|w| * (sp.lseEpsilon * Real.log n)) qp dofs → AllNonpos (g qp dofs).entries))
    (fun _ _ => True) _ _ _ h (by
      intro r hr q u hq huc
      unfold zipRequests at hr
      obtain ⟨i, hi, rfl⟩ := List.mem_iff_getElem.1 hr
      have hiv : i < values.length := by simp at hi; omega
      simp only [List.getElem_zipWith, List.getElem_zip] at hq huc ⊢
      obtain ⟨w, hw, hw0⟩ := hu _ (List.getElem_mem (l := units) (n := i) (by simp at hi; omega))
      obtain ⟨func, compat, hfc⟩ := hsmooth _ (List.getElem_mem (l := names) (n := i) (by simp at hi; omega))
      rw [hq] at hfc
      cases hfc
      rw [hw] at huc
      simp only [unitCallable, Except.ok.injEq] at huc
      have hwpos : 0 < |w| := abs_pos.2 hw0
      have hent := fun value sign qp dofs => consFunc_entries_approx (Quantity.generateC2 func compat) u |w| value sign sp qp
        dofs (by rw [← huc]) rfl
      refine ⟨?_, ?_, fun _ => trivial⟩
      · intro ht qp dofs
        constructor
        · intro H
          refine ⟨_, hq, fun _ x hx => ?_, by simp [ht], by simp [ht]⟩
          rw [hent] at H
          split at H
          · exact (scaled_le_iff hwpos).1 (H _ (List.mem_map.2 ⟨x, hx, rfl⟩))
          · have h1 := H _ (List.mem_singleton.2 rfl)
            exact (scaled_le_iff hwpos).1 ((le_maxLse he (List.mem_map.2 ⟨x, hx, rfl⟩)).trans h1)
        · rintro n w' hn hw' ⟨q', hq', hm, -⟩
          simp only at hq' hw'
          rw [hq] at hq'
          cases hq'
          rw [hw] at hw'
          cases hw'
          have hn' := hn _ hq
          have hm' := hm ht
          intro y hy
          have hb : ∀ z ∈ ((Quantity.generateC2 func compat).rawF qp dofs).entries.map
              (fun x => 1 * (x / |w| - values[i] / |w|)), z ≤ -(sp.lseEpsilon * Real.log n) := by
            intro z hz
            obtain ⟨x, hx, rfl⟩ := List.mem_map.1 hz
            have := hm' x hx
            have h2 : x / |w| + sp.lseEpsilon * Real.log n ≤ values[i] / |w| := by
              rw [le_div_iff₀ hwpos, add_mul, div_mul_cancel₀ _ hwpos.ne']
              linarith
            linarith
          rw [hent] at hy
          split at hy
          · rename_i hsc
            have h0 : (n : ℝ) = 1 := by
              rw [← hn']
              cases hv : (Quantity.generateC2 func compat).rawF qp dofs with
              | scalar a => simp [Val.entries]
              | array a => simp [hv, Val.isScalar] at hsc
            have := hb y hy
            simpa [h0] using this
          · rw [List.mem_singleton.1 hy]
            by_cases hne : ((Quantity.generateC2 func compat).rawF qp dofs).entries = []
            · simp [hne, maxLse]
            · have := maxLse_le he (by simpa using hne) hb
              rw [List.length_map, hn'] at this
              linarith
      · intro ht qp dofs
        constructor
        · intro H
          refine ⟨_, hq, by simp [ht], fun _ x hx => ?_, by simp [ht]⟩
          rw [hent] at H
          split at H
          · exact (scaled_ge_iff hwpos).1 (H _ (List.mem_map.2 ⟨x, hx, rfl⟩))
          · have h1 := H _ (List.mem_singleton.2 rfl)
            exact (scaled_ge_iff hwpos).1 ((le_maxLse he (List.mem_map.2 ⟨x, hx, rfl⟩)).trans h1)
        · rintro n w' hn hw' ⟨q', hq', -, hm⟩
          simp only at hq' hw'
          rw [hq] at hq'
          cases hq'
          rw [hw] at hw'
          cases hw'
          have hn' := hn _ hq
          have hm' := hm ht
          intro y hy
          have hb : ∀ z ∈ ((Quantity.generateC2 func compat).rawF qp dofs).entries.map
              (fun x => -1 * (x / |w| - values[i] / |w|)), z ≤ -(sp.lseEpsilon * Real.log n) := by
            intro z hz
            obtain ⟨x, hx, rfl⟩ := List.mem_map.1 hz
            have := hm' x hx
            have h2 : values[i] / |w| + sp.lseEpsilon * Real.log n ≤ x / |w| := by
              rw [le_div_iff₀ hwpos, add_mul, div_mul_cancel₀ _ hwpos.ne']
              linarith
            linarith
          rw [hent] at hy
          split at hy
          · rename_i hsc
            have h0 : (n : ℝ) = 1 := by
              rw [← hn']
              cases hv : (Quantity.generateC2 func compat).rawF qp dofs with
              | scalar a => simp [Val.entries]
              | array a => simp [hv, Val.isScalar] at hsc
            have := hb y hy
            simpa [h0] using this
          · rw [List.mem_singleton.1 hy]
            by_cases hne : ((Quantity.generateC2 func compat).rawF qp dofs).entries = []
            · simp [hne, maxLse]
            · have := maxLse_le he (by simpa using hne) hb
              rw [List.length_map, hn'] at this
              linarith)
  simp only [List.nil_append] at hg
  rw [hg]
  exact hF

/-- `C17` is not vacuous: a request is parsed in approx mode. -/
example (sp : SmoothingParams) : ∃ p, parseConstraints toyRegistry ["K_theta"] [">="]
    [.scalar 2] [1] (some "approx") sp = .ok p ∧ p.g.length = 1 := ⟨_, rfl, rfl⟩

/-- `C17`: the margin condition can hold: at two grid points with `K_theta = 10` and threshold 1. -/
example : Request.HoldsWithMargin toyRegistry ⟨"K_theta", ">=", .scalar 2, 1⟩ (|2| * (1 * Real.log (2 : ℕ))) ⟨0⟩
    (phiOnly (Val.array [10, 10])) := by
  refine ⟨Quantity.generateC2 toyKTheta ["<=", ">="], by simp [toyRegistry], by simp, ?_⟩
  intro _ x hx
  simp [Quantity.generateC2, toyKTheta, phiOnly, Val.entries] at hx
  subst hx
  have : Real.log 2 ≤ 2 - 1 := Real.log_le_sub_one_of_pos (by norm_num)
  norm_num
  linarith

/-! ## C18 -/

/-- **C18 fails (1).** In approx mode, for a smooth quantity with an array value of `n >= 2` entries that all equal the
requested value exactly, the generated equality function returns `eps log n`, not zero. -/
theorem C18_exact_field_rejected_partial (func : P → Dofs → Val) (compat : List String) (reg : Registry P)
    (name : String) (hreg : reg name = some (.quantity (Quantity.generateC2 func compat))) (value w : ℝ)
    (sp : SmoothingParams) (he : 0 < sp.lseEpsilon) (p : Parsed P)
    (h : parseConstraints reg [name] ["=="] [.scalar w] [value] (some "approx") sp = .ok p)
    (qp : P) (dofs : Dofs) (n : ℕ) (hn : 2 ≤ n) (hfield : func qp dofs = Val.array (List.replicate n value)) :
    ∃ k ∈ p.h, (k qp dofs).entries = [sp.lseEpsilon * Real.log n] ∧ ¬ AllZero (k qp dofs).entries := by
  unfold parseConstraints at h
  rw [if_neg (by simp)] at h
  obtain ⟨gs, hs, -, hh, -, hE⟩ := parse_forall₂ reg (some "approx") sp (by simp) (fun _ _ => True)
    (fun k _ => (k qp dofs).entries = [sp.lseEpsilon * Real.log n]) _ _ _ h (by
      intro r hr q u hq huc
      simp only [zipRequests, List.zip_cons_cons, List.zip_nil_right, List.zipWith_cons_cons, List.zipWith_nil_right,
        List.mem_singleton] at hr
      subst hr
      simp only at hq huc ⊢
      rw [hreg] at hq
      cases hq
      simp only [unitCallable, Except.ok.injEq] at huc
      refine ⟨by simp, by simp, fun _ => ?_⟩
      rw [consFunc_entries_approx _ u |w| value 1 sp qp dofs (by rw [← huc]) rfl]
      simp only [Quantity.generateC2, hfield, Val.isScalar, Val.entries, List.map_replicate, sub_self, mul_zero]
      rw [maxLse_const n (by omega) 0 _ he.ne']
      simp)
  simp only [List.nil_append] at hh
  change List.Forall₂ _ hs [(⟨name, "==", .scalar w, value⟩ : Request)] at hE
  cases hE with
  | cons h1 h2 =>
    cases h2
    rename_i k
    refine ⟨k, by simp [hh], h1, ?_⟩
    rw [h1]
    have hlog : 0 < Real.log n := Real.log_pos (by exact_mod_cast hn)
    have := mul_pos he hlog
    simp [AllZero, he.ne', hlog.ne']

/-- **C18 fails (2).** The generated equality function accepts fields that are arbitrarily far from the requested value:
for every distance `M > 0` there is a two-point field that is accepted although one entry is off by `M`. -/
theorem C18_far_field_accepted_partial (sp : SmoothingParams) (he : 0 < sp.lseEpsilon) (M : ℝ) (hM : 0 < M) :
    ∃ (p : Parsed ToyQp) (dofs : Dofs),
      parseConstraints toyRegistry ["K_dot_grad_K"] ["=="] [.scalar 1] [0] (some "approx") sp = .ok p ∧
      (∀ k ∈ p.h, AllZero (k ⟨0⟩ dofs).entries) ∧ p.h ≠ [] ∧ -M ∈ (toyEq ⟨0⟩ dofs).entries := by
  set e := sp.lseEpsilon with hedef
  have hlt : Real.exp (-M / e) < 1 := Real.exp_lt_one_iff.2 (div_neg_of_neg_of_pos (by linarith) he)
  refine ⟨_, phiOnly (Val.array [-M, e * Real.log (1 - Real.exp (-M / e))]), rfl, ?_, by simp, ?_⟩
  · simp [AllZero, consFunc, Quantity.generateC2, toyEq, phiOnly, Val.entries, Val.map2, Val.map, Val.isScalar, maxLse,
      ← hedef]
    right
    rw [mul_div_cancel_left₀ _ he.ne', Real.exp_log (by linarith)]
    simp
  · simp [toyEq, phiOnly, Val.entries]

/-- The hypotheses of `C18_exact_field_rejected_partial` can be met. -/
example (sp : SmoothingParams) : (∃ p, parseConstraints toyRegistry ["K_dot_grad_K"] ["=="] [.scalar 1] [3]
    (some "approx") sp = .ok p) ∧ toyEq ⟨0⟩ (phiOnly (Val.array [3, 3])) = Val.array (List.replicate 2 3) :=
  ⟨⟨_, rfl⟩, rfl⟩

end Verif
