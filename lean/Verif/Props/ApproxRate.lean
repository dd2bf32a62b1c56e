import Verif.Props.ApproxFlat
import Verif.Props.StrictMultipliers
import Verif.Lemmas.SmoothingRate

/-!
# C135: the solutions of approx mode approach the solution of the user's problem
-/

namespace Verif

open Real CpParams

/-! ## The smoothing error of the quantities -/

/-- The squared and fourth-power maxima are scaled wrongly in approx mode unless the unit is 1 (C21). -/
def ExactUnit (name : String) (w : ℝ) : Prop := name = "f_max_Phi2" ∨ name = "f_max_Phi4" → w = 1

theorem linf_error (xs : List ℝ) : ∃ C ≥ 0, ∀ eps, 0 < eps →
    jmax (xs.map fun x => |x|) ≤ linfLse xs eps ∧ linfLse xs eps ≤ jmax (xs.map fun x => |x|) + eps * C := by
  cases xs with
  | nil => exact ⟨0, le_rfl, fun eps _ => by simp [linfLse, maxLse, jmax]⟩
  | cons x xs =>
    have hne : ((x :: xs).map fun x => |x|) ≠ [] := by simp
    refine ⟨Real.log (2 * (x :: xs).length), Real.log_nonneg ?_, fun eps he => ⟨?_, ?_⟩⟩
    · have : (1 : ℝ) ≤ (x :: xs).length := by
        rw [List.length_cons]
        push_cast
        linarith [Nat.cast_nonneg (α := ℝ) xs.length]
      linarith
    · refine (jmax_le_iff hne _).2 fun v hv => ?_
      obtain ⟨y, hy, rfl⟩ := List.mem_map.1 hv
      exact le_linfLse he hy
    · exact linfLse_le he (by simp) fun y hy => le_jmax (List.mem_map.2 ⟨y, hy, rfl⟩)

theorem jmax_map_div (xs : List ℝ) {w : ℝ} (hw : 0 < w) : jmax ((xs.map fun x => x / w).map fun x => |x|) = jmax (xs.map fun x => |x|) / w := by
  by_cases hne : xs = []
  · subst hne
    simp [jmax]
  · have h1 : (xs.map fun x => |x|) ≠ [] := by simpa using hne
    obtain ⟨x, hx, hxe⟩ := List.mem_map.1 (jmax_mem h1)
    refine jmax_eq ?_ ?_
    · rw [← hxe, List.map_map]
      exact List.mem_map.2 ⟨x, hx, by simp [abs_div, abs_of_pos hw]⟩
    · intro y hy
      rw [List.map_map] at hy
      obtain ⟨z, hz, rfl⟩ := List.mem_map.1 hy
      simp only [Function.comp_apply, abs_div, abs_of_pos hw]
      exact div_le_div_of_nonneg_right (le_jmax (List.mem_map.2 ⟨z, hz, rfl⟩)) hw.le

theorem sq_error {a b m C eps : ℝ} (hm : 0 ≤ m) (hC : 0 ≤ C) (h0 : 0 < eps) (h1 : eps ≤ 1) (ha : m ≤ a) (hb : a ≤ m + eps * C) (hb' : b = m ^ 2) :
    b ≤ a ^ 2 ∧ a ^ 2 ≤ b + eps * (2 * m * C + C ^ 2) := by
  subst hb'
  refine ⟨pow_le_pow_left₀ hm ha 2, (pow_le_pow_left₀ (hm.trans ha) hb 2).trans ?_⟩
  have : eps ^ 2 * C ^ 2 ≤ eps * C ^ 2 := mul_le_mul_of_nonneg_right (by nlinarith) (sq_nonneg C)
  nlinarith

theorem jmax_pow4 (xs : List ℝ) : jmax (xs.map fun x => x ^ 4) = jmax ((xs.map fun x => x ^ 2).map fun x => |x|) ^ 2 := by
  by_cases hne : xs = []
  · subst hne
    simp [jmax]
  · have h1 : ((xs.map fun x => x ^ 2).map fun x => |x|) ≠ [] := by simpa using hne
    obtain ⟨y, hy, hye⟩ := List.mem_map.1 (jmax_mem h1)
    obtain ⟨x, hx, rfl⟩ := List.mem_map.1 hy
    refine jmax_eq (List.mem_map.2 ⟨x, hx, ?_⟩) fun v hv => ?_
    · rw [← hye, sq_abs]
      ring
    · obtain ⟨z, hz, rfl⟩ := List.mem_map.1 hv
      have h2 : |z ^ 2| ≤ jmax ((xs.map fun x => x ^ 2).map fun x => |x|) :=
        le_jmax (List.mem_map.2 ⟨z ^ 2, List.mem_map.2 ⟨z, hz, rfl⟩, rfl⟩)
      have h3 := pow_le_pow_left₀ (abs_nonneg _) h2 2
      rw [sq_abs] at h3
      calc z ^ 4 = (z ^ 2) ^ 2 := by ring
        _ ≤ _ := h3

theorem l1_error (ds xs : List ℝ) (hd : ∀ d ∈ ds, 0 ≤ d) {eps : ℝ} (he : 0 < eps) :
    (List.zipWith (· * ·) ds (xs.map fun x => |x|)).sum ≤ (List.zipWith (· * ·) ds (xs.map fun x => absLse x eps)).sum ∧
      (List.zipWith (· * ·) ds (xs.map fun x => absLse x eps)).sum ≤
        (List.zipWith (· * ·) ds (xs.map fun x => |x|)).sum + eps * (ds.sum * Real.log 2) := by
  induction ds generalizing xs with
  | nil => simp
  | cons d ds ih =>
    have hd0 := hd d (by simp)
    have hlog : 0 ≤ Real.log 2 := Real.log_nonneg (by norm_num)
    cases xs with
    | nil =>
      simp only [List.map_nil, List.zipWith_nil_right, List.sum_nil, le_refl, zero_add, true_and, List.sum_cons]
      have : 0 ≤ ds.sum := List.sum_nonneg fun y hy => hd y (by simp [hy])
      positivity
    | cons x xs =>
      obtain ⟨h1, h2⟩ := ih xs fun y hy => hd y (by simp [hy])
      simp only [List.map_cons, List.zipWith_cons_cons, List.sum_cons]
      have h3 := mul_le_mul_of_nonneg_left (le_absLse (x := x) he) hd0
      have h4 := mul_le_mul_of_nonneg_left (absLse_le (x := x) he) hd0
      constructor
      · linarith
      · have : eps * ((d + ds.sum) * Real.log 2) = d * (eps * Real.log 2) + eps * (ds.sum * Real.log 2) := by ring
        rw [this]
        linarith

/-- The values in approx mode are at least the values over the unit, and exceed them by at most a multiple of the smoothing parameter. -/
theorem approx_error (Q : FieldProblem) (hp : 0 ≤ gridStep Q.plasma.phis * gridStep Q.plasma.thetas)
    (he : 0 ≤ gridStep Q.ePhis * gridStep Q.eThetas) {name : String} (h : ApproxUse name) {w : ℝ} (hw : 0 < w) (hu : ExactUnit name w)
    {q : Quantity FieldProblem} (hq : (shipped FieldProblem.fns).lookup name = some q) {L : ℕ} (y : Fin L → ℝ) :
    ∃ C ≥ 0, ∀ eps, 0 < eps → eps ≤ 1 → List.Forall₂ (fun v a => v / w ≤ a ∧ a ≤ v / w + eps * C) (valuesOf q Q (List.ofFn y))
      (approxEntries Q name w eps y) := by
  have hc2 : ∀ func comp, q = Quantity.generateC2 func comp → ∃ C ≥ 0, ∀ eps, 0 < eps → eps ≤ 1 →
      List.Forall₂ (fun v a => v / w ≤ a ∧ a ≤ v / w + eps * C) (valuesOf q Q (List.ofFn y)) (approxEntries Q name w eps y) := by
    rintro func comp rfl
    refine ⟨0, le_rfl, fun eps _ _ => ?_⟩
    rw [valuesOf, call_phiOnly]
    simp only [approxEntries, hq, approxVal, Quantity.generateC2, map2_div_entries]
    rw [List.forall₂_map_right_iff]
    exact List.forall₂_same.2 fun x _ => by simp
  have linf : ∀ (func : FieldProblem → Dofs → Val) (aux : String) (pd : Bool), q = Quantity.generateLinf func aux pd false →
      ∃ C ≥ 0, ∀ eps, 0 < eps → eps ≤ 1 →
      List.Forall₂ (fun v a => v / w ≤ a ∧ a ≤ v / w + eps * C) (valuesOf q Q (List.ofFn y)) (approxEntries Q name w eps y) := by
    rintro func aux pd rfl
    obtain ⟨C, hC, h1⟩ := linf_error ((func Q (phiOnly (.array (List.ofFn y)))).entries.map fun x => x / w)
    refine ⟨C, hC, fun eps h0 _ => ?_⟩
    rw [valuesOf, call_phiOnly]
    simp only [approxEntries, hq, approxVal, Quantity.generateLinf, map2_div_entries, Bool.false_eq_true, if_false, entries_scalar,
      Quantity.maxAbs]
    rw [jmax_map_div _ hw] at h1
    exact List.Forall₂.cons (h1 eps h0) List.Forall₂.nil
  rcases h with h | h | h
  · obtain ⟨func, comp, hq', -⟩ := affine_smooth (L := L) Q name h
    exact hc2 func comp (Option.some.inj (hq.symm.trans hq'))
  · obtain ⟨func, comp, hq', -⟩ := quad_smooth (L := L) Q hp he name h
    exact hc2 func comp (Option.some.inj (hq.symm.trans hq'))
  · simp only [smoothedNames, List.mem_cons, List.not_mem_nil, or_false] at h
    rcases h with rfl | rfl | rfl | rfl | rfl | rfl | rfl
    · exact linf _ _ _ (Option.some.inj hq).symm
    · exact linf _ _ _ (Option.some.inj hq).symm
    · exact linf _ _ _ (Option.some.inj hq).symm
    · exact linf _ _ _ (Option.some.inj hq).symm
    · have hw1 : w = 1 := hu (by simp)
      subst hw1
      obtain ⟨C, hC, h1⟩ := linf_error ((arr FieldProblem.fns.Phi Q (phiOnly (.array (List.ofFn y)))).entries)
      have hm : 0 ≤ jmax ((arr FieldProblem.fns.Phi Q (phiOnly (.array (List.ofFn y)))).entries.map fun x => |x|) :=
        jmax_map_nonneg _ _ fun _ => abs_nonneg _
      refine ⟨2 * jmax ((arr FieldProblem.fns.Phi Q (phiOnly (.array (List.ofFn y)))).entries.map fun x => |x|) * C + C ^ 2, by positivity,
        fun eps h0 hle => ?_⟩
      have h2 := sq_error hm hC h0 hle (h1 eps h0).1 (h1 eps h0).2 rfl
      have e1 : valuesOf q Q (List.ofFn y) = [jmax ((arr FieldProblem.fns.Phi Q (phiOnly (.array (List.ofFn y)))).entries.map fun x => |x|) ^ 2] := by
        cases hq
        rw [valuesOf, call_phiOnly]
        rfl
      have e2 : approxEntries Q "f_max_Phi2" 1 eps y = [linfLse (arr FieldProblem.fns.Phi Q (phiOnly (.array (List.ofFn y)))).entries eps ^ 2] := by
        cases hq
        show [linfLse (Val.map2 (· / ·) (arr FieldProblem.fns.Phi Q (phiOnly (.array (List.ofFn y)))) (.scalar 1)).entries eps ^ 2] = _
        rw [map2_div_entries]
        simp
      rw [e1, e2]
      refine List.Forall₂.cons ?_ List.Forall₂.nil
      rw [div_one]
      exact h2
    · have hw1 : w = 1 := hu (by simp)
      subst hw1
      obtain ⟨C, hC, h1⟩ := linf_error ((arr FieldProblem.fns.Phi Q (phiOnly (.array (List.ofFn y)))).entries.map fun x => x ^ 2)
      have hm : 0 ≤ jmax (((arr FieldProblem.fns.Phi Q (phiOnly (.array (List.ofFn y)))).entries.map fun x => x ^ 2).map fun x => |x|) :=
        jmax_map_nonneg _ _ fun _ => abs_nonneg _
      refine ⟨2 * jmax (((arr FieldProblem.fns.Phi Q (phiOnly (.array (List.ofFn y)))).entries.map fun x => x ^ 2).map fun x => |x|) * C + C ^ 2,
        by positivity, fun eps h0 hle => ?_⟩
      have h2 := sq_error hm hC h0 hle (h1 eps h0).1 (h1 eps h0).2 rfl
      have e1 : valuesOf q Q (List.ofFn y) =
          [jmax (((arr FieldProblem.fns.Phi Q (phiOnly (.array (List.ofFn y)))).entries.map fun x => x ^ 2).map fun x => |x|) ^ 2] := by
        cases hq
        rw [valuesOf, call_phiOnly, ← jmax_pow4]
        rfl
      have e2 : approxEntries Q "f_max_Phi4" 1 eps y =
          [linfLse ((arr FieldProblem.fns.Phi Q (phiOnly (.array (List.ofFn y)))).entries.map fun x => x ^ 2) eps ^ 2] := by
        cases hq
        show [linfLse (Val.map2 (· / ·) (Val.map (· ^ 2) (arr FieldProblem.fns.Phi Q (phiOnly (.array (List.ofFn y)))))
          (Val.map (· ^ 2) (.scalar 1))).entries eps ^ 2] = _
        rw [Val.map_scalar', map2_div_entries, entries_map', List.map_map]
        simp [Function.comp_def]
      rw [e1, e2]
      refine List.Forall₂.cons ?_ List.Forall₂.nil
      rw [div_one]
      exact h2
    · have hda := da_nonneg Q.evalSurface he
      refine ⟨Q.evalSurface.da.sum * Real.log 2 * Q.cp.nfp / w, ?_, fun eps h0 hle => ?_⟩
      · have h1 : 0 ≤ Q.evalSurface.da.sum := List.sum_nonneg hda
        have h2 : 0 ≤ Real.log 2 := Real.log_nonneg (by norm_num)
        have h3 : (0 : ℝ) ≤ Q.cp.nfp := Nat.cast_nonneg _
        positivity
      · have e1 : valuesOf q Q (List.ofFn y) = [(List.zipWith (· * ·) Q.evalSurface.da
            ((arr FieldProblem.fns.Phi Q (phiOnly (.array (List.ofFn y)))).entries.map fun x => |x|)).sum * Q.cp.nfp] := by
          cases hq
          rw [valuesOf, call_phiOnly]
          rfl
        have e2 : approxEntries Q "f_l1_Phi" w eps y = [(List.zipWith (· * ·) Q.evalSurface.da
            ((arr FieldProblem.fns.Phi Q (phiOnly (.array (List.ofFn y)))).entries.map fun x => absLse x eps)).sum * Q.cp.nfp / w] := by
          cases hq
          rfl
        obtain ⟨h1, h2⟩ := l1_error Q.evalSurface.da (arr FieldProblem.fns.Phi Q (phiOnly (.array (List.ofFn y)))).entries hda h0
        have h3 : (0 : ℝ) ≤ Q.cp.nfp := Nat.cast_nonneg _
        rw [e1, e2]
        refine List.Forall₂.cons ⟨?_, ?_⟩ List.Forall₂.nil
        · exact div_le_div_of_nonneg_right (mul_le_mul_of_nonneg_right h1 h3) hw.le
        · refine (div_le_div_of_nonneg_right (mul_le_mul_of_nonneg_right h2 h3) hw.le).trans (le_of_eq ?_)
          ring

/-- In approx mode affine fields are only divided by their unit. -/
theorem approx_exact (Q : FieldProblem) {name : String} (h : name ∈ affineNames) (w eps : ℝ) {q : Quantity FieldProblem}
    (hq : (shipped FieldProblem.fns).lookup name = some q) {L : ℕ} (y : Fin L → ℝ) :
    approxEntries Q name w eps y = (valuesOf q Q (List.ofFn y)).map fun v => v / w := by
  obtain ⟨func, comp, hq', -⟩ := affine_smooth (L := L) Q name h
  obtain rfl := Option.some.inj (hq.symm.trans hq')
  rw [valuesOf, call_phiOnly]
  simp only [approxEntries, hq, approxVal, Quantity.generateC2, map2_div_entries]

theorem flatMap_ne {β γ : Type} {l : List β} {f : β → List γ} (hl : l ≠ []) (hf : ∀ b, f b ≠ []) : l.flatMap f ≠ [] := by
  obtain ⟨b, hb⟩ := List.exists_mem_of_ne_nil _ hl
  obtain ⟨c, hc⟩ := List.exists_mem_of_ne_nil _ (hf b)
  exact List.ne_nil_of_mem (List.mem_flatMap.2 ⟨b, hb, hc⟩)

/-- The values are not empty if the grids are not. -/
theorem values_ne (Q : FieldProblem) (hE : Q.evalGrid ≠ []) (hB : ∀ c, Q.bnormal c ≠ []) {name : String} (h : ApproxUse name)
    {q : Quantity FieldProblem} (hq : (shipped FieldProblem.fns).lookup name = some q) (c : List ℝ) : valuesOf q Q c ≠ [] := by
  have hP : Q.plasmaGrid ≠ [] := by
    intro h
    refine hB c ?_
    have : gridPoints Q.plasma.phis Q.plasma.thetas = [] := h
    simp [FieldProblem.bnormal, this]
  have hL : ∀ v : V3, v.toList ≠ [] := fun v => by simp [V3.toList]
  have hmem := h.lookup
  rw [valuesOf, call_phiOnly]
  simp only [affineNames, convexNames, List.cons_append, List.nil_append, List.mem_cons, List.not_mem_nil, or_false] at hmem
  rcases hmem with rfl | rfl | rfl | rfl | rfl | rfl | rfl | rfl | rfl | rfl | rfl | rfl | rfl | rfl | rfl | rfl | rfl | rfl | rfl | rfl |
    rfl <;> cases hq <;>
    simp only [Quantity.generateC2, Quantity.generateLinf, Quantity.generateLinf4, Quantity.generateL1, Quantity.generateHuber, arr, num,
      Val.entries, FieldProblem.fns, coefs_phiOnly, ne_eq, List.map_eq_nil_iff, List.cons_ne_nil, not_false_eq_true, hE, hB,
      Bool.false_eq_true, if_false, if_true]
  · rw [← List.flatMap_def]
    exact flatMap_ne hE fun q => hL _
  · exact flatMap_ne hP fun q => hL _

/-! ## The constraints -/

/-- How much the values of a request violate it, in units of the request. -/
noncomputable def requestExcess (Q : FieldProblem) (q : Quantity FieldProblem) (r : Request) {L : ℕ} (y : Fin L → ℝ) : List ℝ :=
  (valuesOf q Q (List.ofFn y)).map fun v => (if r.type = ">=" then -1 else 1) * (v / r.unit.size - r.value / r.unit.size)

/-- What approx mode needs to know about a request. -/
structure GoodRequest (Q : FieldProblem) (r : Request) (q : Quantity FieldProblem) : Prop where
  use : ApproxUse r.name
  quantity : (shipped FieldProblem.fns).lookup r.name = some q
  unit : 0 < r.unit.size
  exactUnit : ExactUnit r.name r.unit.size
  type : r.type = "<=" ∨ (r.type = ">=" ∧ r.name ∈ affineNames)

section
variable {Q : FieldProblem} {r : Request} {q : Quantity FieldProblem} {L : ℕ}

theorem GoodRequest.excess (G : GoodRequest Q r q) (y : Fin L → ℝ) (t : ℝ) :
    (∀ x ∈ requestExcess Q q r y, x ≤ t) ↔
      (r.type = "<=" ∧ ∀ v ∈ valuesOf q Q (List.ofFn y), v ≤ r.value + t * r.unit.size) ∨
        (r.type = ">=" ∧ ∀ v ∈ valuesOf q Q (List.ofFn y), r.value - t * r.unit.size ≤ v) := by
  have hu := G.unit
  have key : ∀ v : ℝ, v / r.unit.size - r.value / r.unit.size ≤ t ↔ v ≤ r.value + t * r.unit.size := by
    intro v
    rw [← sub_div, div_le_iff₀ hu]
    constructor <;> intro h <;> linarith
  have key' : ∀ v : ℝ, -1 * (v / r.unit.size - r.value / r.unit.size) ≤ t ↔ r.value - t * r.unit.size ≤ v := by
    intro v
    rw [← sub_div, ← mul_div_assoc, div_le_iff₀ hu]
    constructor <;> intro h <;> linarith
  rcases G.type with ht | ⟨ht, -⟩
  · have hne : r.type ≠ ">=" := by rw [ht]; decide
    rw [requestExcess, List.forall_mem_map]
    simp only [hne, if_false, one_mul, key, false_and, or_false]
    exact ⟨fun h => ⟨ht, h⟩, fun h => h.2⟩
  · have hne : r.type ≠ "<=" := by rw [ht]; decide
    rw [requestExcess, List.forall_mem_map]
    simp only [if_pos ht, key', hne, false_and, false_or]
    exact ⟨fun h => ⟨ht, h⟩, fun h => h.2⟩

theorem GoodRequest.feasible_iff (G : GoodRequest Q r q) (others : List String) (y : Fin L → ℝ) :
    FieldConstraint r.type r.value (rawOf (shippedRegistry FieldProblem.fns others) r.name Q (phiOnly (.array (List.ofFn y)))).entries ↔
      ∀ x ∈ requestExcess Q q r y, x ≤ 0 := by
  rw [rawOf_shipped Q others G.quantity (c := List.ofFn y) (by simp [phiOnly]), G.excess]
  simp only [zero_mul, add_zero, sub_zero, FieldConstraint]
  rcases G.type with ht | ⟨ht, -⟩ <;> rw [ht] <;> simp

theorem GoodRequest.error (G : GoodRequest Q r q) (hp : 0 ≤ gridStep Q.plasma.phis * gridStep Q.plasma.thetas)
    (he : 0 ≤ gridStep Q.ePhis * gridStep Q.eThetas) (y : Fin L → ℝ) :
    ∃ C ≥ 0, ∀ eps, 0 < eps → eps ≤ 1 → List.Forall₂ (fun u a => u ≤ a ∧ a ≤ u + eps * C) (requestExcess Q q r y)
      ((approxEntries Q r.name r.unit.size eps y).map fun v => (if r.type = ">=" then -1 else 1) * (v - r.value / r.unit.size)) := by
  rcases G.type with ht | ⟨ht, ha⟩
  · have hne : r.type ≠ ">=" := by rw [ht]; decide
    obtain ⟨C, hC, h⟩ := approx_error Q hp he G.use G.unit G.exactUnit G.quantity y
    refine ⟨C, hC, fun eps h0 h1 => ?_⟩
    rw [requestExcess, List.forall₂_map_left_iff, List.forall₂_map_right_iff]
    refine (h eps h0 h1).imp fun v a hva => ?_
    simp only [if_neg hne, one_mul]
    exact ⟨by linarith [hva.1], by linarith [hva.2]⟩
  · refine ⟨0, le_rfl, fun eps _ _ => ?_⟩
    rw [approx_exact Q ha _ _ G.quantity, requestExcess, List.map_map, List.forall₂_map_left_iff, List.forall₂_map_right_iff]
    exact List.forall₂_same.2 fun v _ => by simp [ht]

/-- The number that approx mode turns a request into is at least every excess, and at most every bound of them plus a multiple of the
smoothing parameter. -/
theorem GoodRequest.constraint (G : GoodRequest Q r q) (hp : 0 ≤ gridStep Q.plasma.phis * gridStep Q.plasma.thetas)
    (he : 0 ≤ gridStep Q.ePhis * gridStep Q.eThetas) (hE : Q.evalGrid ≠ []) (hB : ∀ c, Q.bnormal c ≠ []) (y : Fin L → ℝ) :
    ∃ C, ∀ eps, 0 < eps → eps ≤ 1 → (∀ x ∈ requestExcess Q q r y, x ≤ approxConstraint Q r eps y) ∧
      ∀ t, (∀ x ∈ requestExcess Q q r y, x ≤ t) → approxConstraint Q r eps y ≤ t + eps * C := by
  obtain ⟨C, hC, h⟩ := G.error hp he y
  have hne : requestExcess Q q r y ≠ [] := by
    rw [requestExcess, ne_eq, List.map_eq_nil_iff]
    exact values_ne Q hE hB G.use G.quantity _
  refine ⟨C + Real.log (requestExcess Q q r y).length, fun eps h0 h1 => ?_⟩
  have h := h eps h0 h1
  have hlog : 0 ≤ Real.log (requestExcess Q q r y).length := Real.log_natCast_nonneg _
  have e : approxConstraint Q r eps y = if r.name ∈ objectiveNames then
      ((approxEntries Q r.name r.unit.size eps y).map fun v => (if r.type = ">=" then -1 else 1) * (v - r.value / r.unit.size)).headD 0
      else maxLse ((approxEntries Q r.name r.unit.size eps y).map fun v =>
        (if r.type = ">=" then -1 else 1) * (v - r.value / r.unit.size)) eps := rfl
  rw [e]
  by_cases hn : r.name ∈ objectiveNames
  · obtain ⟨v, hv⟩ := approx_single Q hp he hn ((approxUse_iff _).1 G.use).2 r.unit.size eps y
    rw [if_pos hn]
    rw [hv] at h ⊢
    simp only [List.map_cons, List.map_nil, List.headD_cons] at h ⊢
    obtain ⟨u, l, hu, hl, hul⟩ := List.forall₂_cons_right_iff.1 h
    obtain rfl := List.forall₂_nil_right_iff.1 hl
    rw [hul]
    refine ⟨fun x hx => ?_, fun t ht => ?_⟩
    · rw [List.mem_singleton.1 hx]
      exact hu.1
    · refine hu.2.trans ?_
      have h3 := ht u (by simp)
      simp only [List.length_cons, List.length_nil, zero_add, Nat.cast_one, Real.log_one, add_zero]
      linarith
  · rw [if_neg hn]
    have hlen := h.length_eq
    refine ⟨fun x hx => ?_, fun t ht => ?_⟩
    · obtain ⟨i, hi, rfl⟩ := List.mem_iff_getElem.1 hx
      have := (List.forall₂_iff_get.1 h).2 i hi (by omega)
      exact this.1.trans (le_maxLse h0 (List.get_mem _ _))
    · have hne' : ((approxEntries Q r.name r.unit.size eps y).map fun v =>
          (if r.type = ">=" then -1 else 1) * (v - r.value / r.unit.size)) ≠ [] := by
        intro h'
        rw [h'] at hlen
        exact hne (List.length_eq_zero_iff.1 hlen)
      have := maxLse_le (t := t + eps * C) h0 hne' (by
        intro x hx
        obtain ⟨i, hi, rfl⟩ := List.mem_iff_getElem.1 hx
        have := (List.forall₂_iff_get.1 h).2 i (by omega) hi
        exact this.2.trans (by linarith [ht _ (List.get_mem (requestExcess Q q r y) ⟨i, by omega⟩)]))
      rw [← hlen] at this
      linarith

end

/-! ## The objective -/

theorem approxObjective_error (Q : FieldProblem) (others : List String) (hp : 0 ≤ gridStep Q.plasma.phis * gridStep Q.plasma.thetas)
    (he : 0 ≤ gridStep Q.ePhis * gridStep Q.eThetas) {objs : List (String × UnitArg × ℝ)} (h : ConvexObjectives objs)
    (hne : ∀ o ∈ objs, o.1 ≠ "f_huber_K") (hex : ∀ o ∈ objs, ExactUnit o.1 o.2.1.size) {L : ℕ} (y : Fin L → ℝ) :
    ∃ C ≥ 0, ∀ eps, 0 < eps → eps ≤ 1 →
      userObjective (shippedRegistry FieldProblem.fns others) objs Q (phiOnly (.array (List.ofFn y))) ≤ approxObjective Q objs eps y ∧
        approxObjective Q objs eps y ≤
          userObjective (shippedRegistry FieldProblem.fns others) objs Q (phiOnly (.array (List.ofFn y))) + eps * C := by
  induction objs with
  | nil => exact ⟨0, le_rfl, fun eps _ _ => by simp [userObjective, approxObjective]⟩
  | cons o objs ih =>
    obtain ⟨C, hC, h1⟩ := ih (fun o ho => h o (by simp [ho])) (fun o ho => hne o (by simp [ho])) fun o ho => hex o (by simp [ho])
    obtain ⟨hname, ⟨u, hu, hu0⟩, hw⟩ := h o (by simp)
    have hsize : 0 < o.2.1.size := by
      rw [hu]
      exact abs_pos.2 hu0
    obtain ⟨q, hq, hval⟩ := objective_value Q hp he o.1 hname
    obtain ⟨v, hv, -⟩ := hval (List.ofFn y)
    obtain ⟨D, hD, h2⟩ := approx_error Q hp he (objectiveNames_use hname (hne o (by simp))) hsize (hex o (by simp)) hq y
    refine ⟨C + o.2.2 * D, by positivity, fun eps h0 hle => ?_⟩
    have h2 := h2 eps h0 hle
    rw [hv] at h2
    obtain ⟨a, l, ha, hl, hal⟩ := List.forall₂_cons_left_iff.1 h2
    obtain rfl := List.forall₂_nil_left_iff.1 hl
    obtain ⟨h3, h4⟩ := h1 eps h0 hle
    have e1 : userObjective (shippedRegistry FieldProblem.fns others) (o :: objs) Q (phiOnly (.array (List.ofFn y))) =
        o.2.2 * (v / o.2.1.size) + userObjective (shippedRegistry FieldProblem.fns others) objs Q (phiOnly (.array (List.ofFn y))) := by
      have hd : phiOnly (.array (List.ofFn y)) "phi" = .array (List.ofFn y) := by simp [phiOnly]
      simp only [userObjective, List.map_cons, List.sum_cons, rawOf_shipped Q others hq hd, hv, List.headD_cons]
    have e2 : approxObjective Q (o :: objs) eps y = o.2.2 * a + approxObjective Q objs eps y := by
      simp only [approxObjective, List.map_cons, List.sum_cons, hal, List.headD_cons]
    rw [e1, e2]
    have h5 := mul_le_mul_of_nonneg_left ha.1 hw
    have h6 := mul_le_mul_of_nonneg_left ha.2 hw
    constructor
    · linarith
    · linarith

/-- The smoothed objective contains the current term unchanged. -/
theorem approxObjective_split (Q : FieldProblem) (n : ℕ) {objs : List (String × UnitArg × ℝ)} {o : String × UnitArg × ℝ} {u : ℝ}
    (ho : o ∈ objs) (hK : o.1 = "f_K") (hu : o.2.1 = .scalar u) :
    ∃ rest, (∀ o ∈ rest, o ∈ objs) ∧ ∀ eps (y : Fin n → ℝ),
      approxObjective Q objs eps y = termsSq (kTerms Q (o.2.2 / |u|) n) y + approxObjective Q rest eps y := by
  obtain ⟨l1, l2, rfl⟩ := List.append_of_mem ho
  refine ⟨l1 ++ l2, fun o' ho' => ?_, fun eps y => ?_⟩
  · rcases List.mem_append.1 ho' with h' | h'
    · simp [h']
    · simp [h']
  · have hv : approxEntries Q o.1 o.2.1.size eps y = [Q.fK (List.ofFn y) / |u|] := by
      rw [hK, hu]
      rfl
    simp only [approxObjective, List.map_append, List.map_cons, List.sum_append, List.sum_cons, hv, kTerms_sum, List.headD_cons]
    ring

/-! ## The rate in terms of the coefficients -/

/-- A minimiser of the smoothed problem. -/
def ApproxMinimiser (Q : FieldProblem) (merge : Bool) (objs : List (String × UnitArg × ℝ)) (rs : List Request) (eps : ℝ) {L : ℕ}
    (y : Fin L → ℝ) : Prop :=
  AllNonpos (approxConstraints Q merge rs eps y) ∧
    ∀ z : Fin L → ℝ, AllNonpos (approxConstraints Q merge rs eps z) → approxObjective Q objs eps y ≤ approxObjective Q objs eps z

/-- The constraint functions as families in the smoothing parameter. -/
noncomputable def approxFamilies (Q : FieldProblem) (merge : Bool) (rs : List Request) (L : ℕ) : List (ℝ → (Fin L → ℝ) → ℝ) :=
  if merge = true ∧ rs ≠ [] then [fun eps y => maxLse (rs.map fun r => approxConstraint Q r eps y) eps]
  else rs.map fun r eps y => approxConstraint Q r eps y

theorem approxFamilies_eq (Q : FieldProblem) (merge : Bool) (rs : List Request) {L : ℕ} (eps : ℝ) (y : Fin L → ℝ) :
    approxConstraints Q merge rs eps y = (approxFamilies Q merge rs L).map fun g => g eps y := by
  simp only [approxConstraints, approxFamilies]
  split
  · rfl
  · rw [List.map_map]
    rfl

theorem approxFamilies_nonpos (Q : FieldProblem) (merge : Bool) (rs : List Request) {L : ℕ} (eps : ℝ) (y : Fin L → ℝ) :
    AllNonpos (approxConstraints Q merge rs eps y) ↔ ∀ g ∈ approxFamilies Q merge rs L, g eps y ≤ 0 := by
  rw [approxFamilies_eq, AllNonpos, List.forall_mem_map]

/-- The grid of the winding surface is not empty. -/
theorem Resolved.evalGrid_ne {Q : FieldProblem} {A B : ℕ} (R : Resolved Q A B) : Q.evalGrid ≠ [] := by
  have h1 := R.two_le_A
  have h2 := R.two_le_B
  rw [FieldProblem.evalGrid, R.ePhis, R.eThetas]
  refine flatMap_ne (fun h => ?_) fun b h => ?_
  · have := congrArg List.length h
    simp [linspace0] at this
    omega
  · have := congrArg List.length h
    simp [linspace0] at this
    omega

/-- The requests of a legal call in approx mode. -/
theorem approx_good {Q : FieldProblem} {others : List String} (hp : 0 ≤ gridStep Q.plasma.phis * gridStep Q.plasma.thetas)
    (he : 0 ≤ gridStep Q.ePhis * gridStep Q.eThetas) {rs : List Request} {sm : Option String}
    (hrs : ∀ r ∈ rs, ApproxUse r.name ∧ (∃ u, r.unit = .scalar u ∧ u ≠ 0) ∧ ExactUnit r.name r.unit.size ∧ (r.type = "<=" ∨ r.type = ">=") ∧
      LegalUse (shippedRegistry FieldProblem.fns others) sm r.name r.unit r.type) : ∀ r ∈ rs, ∃ q, GoodRequest Q r q := by
  intro r hr
  obtain ⟨h1, ⟨u, hu, hu0⟩, h3, h4, h5⟩ := hrs r hr
  obtain ⟨q, hq⟩ := approx_registered Q hp he h1
  refine ⟨q, h1, hq, ?_, h3, ?_⟩
  · rw [hu]
    exact abs_pos.2 hu0
  · exact h4.imp id fun ht => ⟨ht, (legal_side h1 h5).2 ht⟩

/-- A strictly feasible potential keeps a margin in approx mode. -/
theorem approx_margin {Q : FieldProblem} {others : List String} (hp : 0 ≤ gridStep Q.plasma.phis * gridStep Q.plasma.thetas)
    (he : 0 ≤ gridStep Q.ePhis * gridStep Q.eThetas) (hE : Q.evalGrid ≠ []) (hB : ∀ c, Q.bnormal c ≠ []) {rs : List Request}
    (good : ∀ r ∈ rs, ∃ q, GoodRequest Q r q) {n : ℕ} {z : Fin n → ℝ}
    (hz : StrictlyFeasible (shippedRegistry FieldProblem.fns others) rs Q (phiOnly (.array (List.ofFn z)))) (merge : Bool) :
    ∀ g ∈ approxFamilies Q merge rs n, ∃ δ > 0, ∃ C, ∀ eps, 0 < eps → eps ≤ 1 → g eps z ≤ -δ + eps * C := by
  have h1 : ∀ g ∈ rs.map (fun r eps (y : Fin n → ℝ) => approxConstraint Q r eps y),
      ∃ δ > 0, ∃ C, ∀ eps, 0 < eps → eps ≤ 1 → g eps z ≤ -δ + eps * C := by
    intro g hg
    obtain ⟨r, hr, rfl⟩ := List.mem_map.1 hg
    obtain ⟨q, G⟩ := good r hr
    obtain ⟨C, hC⟩ := G.constraint hp he hE hB z
    have hu := G.unit
    have hs : ∀ x ∈ requestExcess Q q r z, x < 0 := by
      have := hz r hr
      rw [rawOf_shipped Q others G.quantity (c := List.ofFn z) (by simp [phiOnly])] at this
      intro x hx
      obtain ⟨v, hv, rfl⟩ := List.mem_map.1 hx
      rcases this with ⟨ht, hall⟩ | ⟨ht, hall⟩
      · have hne : r.type ≠ ">=" := by rw [ht]; decide
        have := (div_lt_div_iff_of_pos_right hu).2 (hall v hv)
        simp only [if_neg hne]
        linarith
      · have := (div_lt_div_iff_of_pos_right hu).2 (hall v hv)
        simp only [if_pos ht]
        linarith
    obtain ⟨δ, hδ, h3⟩ := exists_margin _ 0 hs
    refine ⟨δ, hδ, C, fun eps h0 h1 => ?_⟩
    exact (hC eps h0 h1).2 (-δ) fun x hx => by linarith [h3 x hx]
  simp only [approxFamilies]
  split
  · rename_i hm
    intro g hg
    rw [List.mem_singleton.1 hg]
    obtain ⟨δ, hδ, C, hC⟩ := maxLse_margin _ z h1 (by simpa using hm.2)
    refine ⟨δ, hδ, C, fun eps h0 h1 => ?_⟩
    have := hC eps h0 h1
    rwa [List.map_map] at this
  · exact h1

section
variable (Q : FieldProblem) (others : List String)

/-- **C135 (coefficients).** The rate, in terms of the coefficients. -/
theorem approx_rate {A B : ℕ} (R : Resolved Q A B) (hB : ∀ c, Q.bnormal c ≠ []) {objs : List (String × UnitArg × ℝ)}
    (h : ConvexObjectives objs) (hne : ∀ o ∈ objs, o.1 ≠ "f_huber_K") (hex : ∀ o ∈ objs, ExactUnit o.1 o.2.1.size)
    {o : String × UnitArg × ℝ} (ho : o ∈ objs) (hK : o.1 = "f_K") (hw : 0 < o.2.2) {rs : List Request} {sm : Option String}
    (hrs : ∀ r ∈ rs, ApproxUse r.name ∧ (∃ u, r.unit = .scalar u ∧ u ≠ 0) ∧ ExactUnit r.name r.unit.size ∧ (r.type = "<=" ∨ r.type = ">=") ∧
      LegalUse (shippedRegistry FieldProblem.fns others) sm r.name r.unit r.type)
    {n : ℕ} (hn : n = (cpNdofs Q.cp.stellsym Q.cp.mpol Q.cp.ntor).1) {c z : Fin n → ℝ} (hc : c ∈ feasibleSet Q others rs n)
    (hmin : ∀ y ∈ feasibleSet Q others rs n, userObjective (shippedRegistry FieldProblem.fns others) objs Q (phiOnly (.array (List.ofFn c))) ≤
      userObjective (shippedRegistry FieldProblem.fns others) objs Q (phiOnly (.array (List.ofFn y))))
    (hz : StrictlyFeasible (shippedRegistry FieldProblem.fns others) rs Q (phiOnly (.array (List.ofFn z)))) (merge : Bool) :
    ∃ K ≥ 0, ∃ eps0 > 0, ∀ eps, 0 < eps → eps ≤ eps0 → ∃ k : Fin n → ℝ,
      (∀ y, ApproxMinimiser Q merge objs rs eps y ↔ y = k) ∧ k ∈ feasibleSet Q others rs n ∧ ∑ i, (c i - k i) ^ 2 ≤ K * eps ∧
      userObjective (shippedRegistry FieldProblem.fns others) objs Q (phiOnly (.array (List.ofFn c))) ≤
        userObjective (shippedRegistry FieldProblem.fns others) objs Q (phiOnly (.array (List.ofFn k))) ∧
      userObjective (shippedRegistry FieldProblem.fns others) objs Q (phiOnly (.array (List.ofFn k))) ≤ approxObjective Q objs eps k ∧
      approxObjective Q objs eps k ≤
        userObjective (shippedRegistry FieldProblem.fns others) objs Q (phiOnly (.array (List.ofFn c))) + K * eps := by
  have hp := R.plasma
  have he := R.eval_nonneg
  have hE := R.evalGrid_ne
  have good := approx_good hp he hrs
  obtain ⟨-, ⟨u, hu, hu0⟩, -⟩ := h o ho
  have hwu : 0 < o.2.2 / |u| := div_pos hw (abs_pos.2 hu0)
  obtain ⟨hdef, hnn⟩ := R.definite hwu
  rw [← hn] at hdef hnn
  have haff := kTerms_affine Q (o.2.2 / |u|) n
  obtain ⟨rest, hrest, hsplit⟩ := objective_split Q others n h ho hK hu
  obtain ⟨hconv, -⟩ := objective_convex Q others hp he n hrest
  have hrs' : ∀ r ∈ rs, r.name ∈ affineNames ++ convexNames ∧ LegalUse (shippedRegistry FieldProblem.fns others) sm r.name r.unit r.type :=
    fun r hr => ⟨(hrs r hr).1.lookup, (hrs r hr).2.2.2.2⟩
  obtain ⟨hseg, -⟩ := feasibleSet_convex Q others hp he n hrs'
  obtain ⟨μ, hμ, hco⟩ := hdef.coercive haff hnn
  obtain ⟨rest', hrest', hsplit'⟩ := approxObjective_split Q n ho hK hu
  have h' : ConvexObjectives rest' := fun o ho => h o (hrest' o ho)
  have hne' : ∀ o ∈ rest', o.1 ≠ "f_huber_K" := fun o ho => hne o (hrest' o ho)
  have hex' : ∀ o ∈ rest', ExactUnit o.1 o.2.1.size := fun o ho => hex o (hrest' o ho)
  have hrs'' : ∀ r ∈ rs, ApproxUse r.name ∧ (∃ u, r.unit = .scalar u ∧ u ≠ 0) ∧ (r.type = ">=" → r.name ∈ affineNames) :=
    fun r hr => ⟨(hrs r hr).1, (hrs r hr).2.1, (legal_side (hrs r hr).1 (hrs r hr).2.2.2.2).2⟩
  have hgconv : ∀ g ∈ approxFamilies Q merge rs n, ∀ eps, 0 < eps → ConvexFn (g eps) := by
    intro g hg eps heps
    have hall : ∀ r ∈ rs, SmoothConvex fun y : Fin n → ℝ => approxConstraint Q r eps y := by
      intro r hr
      obtain ⟨h1, ⟨u, hu, -⟩, h3⟩ := hrs'' r hr
      exact approxConstraint_smooth Q hp he h1 hu h3 heps n
    simp only [approxFamilies] at hg
    split at hg
    · rw [List.mem_singleton.1 hg]
      refine (EachFn.maxLse ⟨rs.map fun r y => approxConstraint Q r eps y, fun y => by rw [List.map_map]; rfl, fun f hf => ?_⟩ heps).1
      obtain ⟨r, hr, rfl⟩ := List.mem_map.1 hf
      exact hall r hr
    · obtain ⟨r, hr, rfl⟩ := List.mem_map.1 hg
      exact (hall r hr).1
  have sound : ∀ eps, 0 < eps → eps ≤ 1 → ∀ y : Fin n → ℝ, AllNonpos (approxConstraints Q merge rs eps y) → y ∈ feasibleSet Q others rs n := by
    intro eps h0 h1 y hy r hr
    obtain ⟨q, G⟩ := good r hr
    rw [G.feasible_iff others y]
    obtain ⟨C, hC⟩ := G.constraint hp he hE hB y
    have hle : approxConstraint Q r eps y ≤ 0 := by
      by_cases hm : merge = true ∧ rs ≠ []
      · simp only [approxConstraints, if_pos hm] at hy
        exact (le_maxLse h0 (List.mem_map.2 ⟨r, hr, rfl⟩)).trans (hy _ (List.mem_singleton.2 rfl))
      · simp only [approxConstraints, if_neg hm] at hy
        exact hy _ (List.mem_map.2 ⟨r, hr, rfl⟩)
    exact fun x hx => ((hC eps h0 h1).1 x hx).trans hle
  have bound : ∀ g ∈ approxFamilies Q merge rs n, ∃ C, ∀ eps, 0 < eps → eps ≤ 1 → g eps c ≤ eps * C := by
    have h1 : ∀ g ∈ rs.map (fun r eps (y : Fin n → ℝ) => approxConstraint Q r eps y), ∃ C, ∀ eps, 0 < eps → eps ≤ 1 → g eps c ≤ eps * C := by
      intro g hg
      obtain ⟨r, hr, rfl⟩ := List.mem_map.1 hg
      obtain ⟨q, G⟩ := good r hr
      obtain ⟨C, hC⟩ := G.constraint hp he hE hB c
      refine ⟨C, fun eps h0 h1 => ?_⟩
      have := (hC eps h0 h1).2 0 ((G.feasible_iff others c).1 (hc r hr))
      linarith
    simp only [approxFamilies]
    split
    · rename_i hm
      intro g hg
      rw [List.mem_singleton.1 hg]
      obtain ⟨C, hC⟩ := maxLse_bound _ c h1 (by simpa using hm.2)
      refine ⟨C, fun eps h0 h1 => ?_⟩
      have := hC eps h0 h1
      rwa [List.map_map] at this
    · exact h1
  have margin := approx_margin hp he hE hB good hz merge
  have err := fun y : Fin n → ℝ => approxObjective_error Q others hp he h hne hex y
  obtain ⟨K, eps0, he0, he1, hnear⟩ := exists_feasible_near (approxFamilies Q merge rs n) (fun eps y => approxObjective Q objs eps y)
    (fun y => userObjective (shippedRegistry FieldProblem.fns others) objs Q (phiOnly (.array (List.ofFn y)))) c z hgconv
    (fun eps h0 => (approxObjective_smooth Q hp he h hne h0 n).1) (fun y => by
      obtain ⟨C, -, hC⟩ := err y
      exact ⟨C, fun eps h0 h1 => (hC eps h0 h1).2⟩) bound margin
  refine ⟨max K 0 + max K 0 / μ, by positivity, eps0, he0, fun eps h0 hle => ?_⟩
  have hle1 : eps ≤ 1 := hle.trans he1
  obtain ⟨y0, hy0, hy0F⟩ := hnear eps h0 hle
  let S : Set (Fin n → ℝ) := {y | ∀ g ∈ approxFamilies Q merge rs n, g eps y ≤ 0}
  have hSseg : SegmentClosed S := by
    intro x hx y hy a ha0 ha1 g hg
    have h2 := hgconv g hg eps h0 x y a ha0 ha1
    have h3 := mul_le_mul_of_nonneg_left (hx g hg) ha0
    have h4 := mul_le_mul_of_nonneg_left (hy g hg) (by linarith : 0 ≤ 1 - a)
    linarith
  have hSc : IsClosed S := by
    have e : S = ⋂ g ∈ approxFamilies Q merge rs n, {y | g eps y ≤ 0} := by
      ext x
      simp [S]
    rw [e]
    exact isClosed_biInter fun g hg => isClosed_le (hgconv g hg eps h0).continuous continuous_const
  have hH := (approxObjective_smooth Q hp he h' hne' h0 n).1
  obtain ⟨k, ⟨hkS, hkm⟩, huniq⟩ := hdef.exists_unique haff hnn hH (fun x => by
    obtain ⟨C, -, hC⟩ := approxObjective_error Q others hp he h' hne' hex' x
    exact ((objective_convex Q others hp he n h').2 x).trans (hC eps h0 hle1).1) hSseg hSc ⟨y0, hy0⟩
  have hkm' : ∀ y ∈ S, approxObjective Q objs eps k ≤ approxObjective Q objs eps y := fun y hy => by
    rw [hsplit', hsplit']
    exact hkm y hy
  have hkf : k ∈ feasibleSet Q others rs n := sound eps h0 hle1 k ((approxFamilies_nonpos ..).2 hkS)
  have hkF : approxObjective Q objs eps k ≤
      userObjective (shippedRegistry FieldProblem.fns others) objs Q (phiOnly (.array (List.ofFn c))) + K * eps := (hkm' y0 hy0).trans hy0F
  obtain ⟨C, -, hC⟩ := err k
  have hkU := (hC eps h0 hle1).1
  have hKe : K * eps ≤ max K 0 * eps := mul_le_mul_of_nonneg_right (le_max_left _ _) h0.le
  have hg := growth haff hconv hseg hc (fun y hy => by
    rw [← hsplit, ← hsplit]
    exact hmin y hy) k hkf
  rw [← hsplit, ← hsplit] at hg
  have hdist : μ * ∑ i, (c i - k i) ^ 2 ≤ max K 0 * eps := (hco c k).trans (by linarith)
  have hq : 0 ≤ max K 0 / μ * eps := by positivity
  have hq' : 0 ≤ max K 0 * eps := by positivity
  refine ⟨k, fun y => ?_, hkf, ?_, hmin k hkf, hkU, ?_⟩
  · constructor
    · rintro ⟨h1, h2⟩
      refine huniq y ⟨(approxFamilies_nonpos ..).1 h1, fun v hv => ?_⟩
      rw [← hsplit', ← hsplit']
      exact h2 v ((approxFamilies_nonpos ..).2 hv)
    · rintro rfl
      exact ⟨(approxFamilies_nonpos ..).2 hkS, fun v hv => hkm' v ((approxFamilies_nonpos ..).1 hv)⟩
  · have h3 : ∑ i, (c i - k i) ^ 2 ≤ max K 0 / μ * eps := by
      rw [div_mul_eq_mul_div, le_div_iff₀ hμ]
      linarith
    rw [add_mul]
    linarith
  · rw [add_mul]
    linarith

/-! ## The problem passed to the solver -/

variable {Q} in
/-- The flat vectors are the coefficients in another unit. -/
theorem ApproxData.flat_iff {a : QuadcoilArgs} {phiUnit : ℝ} {S : Setup} (T : ApproxData Q a phiUnit S) (hu : phiUnit ≠ 0) {n : ℕ}
    (hn : (a.phiInit.getD (List.replicate (HasQp.ndofs Q) 0)).length = n) :
    (∀ x : List ℝ, x.length = S.x0.length → ∃ y : Fin n → ℝ, dofsOf S.template S.phiUnit x "phi" = .array (List.ofFn y) ∧
      S.problem.f x = approxObjective Q a.objectives a.sp.lseEpsilon y ∧
      S.problem.g x = approxConstraints Q a.mergeConstraints a.requests a.sp.lseEpsilon y) ∧
    ∀ y : Fin n → ℝ, ∃ x : List ℝ, x.length = S.x0.length ∧ dofsOf S.template S.phiUnit x "phi" = .array (List.ofFn y) ∧
      S.problem.f x = approxObjective Q a.objectives a.sp.lseEpsilon y ∧
      S.problem.g x = approxConstraints Q a.mergeConstraints a.requests a.sp.lseEpsilon y := by
  subst hn
  have key : ∀ x : Fin S.x0.length → ℝ, dofsOf S.template S.phiUnit (List.ofFn x) "phi" = .array (List.ofFn (T.flat.coef x)) := fun x => by
    rw [T.unit', T.flat.phi x]
    rfl
  constructor
  · intro x hx
    obtain ⟨x, rfl⟩ := exists_ofFn hx
    exact ⟨T.flat.coef x, key x, T.f x, T.g x⟩
  · intro y
    have hb : Function.Bijective T.flat.pos := by
      rw [Fintype.bijective_iff_injective_and_card]
      exact ⟨T.flat.inj, by simp [T.len]⟩
    let e := Equiv.ofBijective _ hb
    let x : Fin S.x0.length → ℝ := fun i => y (e.symm i) / phiUnit
    have hx : T.flat.coef x = y := by
      funext l
      have h1 : e.symm (T.flat.pos l) = l := e.symm_apply_apply l
      simp only [FlatDofs.coef, x, h1, T.unit]
      exact div_mul_cancel₀ _ hu
    refine ⟨List.ofFn x, by simp, ?_, ?_, ?_⟩
    · rw [key, hx]
    · rw [T.f, hx]
    · rw [T.g, hx]

/-- The call with another smoothing parameter. -/
def QuadcoilArgs.withEps (a : QuadcoilArgs) (eps : ℝ) : QuadcoilArgs := { a with sp := ⟨eps⟩ }

/-- **C135.** For a legal call in approx mode with convex objectives that contain `f_K` with a positive weight, and a potential that
satisfies the constraints strictly: let `c` be the solution of the problem of the user. There are `K` and `eps0 > 0` such that with every
smoothing parameter `eps` in `(0, eps0]`, with or without merged constraints, the problem passed to the solver has minimisers. All of
them have the same potential `k`. It satisfies the constraints of the user, its squared distance to `c` is at most `K * eps`, and the value
that the solver sees is between the optimum and the optimum plus `K * eps`. -/
theorem C135_approx_rate_partial {A B : ℕ} (R : Resolved Q A B) (hB : ∀ c, Q.bnormal c ≠ []) {a : QuadcoilArgs} (ha : ApproxCall a)
    (hK : ∃ o ∈ a.objectives, o.1 = "f_K" ∧ 0 < o.2.2)
    (hexo : ∀ o ∈ a.objectives, ExactUnit o.1 o.2.1.size) (hexr : ∀ r ∈ a.requests, ExactUnit r.name r.unit.size)
    {phiUnit : ℝ} (hu : phiUnit ≠ 0) (hinit : ∀ p, a.phiInit = some p → p.length = HasQp.ndofs Q)
    (hlegal : ∃ S, quadcoilSetup (shippedRegistry FieldProblem.fns others) Q a phiUnit = .ok S) {d : Dofs} (hd : Pot Q d)
    (hstrict : StrictlyFeasible (shippedRegistry FieldProblem.fns others) a.requests Q d) :
    ∃ c : List ℝ, (∀ e, UserMinimiser (shippedRegistry FieldProblem.fns others) a.objectives a.requests Q (Pot Q) e ↔ e "phi" = .array c) ∧
      ∃ K ≥ 0, ∃ eps0 > 0, ∀ eps, 0 < eps → eps ≤ eps0 →
        ∃ S, quadcoilSetup (shippedRegistry FieldProblem.fns others) Q (a.withEps eps) phiUnit = .ok S ∧ ∃ k : List ℝ,
          (∃ x, FlatMinimiser S x) ∧
          (∀ x, FlatMinimiser S x → dofsOf S.template S.phiUnit x "phi" = .array k ∧
            userObjective (shippedRegistry FieldProblem.fns others) a.objectives Q (phiOnly (.array c)) ≤ S.problem.f x ∧
            S.problem.f x ≤ userObjective (shippedRegistry FieldProblem.fns others) a.objectives Q (phiOnly (.array c)) + K * eps) ∧
          UserFeasible (shippedRegistry FieldProblem.fns others) a.requests Q (phiOnly (.array k)) ∧
          userObjective (shippedRegistry FieldProblem.fns others) a.objectives Q (phiOnly (.array k)) ≤
            userObjective (shippedRegistry FieldProblem.fns others) a.objectives Q (phiOnly (.array c)) + K * eps ∧
          sqDist c k ≤ K * eps := by
  obtain ⟨S0, hS0⟩ := hlegal
  have hl := setup_legal hS0
  have hside : ∀ r ∈ a.requests, r.type = "<=" ∨ r.type = ">=" := by
    intro r hr
    obtain ⟨h1, h2⟩ := hl r hr
    have := (legal_side (ha.constraints r hr).1 h1).1
    rcases h2 with h | h | h
    · exact .inl h
    · exact .inr h
    · exact absurd h this
  have hrs' : ∀ r ∈ a.requests, r.name ∈ affineNames ++ convexNames ∧
      LegalUse (shippedRegistry FieldProblem.fns others) a.smoothing r.name r.unit r.type :=
    fun r hr => ⟨(ha.constraints r hr).1.lookup, (hl r hr).1⟩
  have hphi : ∀ c : List ℝ, phiOnly (.array c) "phi" = .array c := fun c => by simp [phiOnly]
  have hfeas : UserFeasible (shippedRegistry FieldProblem.fns others) a.requests Q d := by
    intro r hr
    rcases hstrict r hr with ⟨ht, h⟩ | ⟨ht, h⟩
    · rw [ht]
      exact ⟨fun _ x hx => (h x hx).le, by simp, by simp⟩
    · rw [ht]
      exact ⟨by simp, fun _ x hx => (h x hx).le, by simp⟩
  obtain ⟨c, hc, hiff⟩ := C125_exactly_one_solution Q others R ha.objectives hK hrs' ⟨d, hd, hfeas⟩
  refine ⟨c, hiff, ?_⟩
  obtain ⟨cv, hcv, hcf, hcm⟩ := (userMinimiser_iff Q others ha.objectives R.plasma R.eval_nonneg hrs' _).1 ((hiff (phiOnly (.array c))).2 (hphi c))
  rw [hphi] at hcv
  obtain rfl := Val.array.inj hcv
  obtain ⟨z, hdz, hzl⟩ := hd
  obtain ⟨z, rfl⟩ := eq_ofFn z hzl
  have hz : StrictlyFeasible (shippedRegistry FieldProblem.fns others) a.requests Q (phiOnly (.array (List.ofFn z))) := by
    intro r hr
    obtain ⟨q, hq⟩ := approx_registered Q R.plasma R.eval_nonneg (ha.constraints r hr).1
    have := hstrict r hr
    rwa [rawOf_shipped Q others hq hdz, ← rawOf_shipped Q others hq (hphi _)] at this
  obtain ⟨o, ho, hKo, hw⟩ := hK
  obtain ⟨K, hK0, eps0, he0, hall⟩ := approx_rate Q others R hB ha.objectives ha.objective_use hexo ho hKo hw (rs := a.requests)
    (fun r hr => ⟨(ha.constraints r hr).1, (ha.constraints r hr).2, hexr r hr, hside r hr, (hl r hr).1⟩) rfl hcf hcm hz a.mergeConstraints
  refine ⟨K, hK0, eps0, he0, fun eps h0 hle => ?_⟩
  obtain ⟨k, hmin, hkf, hdist, hck, hkU, hkF⟩ := hall eps h0 hle
  obtain ⟨S, hS⟩ : ∃ S, quadcoilSetup (shippedRegistry FieldProblem.fns others) Q (a.withEps eps) phiUnit = .ok S := by
    have := (C131_setup_succeeds_iff_legal others Q a phiUnit).1 ⟨S0, hS0⟩
    exact (C131_setup_succeeds_iff_legal others Q (a.withEps eps) phiUnit).2 this
  obtain ⟨T⟩ := approx_data Q others R.plasma R.eval_nonneg (a := a.withEps eps)
    ⟨ha.mode, ha.objectives, ha.objective_use, ha.constraints⟩ hS
  have hn : ((a.withEps eps).phiInit.getD (List.replicate (HasQp.ndofs Q) 0)).length = (cpNdofs Q.cp.stellsym Q.cp.mpol Q.cp.ntor).1 := by
    show (a.phiInit.getD (List.replicate (HasQp.ndofs Q) 0)).length = HasQp.ndofs Q
    cases hpi : a.phiInit with
    | none => simp
    | some p => exact hinit p hpi
  obtain ⟨back, forth⟩ := T.flat_iff hu hn
  have hobj : (a.withEps eps).objectives = a.objectives := rfl
  have hreq : (a.withEps eps).requests = a.requests := rfl
  have hmer : (a.withEps eps).mergeConstraints = a.mergeConstraints := rfl
  have heps : (a.withEps eps).sp.lseEpsilon = eps := rfl
  rw [hobj, hreq, hmer, heps] at back forth
  have flatMin : ∀ (x : List ℝ) (y : Fin (cpNdofs Q.cp.stellsym Q.cp.mpol Q.cp.ntor).1 → ℝ), x.length = S.x0.length →
      S.problem.f x = approxObjective Q a.objectives eps y → S.problem.g x = approxConstraints Q a.mergeConstraints a.requests eps y →
      (FlatMinimiser S x ↔ y = k) := by
    intro x y hx hf hg
    rw [← hmin]
    constructor
    · rintro ⟨⟨-, h2, -⟩, h4⟩
      refine ⟨hg ▸ h2, fun v hv => ?_⟩
      obtain ⟨xv, h5, -, h6, h7⟩ := forth v
      rw [← hf, ← h6]
      exact h4 xv ⟨h5, h7 ▸ hv, by rw [T.h]; simp [AllZero]⟩
    · rintro ⟨h1, h2⟩
      refine ⟨⟨hx, hg ▸ h1, by rw [T.h]; simp [AllZero]⟩, fun v hv => ?_⟩
      obtain ⟨yv, -, h6, h7⟩ := back v hv.1
      rw [hf, h6]
      exact h2 yv (h7 ▸ hv.2.1)
  refine ⟨S, hS, List.ofFn k, ?_, fun x hx => ?_, hkf, ?_, ?_⟩
  · obtain ⟨x, h1, -, h3, h4⟩ := forth k
    exact ⟨x, (flatMin x k h1 h3 h4).2 rfl⟩
  · obtain ⟨y, h1, h2, h3⟩ := back x hx.1.1
    obtain rfl := (flatMin x y hx.1.1 h2 h3).1 hx
    refine ⟨h1, ?_, ?_⟩
    · rw [h2]
      exact hck.trans hkU
    · rw [h2]
      exact hkF
  · exact hkU.trans hkF
  · rw [sqDist_ofFn]
    exact hdist

end

end Verif
