import Verif.Props.Slack
import Mathlib.Topology.Algebra.Monoid
import Mathlib.Topology.Order.LeftRightNhds

/-!
# Property C21: the limit of the smoothed quantities as the smoothing parameter tends to 0
-/

namespace Verif

set_option linter.unusedSectionVars false

open Filter Topology

variable {P : Type} [HasQp P]

theorem addQuantity_approx {reg : Registry P} {name uc : String} {u : ℝ} {sp : SmoothingParams} {a : Added P}
    {q : Quantity P} (hq : reg name = some (.quantity q))
    (h : addQuantity reg name (.scalar u) uc (some "approx") sp = .ok a) :
    a = addedOf q (some "approx") sp fun _ => Val.scalar |u| := by
  obtain ⟨q', u', hq', -, -, hu, rfl⟩ := addQuantity_ok.1 h
  rw [hq] at hq'
  cases hq'
  simp only [unitCallable, Except.ok.injEq] at hu
  rw [← hu]

theorem jmax_map_scale {xs : List ℝ} {m w : ℝ} (hw : 0 < w) (hm : ∃ x ∈ xs, |x| = m) (hmax : ∀ x ∈ xs, |x| ≤ m) :
    jmax ((xs.map fun x => x / w).map fun x => |x|) = m / w := by
  obtain ⟨x0, hx0, rfl⟩ := hm
  apply jmax_eq
  · simp only [List.map_map, List.mem_map, Function.comp_apply]
    exact ⟨x0, hx0, by rw [abs_div, abs_of_pos hw]⟩
  · intro y hy
    simp only [List.map_map, List.mem_map, Function.comp_apply] at hy
    obtain ⟨x, hx, rfl⟩ := hy
    rw [abs_div, abs_of_pos hw]
    exact div_le_div_of_nonneg_right (hmax x hx) hw.le

/-- The approx value of a max-norm quantity as a function of the smoothing parameter. -/
theorem approx_linf_value (reg : Registry P) (name uc aux : String) (func : P → Dofs → Val) (pd square : Bool)
    (hreg : reg name = some (.quantity (Quantity.generateLinf func aux pd square))) (u : ℝ)
    (sp : SmoothingParams) (a : Added P)
    (h : addQuantity reg name (.scalar u) uc (some "approx") sp = .ok a) (qp : P) (dofs : Dofs) :
    a.val qp dofs = .scalar (if square then
      linfLse ((func qp dofs).entries.map fun x => x / |u|) sp.lseEpsilon ^ 2
      else linfLse ((func qp dofs).entries.map fun x => x / |u|) sp.lseEpsilon) := by
  rw [addQuantity_approx hreg h]
  cases square <;> simp [addedOf, Quantity.generateLinf, map_map2_scalar]

/-- **C21, true part.** The smoothed max-norm quantity converges to (max |field|) / |unit|. `m` is the maximum. -/
theorem C21_approx_max_limit_partial (reg : Registry P) (name uc aux : String) (func : P → Dofs → Val) (pd : Bool)
    (hreg : reg name = some (.quantity (Quantity.generateLinf func aux pd false))) (u : ℝ) (hu : u ≠ 0)
    (a : ℝ → Added P) (h : ∀ eps, addQuantity reg name (.scalar u) uc (some "approx") ⟨eps⟩ = .ok (a eps))
    (qp : P) (dofs : Dofs) (m : ℝ) (hm : ∃ x ∈ (func qp dofs).entries, |x| = m)
    (hmax : ∀ x ∈ (func qp dofs).entries, |x| ≤ m) :
    ∃ v : ℝ → ℝ, (∀ eps, (a eps).val qp dofs = .scalar (v eps)) ∧ Tendsto v (𝓝[>] 0) (𝓝 (m / |u|)) := by
  have hu' : 0 < |u| := abs_pos.2 hu
  refine ⟨_, fun eps => approx_linf_value reg name uc aux func pd false hreg u ⟨eps⟩ (a eps) (h eps) qp dofs, ?_⟩
  rw [← jmax_map_scale hu' hm hmax]
  obtain ⟨x0, hx0, -⟩ := hm
  exact tendsto_linfLse (by simpa using List.ne_nil_of_mem hx0)

/-- **C21 fails for squared quantities.** The smoothed squared max-norm quantity converges to `(max |field| / unit)^2`
instead of `max field^2 / unit`. -/
theorem C21_approx_square_limit_partial (reg : Registry P) (name uc aux : String) (func : P → Dofs → Val) (pd : Bool)
    (hreg : reg name = some (.quantity (Quantity.generateLinf func aux pd true))) (u : ℝ) (hu : u ≠ 0)
    (a : ℝ → Added P) (h : ∀ eps, addQuantity reg name (.scalar u) uc (some "approx") ⟨eps⟩ = .ok (a eps))
    (qp : P) (dofs : Dofs) (m : ℝ) (hm : ∃ x ∈ (func qp dofs).entries, |x| = m)
    (hmax : ∀ x ∈ (func qp dofs).entries, |x| ≤ m) :
    ∃ v : ℝ → ℝ, (∀ eps, (a eps).val qp dofs = .scalar (v eps)) ∧
      Tendsto v (𝓝[>] 0) (𝓝 (m ^ 2 / |u| ^ 2)) ∧
      (Tendsto v (𝓝[>] 0) (𝓝 (m ^ 2 / |u|)) ↔ m = 0 ∨ |u| = 1) := by
  have hu' : 0 < |u| := abs_pos.2 hu
  have hlim : Tendsto (fun eps => linfLse ((func qp dofs).entries.map fun x => x / |u|) eps ^ 2) (𝓝[>] 0)
      (𝓝 (m ^ 2 / |u| ^ 2)) := by
    rw [← div_pow, ← jmax_map_scale hu' hm hmax]
    obtain ⟨x0, hx0, -⟩ := hm
    exact (tendsto_linfLse (by simpa using List.ne_nil_of_mem hx0)).pow 2
  refine ⟨_, fun eps => approx_linf_value reg name uc aux func pd true hreg u ⟨eps⟩ (a eps) (h eps) qp dofs, hlim, ?_⟩
  constructor
  · intro H
    have heq : m ^ 2 / |u| ^ 2 = m ^ 2 / |u| := tendsto_nhds_unique hlim H
    by_cases hm0 : m = 0
    · exact Or.inl hm0
    · right
      have hm2 : m ^ 2 ≠ 0 := pow_ne_zero 2 hm0
      field_simp at heq
      linarith
  · intro H
    have heq : m ^ 2 / |u| = m ^ 2 / |u| ^ 2 := by
      rcases H with rfl | h1
      · simp
      · simp [h1]
    rw [heq]
    exact hlim

/-- **C21 fails for fourth-power quantities.** The limit is `max field^4 / unit^4` instead of `max field^4 / unit`. -/
theorem C21_approx_fourth_limit_partial (reg : Registry P) (name uc aux : String) (func : P → Dofs → Val)
    (hreg : reg name = some (.quantity (Quantity.generateLinf4 func aux))) (u : ℝ) (hu : u ≠ 0)
    (a : ℝ → Added P) (h : ∀ eps, addQuantity reg name (.scalar u) uc (some "approx") ⟨eps⟩ = .ok (a eps))
    (qp : P) (dofs : Dofs) (m : ℝ) (hm : ∃ x ∈ (func qp dofs).entries, |x| = m)
    (hmax : ∀ x ∈ (func qp dofs).entries, |x| ≤ m) :
    ∃ v : ℝ → ℝ, (∀ eps, (a eps).val qp dofs = .scalar (v eps)) ∧
      Tendsto v (𝓝[>] 0) (𝓝 (m ^ 4 / |u| ^ 4)) ∧
      (Tendsto v (𝓝[>] 0) (𝓝 (m ^ 4 / |u|)) ↔ m = 0 ∨ |u| = 1) := by
  have hu' : 0 < |u| := abs_pos.2 hu
  have hval : ∀ eps, (a eps).val qp dofs =
      .scalar (linfLse (((func qp dofs).entries.map fun x => x ^ 2).map fun x => x / |u| ^ 2) eps ^ 2) := by
    intro eps
    rw [addQuantity_approx hreg (h eps)]
    have e2 : ∀ x, Val.map (· ^ 2) (Val.scalar x) = Val.scalar (x ^ 2) := fun _ => rfl
    simp [addedOf, Quantity.generateLinf4, e2, map_map2_scalar, entries_map]
  have hm2 : ∃ x ∈ (func qp dofs).entries.map (fun x => x ^ 2), |x| = m ^ 2 := by
    obtain ⟨x0, hx0, rfl⟩ := hm
    exact ⟨x0 ^ 2, List.mem_map.2 ⟨x0, hx0, rfl⟩, by rw [abs_pow]⟩
  have hmax2 : ∀ x ∈ (func qp dofs).entries.map (fun x => x ^ 2), |x| ≤ m ^ 2 := by
    intro y hy
    obtain ⟨x, hx, rfl⟩ := List.mem_map.1 hy
    rw [abs_pow]
    exact pow_le_pow_left₀ (abs_nonneg _) (hmax x hx) 2
  have hlim : Tendsto (fun eps => linfLse (((func qp dofs).entries.map fun x => x ^ 2).map fun x => x / |u| ^ 2) eps ^ 2)
      (𝓝[>] 0) (𝓝 (m ^ 4 / |u| ^ 4)) := by
    have : m ^ 4 / |u| ^ 4 = (m ^ 2 / |u| ^ 2) ^ 2 := by rw [div_pow, ← pow_mul, ← pow_mul]
    rw [this, ← jmax_map_scale (pow_pos hu' 2) hm2 hmax2]
    obtain ⟨x0, hx0, -⟩ := hm
    exact (tendsto_linfLse (by simpa using List.ne_nil_of_mem hx0)).pow 2
  refine ⟨_, hval, hlim, ?_⟩
  constructor
  · intro H
    have heq : m ^ 4 / |u| ^ 4 = m ^ 4 / |u| := tendsto_nhds_unique hlim H
    by_cases hm0 : m = 0
    · exact Or.inl hm0
    · right
      have hm4 : m ^ 4 ≠ 0 := pow_ne_zero 4 hm0
      have h3 : |u| ^ 4 = |u| := by
        rw [div_eq_div_iff (by positivity) hu'.ne'] at heq
        exact (mul_left_cancel₀ hm4 heq).symm
      have h4 : |u| ^ 3 = 1 := by
        have : |u| * |u| ^ 3 = |u| * 1 := by rw [mul_one, ← pow_succ']; exact h3
        exact mul_left_cancel₀ hu'.ne' this
      exact (pow_eq_one_iff_of_nonneg hu'.le (by norm_num)).1 h4
  · intro H
    have heq : m ^ 4 / |u| = m ^ 4 / |u| ^ 4 := by
      rcases H with rfl | h1
      · simp
      · simp [h1]
    rw [heq]
    exact hlim

/-- **C21 fails, witness.** Squared quantity, unit 4, constant field 2: the quantity over the unit is 1, the smoothed value
tends to 1/4. -/
theorem C21_violated_partial : ∃ (a : ℝ → Added ToyQp) (v : ℝ → ℝ),
    (∀ eps, addQuantity toyRegistry "f_max_Phi2" (.scalar 4) "f" (some "approx") ⟨eps⟩ = .ok (a eps)) ∧
    (∀ eps, (a eps).val ⟨0⟩ (phiOnly (.array [2, 2])) = .scalar (v eps)) ∧
    Tendsto v (𝓝[>] 0) (𝓝 (1 / 4)) ∧ (2 : ℝ) ^ 2 / 4 = 1 := by
  obtain ⟨v, hv, hlim, -⟩ := C21_approx_square_limit_partial toyRegistry "f_max_Phi2" "f" "scaled_max_Phi_f_max_Phi2"
    toyPhi false rfl 4 (by norm_num) (fun eps => addedOf (Quantity.generateLinf toyPhi "scaled_max_Phi_f_max_Phi2" false true)
      (some "approx") ⟨eps⟩ fun _ => Val.scalar |4|) (fun eps => addQuantity_ok.2 ⟨_, _, rfl, by simp [knownSmoothing],
        by simp [Quantity.generateLinf], rfl, rfl⟩) ⟨0⟩ (phiOnly (.array [2, 2])) 2
    ⟨2, by simp [toyPhi, phiOnly, Val.entries], by norm_num⟩ (by
      intro x hx
      simp [toyPhi, phiOnly, Val.entries] at hx
      rw [hx]; norm_num)
  refine ⟨_, v, fun eps => addQuantity_ok.2 ⟨_, _, rfl, by simp [knownSmoothing],
        by simp [Quantity.generateLinf], rfl, rfl⟩, hv, ?_, by norm_num⟩
  have : (2 : ℝ) ^ 2 / |4| ^ 2 = 1 / 4 := by norm_num
  rwa [this] at hlim

theorem tendsto_absLse (x : ℝ) : Tendsto (fun eps => absLse x eps) (𝓝[>] 0) (𝓝 |x|) := by
  have hup : Tendsto (fun eps : ℝ => |x| + eps * Real.log 2) (𝓝[>] 0) (𝓝 |x|) := by
    have : Tendsto (fun eps : ℝ => |x| + eps * Real.log 2) (𝓝 0) (𝓝 (|x| + 0 * Real.log 2)) :=
      tendsto_const_nhds.add (tendsto_id.mul tendsto_const_nhds)
    simp only [zero_mul, add_zero] at this
    exact this.mono_left nhdsWithin_le_nhds
  refine tendsto_of_tendsto_of_tendsto_of_le_of_le' tendsto_const_nhds hup ?_ ?_
  · filter_upwards [self_mem_nhdsWithin] with eps he
    exact le_absLse he
  · filter_upwards [self_mem_nhdsWithin] with eps he
    exact absLse_le he

/-- The smoothed L1 quantity converges to the area-weighted L1 norm over the unit (part of C21 that holds). -/
theorem C21_approx_l1_limit_partial (reg : Registry P) (name uc aux : String) (func : P → Dofs → Val) (pd : Bool)
    (hreg : reg name = some (.quantity (Quantity.generateL1 func aux pd))) (u : ℝ)
    (a : ℝ → Added P) (h : ∀ eps, addQuantity reg name (.scalar u) uc (some "approx") ⟨eps⟩ = .ok (a eps))
    (qp : P) (dofs : Dofs) :
    ∃ v : ℝ → ℝ, (∀ eps, (a eps).val qp dofs = .scalar (v eps)) ∧
      Tendsto v (𝓝[>] 0) (𝓝 (l1Norm qp (func qp dofs).entries / |u|)) := by
  refine ⟨fun eps => Quantity.l1Integral qp ((func qp dofs).entries.map fun x => absLse x eps) / |u|, ?_, ?_⟩
  · intro eps
    rw [addQuantity_approx hreg (h eps)]
    simp [addedOf, Quantity.generateL1, Val.map2]
  · refine Tendsto.div_const ?_ _
    unfold Quantity.l1Integral l1Norm
    refine Tendsto.mul_const _ ?_
    generalize (func qp dofs).entries = xs
    generalize HasQp.da qp = da
    induction da generalizing xs with
    | nil => simp
    | cons d da ih =>
      cases xs with
      | nil => simp
      | cons x xs =>
        simp only [List.map_cons, List.zipWith_cons_cons, List.sum_cons]
        exact ((tendsto_absLse x).const_mul d).add (ih xs)

end Verif
