import Verif.Model.Api
import Verif.Props.Modes
import Verif.Props.Surface

/-!
# Property C90: the automatic unit of the potential
-/

namespace Verif

theorem zipWith_mul_set (row : List ℝ) : ∀ (dofs : List ℝ) (k : ℕ) (v e : ℝ), row[k]? = some e → k < dofs.length →
    (List.zipWith (· * ·) row (dofs.set k v)).sum = (List.zipWith (· * ·) row dofs).sum + (v - dofs.getD k 0) * e := by
  induction row with
  | nil => intro dofs k v e h; simp at h
  | cons r row ih =>
    intro dofs k v e h hk
    cases dofs with
    | nil => simp at hk
    | cons d dofs =>
      cases k with
      | zero =>
        simp only [List.getElem?_cons_zero, Option.some.injEq] at h
        subst h
        simp
        ring
      | succ k =>
        simp only [List.getElem?_cons_succ] at h
        simp only [List.length_cons, Nat.add_lt_add_iff_right] at hk
        simp only [List.set_cons_succ, List.zipWith_cons_cons, List.sum_cons, List.getD_cons_succ, ih dofs k v e h hk]
        ring

/-- **C90.** The coefficient used as minor radius is the one of `cos(theta)` in `R`: replacing it by `v` changes `R` by
`(v - minor radius) cos(2 pi theta)`. -/
theorem C90_minor_radius_partial (S : SurfaceShape) (hm : 1 ≤ S.mpol) (dofs : List ℝ)
    (hlen : dofs.length = (S.rOperatorPadded 0 0 0 0).length) (v phi theta : ℝ) :
    S.rDash (dofs.set (S.ntor * 2 + 1) v) 0 0 phi theta =
      S.rDash dofs 0 0 phi theta + (v - minorRadius S.ntor dofs) * Real.cos (2 * Real.pi * theta) := by
  have hidx := C37_minor_radius_index S.mpol S.ntor hm
  have hcm : (S.cmn 0 0 phi theta)[2 * S.ntor + 1]? = some (Real.cos (2 * Real.pi * theta)) := by
    unfold SurfaceShape.cmn
    rw [modePairs, List.getElem?_zip_eq_some] at hidx
    rw [List.getElem?_zipWith, hidx.1, hidx.2]
    simp [cEntry, derivFactor, modeAngle]
    ring_nf
  have hlt : 2 * S.ntor + 1 < (S.cmn 0 0 phi theta).length := (List.getElem?_eq_some_iff.1 hcm).1
  have hrow : (S.rOperatorPadded 0 0 phi theta)[2 * S.ntor + 1]? = some (Real.cos (2 * Real.pi * theta)) := by
    unfold SurfaceShape.rOperatorPadded SurfaceShape.rOperator
    split
    · rw [List.getElem?_append_left hlt, hcm]
    · rw [List.getElem?_append_left (by rw [List.length_append]; omega), List.getElem?_append_left hlt, hcm]
  have hk : 2 * S.ntor + 1 < dofs.length := by
    rw [hlen, (C37_dof_count S 0 0 0 0).2, ← (C37_dof_count S 0 0 phi theta).2]
    exact (List.getElem?_eq_some_iff.1 hrow).1
  have h := zipWith_mul_set _ dofs _ v _ hrow hk
  have hmr : minorRadius S.ntor dofs = dofs.getD (2 * S.ntor + 1) 0 := by
    unfold minorRadius
    rw [mul_comm S.ntor]
    simp only [List.getD_eq_getElem?_getD, List.getElem?_eq_getElem hk, Option.getD_some]
  rw [hmr, mul_comm S.ntor]
  exact h

/-- **C90.** The unit is never negative, and it is zero exactly if the normal field vanishes at every point, or the distance is
zero, or (if a winding surface is given) the two minor radii agree. -/
theorem C90_zero_iff_partial (bn : List ℝ) (hbn : bn ≠ []) (dist : Option ℝ) (np : ℕ) (pd : List ℝ) (nw : ℕ) (wd : List ℝ) :
    0 ≤ phiUnitAuto bn dist np pd nw wd ∧
    (phiUnitAuto bn dist np pd nw wd = 0 ↔
      (∀ b ∈ bn, b = 0) ∨ dist = some 0 ∨ (dist = none ∧ minorRadius np pd = minorRadius nw wd)) := by
  have hlen : (0 : ℝ) < bn.length := by
    exact_mod_cast List.length_pos_iff.2 hbn
  have hsum : 0 ≤ (bn.map fun b => |b|).sum := by
    apply List.sum_nonneg
    simp only [List.mem_map]
    rintro _ ⟨b, -, rfl⟩
    exact abs_nonneg b
  have hz : ∀ l : List ℝ, (l.map fun b => |b|).sum = 0 ↔ ∀ b ∈ l, b = 0 := by
    intro l
    induction l with
    | nil => simp
    | cons a l ih =>
      have h1 : 0 ≤ (l.map fun b => |b|).sum := by
        apply List.sum_nonneg
        simp only [List.mem_map]
        rintro _ ⟨b, -, rfl⟩
        exact abs_nonneg b
      simp only [List.map_cons, List.sum_cons, List.mem_cons, forall_eq_or_imp]
      rw [← ih, ← abs_eq_zero (a := a)]
      have := abs_nonneg a
      constructor
      · intro h
        constructor <;> linarith
      · rintro ⟨h2, h3⟩
        linarith
  have he : (bn.map fun b => |b|).sum / bn.length = 0 ↔ ∀ b ∈ bn, b = 0 := by
    rw [div_eq_zero_iff, hz]
    simp [hlen.ne']
  have hnn : 0 ≤ (bn.map fun b => |b|).sum / bn.length := div_nonneg hsum hlen.le
  cases dist with
  | some d =>
    simp only [phiUnitAuto]
    refine ⟨by positivity, ?_⟩
    rw [mul_eq_zero, mul_eq_zero, he, abs_eq_zero]
    have h7 : (1e7 : ℝ) ≠ 0 := by norm_num
    simp [h7]
  | none =>
    simp only [phiUnitAuto]
    refine ⟨by positivity, ?_⟩
    rw [mul_eq_zero, mul_eq_zero, he, abs_eq_zero, sub_eq_zero]
    have h7 : (1e7 : ℝ) ≠ 0 := by norm_num
    simp [h7]

/-- **C90 is false of the code.** A circular plasma surface (major radius 3, minor radius 1) inside a winding surface with the
same horizontal and twice the vertical half axis: the unit of the potential is 0 for every normal field. -/
theorem C90_unit_zero_violated_partial (bn : List ℝ) : phiUnitAuto bn none 0 [3, 1, 1] 0 [3, 1, 2] = 0 := by
  simp [phiUnitAuto, minorRadius]

/-- Without plasma field and without net currents the normal field is zero at the start and so is the unit. -/
theorem C90_no_field_violated_partial (d : ℝ) (n np nw : ℕ) (pd wd : List ℝ) :
    phiUnitAuto (List.replicate n 0) (some d) np pd nw wd = 0 := by
  simp [phiUnitAuto]

/-- A positive unit: the shapes are those of a circular plasma and a circular winding surface 0.5 away. -/
example : phiUnitAuto [1, -1] none 0 [3, 1, 1] 0 [3, 1.5, 1.5] = 5e6 := by
  have h : minorRadius 0 [3, 1, 1] = 1 ∧ minorRadius 0 [3, 1.5, 1.5] = 1.5 := by
    constructor <;> simp [minorRadius]
  simp only [phiUnitAuto, h.1, h.2]
  norm_num

/-- The length hypothesis of `C90_minor_radius_partial` holds for a circular torus. -/
example : ([3, 1, 1] : List ℝ).length = ((⟨1, true, 1, 0⟩ : SurfaceShape).rOperatorPadded 0 0 0 0).length := by
  rw [(C37_dof_count _ 0 0 0 0).2]
  rfl

end Verif
