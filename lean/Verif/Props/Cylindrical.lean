import Verif.Spec.Rotation
import Mathlib.Tactic.FieldSimp
import Mathlib.Tactic.NormNum.RealSqrt

/-!
# Properties C32, C62: cylindrical components of vectors
-/

namespace Verif

theorem normSq_rotZ (t : ℝ) (v : V3) : (rotZ t v).normSq = v.normSq := by
  have := Real.sin_sq_add_cos_sq t
  simp only [V3.normSq, rotZ]
  linear_combination (v.x ^ 2 + v.y ^ 2) * this

/-- **C32.** Rotating position and vector together about the z axis does not change the reported components. -/
theorem C32_rotation_invariant (t : ℝ) (gamma v : V3) :
    projectCylindrical (rotZ t gamma) (rotZ t v) = projectCylindrical gamma v := by
  have h := Real.sin_sq_add_cos_sq t
  have hn : (rotZ t gamma).norm = gamma.norm := by rw [V3.norm, V3.norm, normSq_rotZ]
  simp only [projectCylindrical, projectCoord, rUnit, phiUnit, zUnit, V3.dot, V3.cross, hn]
  simp only [rotZ]
  ext
  · simp only
    linear_combination (gamma.x * v.x + gamma.y * v.y) / gamma.norm * h
  · simp only
    linear_combination (gamma.x * v.y - gamma.y * v.x) / gamma.norm * h
  · simp

/-- On the midplane (`z = 0`) at distance `R > 0` from the axis and toroidal angle `t`, the reported components are the
cylindrical components of the vector, whose squares sum to the squared length. -/
theorem C62_midplane_components_partial (R t : ℝ) (hR : 0 < R) (v : V3) :
    projectCylindrical ⟨R * Real.cos t, R * Real.sin t, 0⟩ v = cylComponents t v ∧
      (projectCylindrical ⟨R * Real.cos t, R * Real.sin t, 0⟩ v).normSq = v.normSq := by
  have h := Real.sin_sq_add_cos_sq t
  have hn : V3.norm ⟨R * Real.cos t, R * Real.sin t, 0⟩ = R := by
    rw [V3.norm, V3.normSq]
    rw [show (R * Real.cos t) ^ 2 + (R * Real.sin t) ^ 2 + 0 ^ 2 = R ^ 2 by linear_combination R ^ 2 * h]
    exact Real.sqrt_sq hR.le
  have key : projectCylindrical ⟨R * Real.cos t, R * Real.sin t, 0⟩ v = cylComponents t v := by
    simp only [projectCylindrical, projectCoord, rUnit, phiUnit, zUnit, V3.dot, V3.cross, hn, cylComponents]
    ext <;> simp only <;> field_simp <;> ring
  refine ⟨key, ?_⟩
  rw [key]
  simp only [cylComponents, V3.normSq]
  linear_combination (v.x ^ 2 + v.y ^ 2) * h

/-- Off the midplane the radial and toroidal components are too small by the factor `R / sqrt (R^2 + z^2)`. -/
theorem C62_offplane_components_partial (R t z : ℝ) (hR : 0 < R) (v : V3) :
    projectCylindrical ⟨R * Real.cos t, R * Real.sin t, z⟩ v =
      ⟨R / Real.sqrt (R ^ 2 + z ^ 2) * (cylComponents t v).x, R / Real.sqrt (R ^ 2 + z ^ 2) * (cylComponents t v).y,
        v.z⟩ := by
  have h := Real.sin_sq_add_cos_sq t
  have hn : V3.norm ⟨R * Real.cos t, R * Real.sin t, z⟩ = Real.sqrt (R ^ 2 + z ^ 2) := by
    rw [V3.norm, V3.normSq]
    congr 1
    linear_combination R ^ 2 * h
  have hp : 0 < Real.sqrt (R ^ 2 + z ^ 2) := Real.sqrt_pos.2 (by positivity)
  simp only [projectCylindrical, projectCoord, rUnit, phiUnit, zUnit, V3.dot, V3.cross, hn, cylComponents]
  ext <;> simp only <;> field_simp <;> ring

/-- **C62, false of the code.** At every position off the midplane some vector's length is not preserved: the radial
vector. -/
theorem C62_length_not_preserved_violated_partial (R t z : ℝ) (hR : 0 < R) (hz : z ≠ 0) :
    (projectCylindrical ⟨R * Real.cos t, R * Real.sin t, z⟩ ⟨Real.cos t, Real.sin t, 0⟩).normSq <
      V3.normSq ⟨Real.cos t, Real.sin t, 0⟩ := by
  have h := Real.sin_sq_add_cos_sq t
  rw [C62_offplane_components_partial R t z hR]
  have hz2 : 0 < z ^ 2 := by positivity
  have hR2 : 0 < R ^ 2 := by positivity
  have h1 : (cylComponents t ⟨Real.cos t, Real.sin t, 0⟩).x = 1 := by
    simp only [cylComponents]
    linear_combination h
  have h2 : (cylComponents t ⟨Real.cos t, Real.sin t, 0⟩).y = 0 := by
    simp only [cylComponents]
    ring
  simp only [h1, h2, V3.normSq]
  rw [show (Real.cos t) ^ 2 + (Real.sin t) ^ 2 + 0 ^ 2 = 1 by linear_combination h]
  simp only [mul_one, mul_zero, ne_eq, OfNat.ofNat_ne_zero, not_false_eq_true, zero_pow, add_zero, div_pow]
  rw [Real.sq_sqrt (by positivity), div_lt_one (by positivity)]
  linarith

/-- A concrete position: `(3, 0, 4)`, where the radial unit vector has reported length 3/5. -/
example : (projectCylindrical ⟨3, 0, 4⟩ ⟨1, 0, 0⟩).normSq = 9 / 25 := by
  have : V3.norm ⟨3, 0, 4⟩ = 5 := by
    rw [V3.norm, V3.normSq]
    norm_num
  simp only [projectCylindrical, projectCoord, rUnit, phiUnit, zUnit, V3.dot, V3.cross, this, V3.normSq]
  norm_num

end Verif
