import Verif.Model.V3
import Mathlib.Analysis.SpecialFunctions.Trigonometric.Basic

/-! # Rotations about the z axis and the cylindrical frame, stated independently of the code -/

namespace Verif

/-- The rotation by the angle `t` about the z axis. -/
noncomputable def rotZ (t : ℝ) (v : V3) : V3 :=
  ⟨Real.cos t * v.x - Real.sin t * v.y, Real.sin t * v.x + Real.cos t * v.y, v.z⟩

/-- The cylindrical components `(v_R, v_phi, v_z)` of `v` at toroidal angle `t`. -/
noncomputable def cylComponents (t : ℝ) (v : V3) : V3 :=
  ⟨Real.cos t * v.x + Real.sin t * v.y, -Real.sin t * v.x + Real.cos t * v.y, v.z⟩

end Verif
