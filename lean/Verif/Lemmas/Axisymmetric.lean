import Verif.Spec.Axisymmetric
import Verif.Lemmas.ForcePeriod
import Verif.Lemmas.Origin
import Verif.Lemmas.MirrorImage
import Verif.Props.Field

/-!
# Reflections of axisymmetric surfaces
-/

namespace Verif

open Real

/-- Reflection at the vertical plane through the axis at half the angle `a`. -/
noncomputable def planeFlip (a : ℝ) (v : V3) : V3 := ⟨cos a * v.x + sin a * v.y, sin a * v.x - cos a * v.y, v.z⟩

theorem planeFlip_cross (a : ℝ) (u v : V3) : V3.cross (planeFlip a u) (planeFlip a v) = -planeFlip a (V3.cross u v) := by
  have h := sin_sq_add_cos_sq a
  ext
  · simp only [V3.cross, planeFlip, V3.neg_x]
    ring
  · simp only [V3.cross, planeFlip, V3.neg_y]
    ring
  · simp only [V3.cross, planeFlip, V3.neg_z]
    linear_combination (-(u.x * v.y - u.y * v.x)) * h

theorem planeFlip_dot (a : ℝ) (u v : V3) : V3.dot (planeFlip a u) (planeFlip a v) = V3.dot u v := by
  have h := sin_sq_add_cos_sq a
  simp only [V3.dot, planeFlip]
  linear_combination (u.x * v.x + u.y * v.y) * h

theorem planeFlip_normSq (a : ℝ) (v : V3) : (planeFlip a v).normSq = v.normSq := by
  have h := sin_sq_add_cos_sq a
  simp only [V3.normSq, planeFlip]
  linear_combination (v.x ^ 2 + v.y ^ 2) * h

theorem planeFlip_norm (a : ℝ) (v : V3) : (planeFlip a v).norm = v.norm := by rw [V3.norm, planeFlip_normSq, V3.norm]

theorem planeFlip_sub (a : ℝ) (u v : V3) : planeFlip a (u - v) = planeFlip a u - planeFlip a v := by
  ext <;> simp [planeFlip] <;> ring

theorem planeFlip_smul (a s : ℝ) (v : V3) : planeFlip a (s • v) = s • planeFlip a v := by
  ext <;> simp [planeFlip] <;> ring

theorem planeFlip_neg (a : ℝ) (v : V3) : planeFlip a (-v) = -planeFlip a v := by
  ext <;> simp [planeFlip] <;> ring

theorem planeFlip_planeFlip (a : ℝ) (v : V3) : planeFlip a (planeFlip a v) = v := by
  have h := sin_sq_add_cos_sq a
  ext
  · simp only [planeFlip]
    linear_combination v.x * h
  · simp only [planeFlip]
    linear_combination v.y * h
  · rfl

/-- Vectors in the plane stay. -/
theorem planeFlip_plane (p a b : ℝ) : planeFlip (2 * π * (2 * p)) (rotZ (2 * π * p) ⟨a, 0, b⟩) = rotZ (2 * π * p) ⟨a, 0, b⟩ := by
  have h := sin_sq_add_cos_sq (2 * π * p)
  ext
  · simp only [planeFlip, rotZ, show 2 * π * (2 * p) = 2 * (2 * π * p) by ring, cos_two_mul, sin_two_mul]
    linear_combination (2 * a * cos (2 * π * p)) * h
  · simp only [planeFlip, rotZ, show 2 * π * (2 * p) = 2 * (2 * π * p) by ring, cos_two_mul, sin_two_mul]
    ring
  · rfl

theorem HasDerivV3.planeFlip {f : ℝ → V3} {v : V3} {t : ℝ} (a : ℝ) (h : HasDerivV3 f v t) :
    HasDerivV3 (fun u => planeFlip a (f u)) (planeFlip a v) t :=
  ⟨(h.1.const_mul _).add (h.2.1.const_mul _), (h.1.const_mul _).sub (h.2.1.const_mul _), h.2.2⟩

theorem HasDerivV3.reflect {f : ℝ → V3} {v : V3} {t s : ℝ} (h : HasDerivV3 f v (s - t)) : HasDerivV3 (fun u => f (s - u)) (-v) t := by
  have e : HasDerivAt (fun u : ℝ => s - u) (-1) t := (hasDerivAt_id t).const_sub s
  refine ⟨(h.1.comp t e).congr_deriv ?_, (h.2.1.comp t e).congr_deriv ?_, (h.2.2.comp t e).congr_deriv ?_⟩ <;> simp

namespace Axisymmetric

variable {S : SurfaceShape} {dofs : List ℝ} (h : Axisymmetric S dofs)
include h

theorem turn (p s t : ℝ) : S.gamma dofs (p + s) t = rotZ (2 * π * s) (S.gamma dofs p t) := by
  rw [h, h p]
  ext
  · simp only [rotZ, mul_add, cos_add, sin_add]
    ring
  · simp only [rotZ, mul_add, cos_add, sin_add]
    ring
  · rfl

theorem turn_dg1 (p s t : ℝ) : S.gammadash dofs 1 0 (p + s) t = rotZ (2 * π * s) (S.gammadash dofs 1 0 p t) := by
  have h1 : HasDerivV3 (fun p => S.gamma dofs (p + s) t) (S.gammadash dofs 1 0 (p + s) t) p :=
    HasDerivV3.shift (C38_gammadash_phi S dofs 0 0 (p + s) t)
  have h2 : HasDerivV3 (fun p => S.gamma dofs p t) (S.gammadash dofs 1 0 p t) p := C38_gammadash_phi S dofs 0 0 p t
  exact HasDerivV3.uniq h1 (HasDerivV3.congr' (HasDerivV3.rotZ (2 * π * s) h2) fun u => h.turn u s t)

theorem turn_dg2 (p s t : ℝ) : S.gammadash dofs 0 1 (p + s) t = rotZ (2 * π * s) (S.gammadash dofs 0 1 p t) := by
  have h1 : HasDerivV3 (fun t => S.gamma dofs (p + s) t) (S.gammadash dofs 0 1 (p + s) t) t := C38_gammadash_theta S dofs 0 0 (p + s) t
  have h2 : HasDerivV3 (fun t => S.gamma dofs p t) (S.gammadash dofs 0 1 p t) t := C38_gammadash_theta S dofs 0 0 p t
  exact HasDerivV3.uniq h1 (HasDerivV3.congr' (HasDerivV3.rotZ (2 * π * s) h2) fun u => h.turn p s u)

theorem turn_normal (p s t : ℝ) : S.normal dofs (p + s) t = rotZ (2 * π * s) (S.normal dofs p t) := by
  rw [SurfaceShape.normal, h.turn_dg1, h.turn_dg2, rotZ_cross, SurfaceShape.normal]

theorem flip (p s t : ℝ) : S.gamma dofs (s - p) t = planeFlip (2 * π * s) (S.gamma dofs p t) := by
  have hy : (S.gamma dofs 0 t).y = 0 := by simp [SurfaceShape.gamma, SurfaceShape.gammadash, SurfaceShape.yTerm]
  rw [h, h p]
  ext
  · simp only [rotZ, planeFlip, hy, mul_sub, cos_sub, sin_sub]
    ring
  · simp only [rotZ, planeFlip, hy, mul_sub, cos_sub, sin_sub]
    ring
  · rfl

theorem flip_dg1 (p s t : ℝ) : S.gammadash dofs 1 0 (s - p) t = -planeFlip (2 * π * s) (S.gammadash dofs 1 0 p t) := by
  have h1 : HasDerivV3 (fun p => S.gamma dofs (s - p) t) (-S.gammadash dofs 1 0 (s - p) t) p :=
    HasDerivV3.reflect (C38_gammadash_phi S dofs 0 0 (s - p) t)
  have h2 : HasDerivV3 (fun p => S.gamma dofs p t) (S.gammadash dofs 1 0 p t) p := C38_gammadash_phi S dofs 0 0 p t
  rw [← HasDerivV3.uniq h1 (HasDerivV3.congr' (HasDerivV3.planeFlip (2 * π * s) h2) fun u => h.flip u s t), v3_neg_neg]

theorem flip_dg2 (p s t : ℝ) : S.gammadash dofs 0 1 (s - p) t = planeFlip (2 * π * s) (S.gammadash dofs 0 1 p t) := by
  have h1 : HasDerivV3 (fun t => S.gamma dofs (s - p) t) (S.gammadash dofs 0 1 (s - p) t) t := C38_gammadash_theta S dofs 0 0 (s - p) t
  have h2 : HasDerivV3 (fun t => S.gamma dofs p t) (S.gammadash dofs 0 1 p t) t := C38_gammadash_theta S dofs 0 0 p t
  exact HasDerivV3.uniq h1 (HasDerivV3.congr' (HasDerivV3.planeFlip (2 * π * s) h2) fun u => h.flip p s u)

theorem flip_normal (p s t : ℝ) : S.normal dofs (s - p) t = planeFlip (2 * π * s) (S.normal dofs p t) := by
  rw [SurfaceShape.normal, h.flip_dg1, h.flip_dg2, v3_neg_cross, planeFlip_cross, v3_neg_neg, SurfaceShape.normal]

end Axisymmetric

/-- What one unit of net poloidal current at one grid point contributes. -/
noncomputable def poloidalTerm (P : CpParams) (y : V3) (p t : ℝ) : V3 :=
  ((1 / Real.sqrt (y - P.surf.gamma P.wdofs p t).normSq) ^ 3 * ((P.N p t).norm * P.invN p t)) •
    V3.cross (P.dg2 p t) (y - P.surf.gamma P.wdofs p t)

theorem bTerm_withG (Q : FieldProblem) (g : ℝ) (c : List ℝ) (y : V3) (q : ℝ × ℝ) :
    (Q.withG g).bTerm c y q = Q.bTerm c y q + (g - Q.cp.G) • poloidalTerm Q.cp y q.1 q.2 := by
  have hK : (Q.withG g).cp.K c q.1 q.2 = Q.cp.K c q.1 q.2 + ((g - Q.cp.G) * Q.cp.invN q.1 q.2) • Q.cp.dg2 q.1 q.2 := by
    rw [CpParams.K, CpParams.K, CpParams.cK, CpParams.cK]
    simp only [FieldProblem.withG]
    change CpParams.appV (Q.cp.bK q.1 q.2) c + Q.cp.invN q.1 q.2 • (g • Q.cp.dg2 q.1 q.2 - Q.cp.I • Q.cp.dg1 q.1 q.2) = _
    ext <;> simp <;> ring
  simp only [FieldProblem.bTerm, hK, poloidalTerm, SurfaceShape.normal]
  simp only [FieldProblem.withG, CpParams.N, CpParams.dg1, CpParams.dg2]
  ext <;> simp [V3.cross] <;> ring

theorem poloidalTerm_turn {P : CpParams} (h : Axisymmetric P.surf P.wdofs) (y : V3) (p s t : ℝ) :
    poloidalTerm P (rotZ (2 * π * s) y) (p + s) t = rotZ (2 * π * s) (poloidalTerm P y p t) := by
  have hN : P.N (p + s) t = rotZ (2 * π * s) (P.N p t) := h.turn_normal p s t
  have hd : P.dg2 (p + s) t = rotZ (2 * π * s) (P.dg2 p t) := h.turn_dg2 p s t
  simp only [poloidalTerm, CpParams.invN, hN, hd, h.turn, ← rotZ_sub, rotZ_normSq, rotZ_norm, rotZ_cross, rotZ_smul]

theorem poloidalTerm_flip {P : CpParams} (h : Axisymmetric P.surf P.wdofs) (y : V3) (p s t : ℝ) :
    poloidalTerm P (planeFlip (2 * π * s) y) (s - p) t = -planeFlip (2 * π * s) (poloidalTerm P y p t) := by
  have hN : P.N (s - p) t = planeFlip (2 * π * s) (P.N p t) := h.flip_normal p s t
  have hd : P.dg2 (s - p) t = planeFlip (2 * π * s) (P.dg2 p t) := h.flip_dg2 p s t
  simp only [poloidalTerm, CpParams.invN, hN, hd, h.flip, ← planeFlip_sub, planeFlip_normSq, planeFlip_norm, planeFlip_cross, planeFlip_smul,
    v3_smul_neg]

end Verif
