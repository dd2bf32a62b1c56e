import Verif.Props.ForceField
import Verif.Props.Cylindrical

/-!
# The force integrands rotate with the field periods
-/

namespace Verif

theorem rotZ_add (t : ℝ) (a b : V3) : rotZ t (a + b) = rotZ t a + rotZ t b := by
  ext <;> simp only [rotZ, V3.add_x, V3.add_y, V3.add_z] <;> ring

theorem rotZ_neg (t : ℝ) (a : V3) : rotZ t (-a) = -rotZ t a := by
  ext <;> simp only [rotZ, V3.neg_x, V3.neg_y, V3.neg_z] <;> ring

theorem HasDerivV3.uniq {f : ℝ → V3} {a b : V3} {t : ℝ} (h : HasDerivV3 f a t) (k : HasDerivV3 f b t) : a = b :=
  V3.ext (h.1.unique k.1) (h.2.1.unique k.2.1) (h.2.2.unique k.2.2)

theorem HasDerivV3.rotZ {f : ℝ → V3} {a : V3} {t : ℝ} (s : ℝ) (h : HasDerivV3 f a t) :
    HasDerivV3 (fun u => Verif.rotZ s (f u)) (Verif.rotZ s a) t :=
  ⟨(h.1.const_mul _).sub (h.2.1.const_mul _), (h.1.const_mul _).add (h.2.1.const_mul _), h.2.2⟩

theorem HasDerivV3.shift {f : ℝ → V3} {a : V3} {t s : ℝ} (h : HasDerivV3 f a (t + s)) : HasDerivV3 (fun u => f (u + s)) a t :=
  ⟨h.1.comp_add_const t s, h.2.1.comp_add_const t s, h.2.2.comp_add_const t s⟩

namespace CpParams

variable (P : CpParams)

theorem N_period_ne (hn : P.surf.nfp ≠ 0) {phi theta : ℝ} (j : ℤ) (h : P.N phi theta ≠ 0) : P.N (phi + j / P.surf.nfp) theta ≠ 0 := by
  rw [P.N_field_period hn]
  intro h0
  have := congrArg V3.norm h0
  rw [rotZ_norm] at this
  exact ((V3.norm_pos_iff _).2 h).ne' (by rw [this]; simp [V3.norm, V3.normSq])

theorem unitN_field_period (hn : P.surf.nfp ≠ 0) (phi theta : ℝ) (j : ℤ) :
    P.unitN (phi + j / P.surf.nfp) theta = rotZ (2 * Real.pi * j / P.surf.nfp) (P.unitN phi theta) := by
  rw [unitN, unitN, P.N_field_period hn, rotZ_norm, rotZ_smul]

theorem unitNdash_field_period (hn : P.surf.nfp ≠ 0) {phi theta : ℝ} (j : ℤ) (h : P.N phi theta ≠ 0) :
    P.unitNdash1 (phi + j / P.surf.nfp) theta = rotZ (2 * Real.pi * j / P.surf.nfp) (P.unitNdash1 phi theta) ∧
    P.unitNdash2 (phi + j / P.surf.nfp) theta = rotZ (2 * Real.pi * j / P.surf.nfp) (P.unitNdash2 phi theta) := by
  obtain ⟨-, -, -, -, h1, h2⟩ := C43_helpers_exact P phi theta h
  obtain ⟨-, -, -, -, k1, k2⟩ := C43_helpers_exact P _ theta (P.N_period_ne hn j h)
  constructor
  · refine HasDerivV3.uniq k1.shift ?_
    simp only [P.unitN_field_period hn]
    exact h1.rotZ _
  · refine HasDerivV3.uniq k2 ?_
    simp only [P.unitN_field_period hn]
    exact h2.rotZ _

theorem Kdash_field_period (hn : P.surf.nfp ≠ 0) (c : List ℝ) {phi theta : ℝ} (j : ℤ) (h : P.N phi theta ≠ 0) :
    P.Kdash1 c (phi + j / P.surf.nfp) theta = rotZ (2 * Real.pi * j / P.surf.nfp) (P.Kdash1 c phi theta) ∧
    P.Kdash2 c (phi + j / P.surf.nfp) theta = rotZ (2 * Real.pi * j / P.surf.nfp) (P.Kdash2 c phi theta) := by
  obtain ⟨h1, h2⟩ := C43_K_derivatives P c phi theta h
  obtain ⟨k1, k2⟩ := C43_K_derivatives P c _ theta (P.N_period_ne hn j h)
  constructor
  · refine HasDerivV3.uniq k1.shift ?_
    simp only [P.K_field_period hn]
    exact h1.rotZ _
  · refine HasDerivV3.uniq k2 ?_
    simp only [P.K_field_period hn]
    exact h2.rotZ _

theorem grad_field_period (hn : P.surf.nfp ≠ 0) (phi theta : ℝ) (j : ℤ) :
    P.grad1 (phi + j / P.surf.nfp) theta = rotZ (2 * Real.pi * j / P.surf.nfp) (P.grad1 phi theta) ∧
    P.grad2 (phi + j / P.surf.nfp) theta = rotZ (2 * Real.pi * j / P.surf.nfp) (P.grad2 phi theta) := by
  constructor
  · rw [grad1, grad1, P.N_field_period hn, rotZ_normSq, dg2, C39_field_period _ hn, rotZ_cross, rotZ_smul]
    rfl
  · rw [grad2, grad2, P.N_field_period hn, rotZ_normSq, dg1, C39_field_period _ hn, ← rotZ_neg, rotZ_cross, rotZ_smul]
    rfl

theorem divN_field_period (hn : P.surf.nfp ≠ 0) {phi theta : ℝ} (j : ℤ) (h : P.N phi theta ≠ 0) :
    P.divN (phi + j / P.surf.nfp) theta = P.divN phi theta := by
  rw [divN, divN, (P.grad_field_period hn phi theta j).1, (P.grad_field_period hn phi theta j).2, (P.unitNdash_field_period hn j h).1,
    (P.unitNdash_field_period hn j h).2, rotZ_dot, rotZ_dot]

/-- The integrand tensors of a source point in another field period are the rotated tensors. -/
theorem force_tensors_field_period (hn : P.surf.nfp ≠ 0) (c : List ℝ) {phi theta : ℝ} (j : ℤ) (h : P.N phi theta ≠ 0) (k : V3) :
    M3.act (rotZ (2 * Real.pi * j / P.surf.nfp) k) (P.forceSingle c (phi + j / P.surf.nfp) theta) =
      rotZ (2 * Real.pi * j / P.surf.nfp) (M3.act k (P.forceSingle c phi theta)) ∧
    M3.act (rotZ (2 * Real.pi * j / P.surf.nfp) k) (P.forceDouble c (phi + j / P.surf.nfp) theta) =
      rotZ (2 * Real.pi * j / P.surf.nfp) (M3.act k (P.forceDouble c phi theta)) := by
  constructor
  · rw [forceSingle_cross, forceSingle_cross, P.divN_field_period hn j h, P.K_field_period hn, P.unitN_field_period hn,
      (P.grad_field_period hn phi theta j).1, (P.grad_field_period hn phi theta j).2, (P.Kdash_field_period hn c j h).1,
      (P.Kdash_field_period hn c j h).2]
    simp only [rotZ_cross, ← rotZ_smul, ← rotZ_add]
  · rw [forceDouble_cross, forceDouble_cross, P.K_field_period hn, P.unitN_field_period hn]
    simp only [rotZ_cross, ← rotZ_smul]

end CpParams

theorem rUnit_rotZ (a : ℝ) (g : V3) : rUnit (rotZ a g) = rotZ a (rUnit g) := by
  simp only [rUnit, rotZ_norm]
  ext <;> simp only [rotZ] <;> ring

theorem zUnit_rotZ (a : ℝ) : rotZ a zUnit = zUnit := by
  ext <;> simp [rotZ, zUnit]

theorem phiUnit_rotZ (a : ℝ) (g : V3) : phiUnit (rotZ a g) = rotZ a (phiUnit g) := by
  rw [phiUnit, phiUnit, rUnit_rotZ, ← rotZ_cross, zUnit_rotZ]

/-- A tensor that rotates with its point has the same projection. -/
theorem projectTensor_rotZ (a : ℝ) (g : V3) {S T : M3} (h : ∀ k, M3.act (rotZ a k) S = rotZ a (M3.act k T)) :
    projectTensor (rotZ a g) S = projectTensor g T := by
  have hz : M3.act zUnit S = rotZ a (M3.act zUnit T) := by
    have := h zUnit
    rwa [zUnit_rotZ] at this
  simp only [projectTensor, rUnit_rotZ, phiUnit_rotZ, h, hz, C32_rotation_invariant]

end Verif
