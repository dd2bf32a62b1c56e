import Verif.Props.ForceWitness
import Verif.Props.ConvexQuantities

/-!
# C124: the values of the force quantities are not convex
-/

namespace Verif

open CpParams Real

/-- The torus of C145 with a toroidal instead of a poloidal net current. -/
noncomputable def toroidalTorus : CpParams where
  surf := { nfp := 2, stellsym := true, mpol := 1, ntor := 0 }
  wdofs := [2, 1, 1]
  G := 0
  I := 2 * π
  mpol := 1
  ntor := 0
  stellsym := true

theorem toroidal_geometry : toroidalTorus.dg1 = twoPeriodTorus.dg1 ∧ toroidalTorus.dg2 = twoPeriodTorus.dg2 ∧
    toroidalTorus.dg11 = twoPeriodTorus.dg11 ∧ toroidalTorus.dg12 = twoPeriodTorus.dg12 ∧ toroidalTorus.dg22 = twoPeriodTorus.dg22 ∧
    toroidalTorus.surf = twoPeriodTorus.surf ∧ toroidalTorus.wdofs = twoPeriodTorus.wdofs := ⟨rfl, rfl, rfl, rfl, rfl, rfl, rfl⟩

theorem toroidal_regular (p t : ℝ) : toroidalTorus.N p t ≠ 0 := twoPeriod_regular p t

theorem toroidal_rows {t e : ℝ} (hc : cos (2 * π * t) = e) (hs : sin (2 * π * t) = 0) (p : ℝ) :
    toroidalTorus.opPhi p t = [0] ∧ toroidalTorus.opTheta p t = [2 * π * e] ∧ toroidalTorus.opPhiPhi p t = [0] ∧
    toroidalTorus.opPhiTheta p t = [0] ∧ toroidalTorus.opThetaTheta p t = [0] := by
  have e2 : π * 2 * t = 2 * π * t := by ring
  have hr : toroidalTorus.rows = [(1, 0, 1)] := by decide
  refine ⟨?_, ?_, ?_, ?_, ?_⟩
  · simp [opPhi, trigDiff, partialPhi, mulDiag, hr, angle, sinOrCos]
  · simp [opTheta, trigDiff, partialTheta, mulDiag, hr, angle, sinOrCos, e2, hc]
    ring
  · simp [opPhiPhi, trig, partialPhiPhi, mulDiag, hr, angle, sinOrCos]
  · simp [opPhiTheta, trig, partialPhiTheta, mulDiag, hr, angle, sinOrCos]
  · simp [opThetaTheta, trig, partialThetaTheta, mulDiag, hr, angle, sinOrCos, e2, hs]

/-- Values on the outside. -/
theorem toroidal_outside (x : ℝ) : (toroidalTorus.N 0 0).norm = 12 * π ^ 2 ∧ toroidalTorus.unitN 0 0 = ⟨1, 0, 0⟩ ∧
    toroidalTorus.K [x] 0 0 = ⟨0, -(1 + x), 0⟩ ∧
    (∀ y, M3.act ⟨0, y, 0⟩ (toroidalTorus.forceSingle [x] 0 0) = ⟨1e-7 * y * (1 + x), 0, 0⟩) ∧
    (∀ y, M3.act ⟨0, y, 0⟩ (toroidalTorus.forceDouble [x] 0 0) = ⟨1e-7 * y * (1 + x), 0, 0⟩) := by
  obtain ⟨h1, h2, h11, h12, h22, -⟩ := twoPeriod_derivs
  obtain ⟨g1, g2, g11, g12, g22, -, -⟩ := toroidal_geometry
  obtain ⟨r1, r2, r3, r4, r5⟩ := toroidal_rows (t := 0) (e := 1) (by simp) (by simp) 0
  rw [← g1] at h1
  rw [← g2] at h2
  rw [← g11] at h11
  rw [← g12] at h12
  rw [← g22] at h22
  clear g1 g2 g11 g12 g22
  have hGI : toroidalTorus.G = 0 ∧ toroidalTorus.I = 2 * π := ⟨rfl, rfl⟩
  have hN : toroidalTorus.N 0 0 = ⟨12 * π ^ 2, 0, 0⟩ := by
    rw [N, h1, h2]; ext <;> simp [V3.cross]; ring
  have hsq : (toroidalTorus.N 0 0).normSq = (12 * π ^ 2) ^ 2 := by rw [hN]; simp [V3.normSq]
  have hn : (toroidalTorus.N 0 0).norm = 12 * π ^ 2 := norm_of_sq (by positivity) hsq
  have hpi := pi_ne_zero
  have hu : toroidalTorus.unitN 0 0 = ⟨1, 0, 0⟩ := by
    rw [unitN, hn, hN]; ext <;> simp; field_simp
  have i1 : toroidalTorus.invNdash1 0 0 = 0 := by
    rw [invNdash1, normaldash1, hN, h1, h2, h11, h12]; simp [V3.dot, V3.cross]
  have i2 : toroidalTorus.invNdash2 0 0 = 0 := by
    rw [invNdash2, normaldash2, hN, h1, h2, h12, h22]; simp [V3.dot, V3.cross]
  have hinv : toroidalTorus.invN 0 0 = 1 / (12 * π ^ 2) := by rw [invN, hn]
  have hK : toroidalTorus.K [x] 0 0 = ⟨0, -(1 + x), 0⟩ := by
    simp only [K, bK, cK, r1, r2, hinv, h1, h2, hGI.1, hGI.2]
    ext <;> simp [appV, app]; field_simp; ring
  have hK1 : toroidalTorus.Kdash1 [x] 0 0 = ⟨2 * π * (1 + x), 0, 0⟩ := by
    simp only [Kdash1, Kdash1Op, Kdash1Const, dg2InvNdash1, dg1InvNdash1, i1, h12, h11, h1, h2, hinv, r1, r2, r3, r4, r5, hGI.1, hGI.2]
    ext <;> simp [appV, app]; field_simp; ring
  have hK2 : toroidalTorus.Kdash2 [x] 0 0 = ⟨0, 0, 0⟩ := by
    simp only [Kdash2, Kdash2Op, Kdash2Const, dg2InvNdash2, dg1InvNdash2, i2, h12, h22, h1, h2, hinv, r1, r2, r3, r4, r5, hGI.1, hGI.2]
    ext <;> simp [appV, app]
  have hu1 : toroidalTorus.unitNdash1 0 0 = ⟨0, 2 * π, 0⟩ := by
    rw [unitNdash1, dg1InvNdash1, i1, h11, h12, h1, h2, hinv]; ext <;> simp [V3.cross]; field_simp
  have hu2 : toroidalTorus.unitNdash2 0 0 = ⟨0, 0, 2 * π⟩ := by
    rw [unitNdash2, dg1InvNdash2, i2, h12, h22, h1, h2, hinv]; ext <;> simp [V3.cross]; field_simp; norm_num
  have hg1 : toroidalTorus.grad1 0 0 = ⟨0, 1 / (6 * π), 0⟩ := by
    rw [grad1, hsq, hN, h2]; ext <;> simp [V3.cross]; field_simp; norm_num
  have hg2 : toroidalTorus.grad2 0 0 = ⟨0, 0, 1 / (2 * π)⟩ := by
    rw [grad2, hsq, hN, h1]; ext <;> simp [V3.cross]; field_simp; norm_num
  have hdiv : toroidalTorus.divN 0 0 = 4 / 3 := by
    rw [divN, hg1, hg2, hu1, hu2]; simp [V3.dot]; field_simp; norm_num
  refine ⟨hn, hu, hK, fun z => ?_, fun z => ?_⟩
  · simp only [forceSingle, divPi, nDotGradN, hu, hK, hK1, hK2, hg1, hg2, hdiv, hu1, hu2]
    ext <;> simp [M3.act, M3.scale, M3.add, M3.sub, M3.outer, V3.dot]
    field_simp
    ring
  · simp only [forceDouble, hu, hK]
    ext <;> simp [M3.act, M3.scale, M3.sub, M3.outer]
    ring

/-- Values on the inside. -/
theorem toroidal_inside (x : ℝ) : (toroidalTorus.N 0 (1 / 2)).norm = 4 * π ^ 2 ∧ toroidalTorus.unitN 0 (1 / 2) = ⟨-1, 0, 0⟩ ∧
    toroidalTorus.K [x] 0 (1 / 2) = ⟨0, -(1 - x), 0⟩ ∧
    (∀ y, M3.act ⟨0, y, 0⟩ (toroidalTorus.forceSingle [x] 0 (1 / 2)) = ⟨-(1e-7 * y * (1 - x)), 0, 0⟩) ∧
    (∀ y, M3.act ⟨0, y, 0⟩ (toroidalTorus.forceDouble [x] 0 (1 / 2)) = ⟨-(1e-7 * y * (1 - x)), 0, 0⟩) := by
  obtain ⟨h1, h2, h11, h12, h22, -⟩ := twoPeriod_derivs'
  obtain ⟨g1, g2, g11, g12, g22, -, -⟩ := toroidal_geometry
  obtain ⟨r1, r2, r3, r4, r5⟩ := toroidal_rows (t := 1 / 2) (e := -1) (by rw [show 2 * π * (1 / 2) = π by ring, cos_pi])
    (by rw [show 2 * π * (1 / 2) = π by ring, sin_pi]) 0
  rw [← g1] at h1
  rw [← g2] at h2
  rw [← g11] at h11
  rw [← g12] at h12
  rw [← g22] at h22
  clear g1 g2 g11 g12 g22
  have hGI : toroidalTorus.G = 0 ∧ toroidalTorus.I = 2 * π := ⟨rfl, rfl⟩
  have hN : toroidalTorus.N 0 (1 / 2) = ⟨-(4 * π ^ 2), 0, 0⟩ := by
    rw [N, h1, h2]; ext <;> simp [V3.cross]; ring
  have hsq : (toroidalTorus.N 0 (1 / 2)).normSq = (4 * π ^ 2) ^ 2 := by rw [hN]; simp [V3.normSq]
  have hn : (toroidalTorus.N 0 (1 / 2)).norm = 4 * π ^ 2 := norm_of_sq (by positivity) hsq
  have hpi := pi_ne_zero
  have hu : toroidalTorus.unitN 0 (1 / 2) = ⟨-1, 0, 0⟩ := by
    rw [unitN, hn, hN]; ext <;> simp; field_simp
  have i1 : toroidalTorus.invNdash1 0 (1 / 2) = 0 := by
    rw [invNdash1, normaldash1, hN, h1, h2, h11, h12]; simp [V3.dot, V3.cross]
  have i2 : toroidalTorus.invNdash2 0 (1 / 2) = 0 := by
    rw [invNdash2, normaldash2, hN, h1, h2, h12, h22]; simp [V3.dot, V3.cross]
  have hinv : toroidalTorus.invN 0 (1 / 2) = 1 / (4 * π ^ 2) := by rw [invN, hn]
  have hK : toroidalTorus.K [x] 0 (1 / 2) = ⟨0, -(1 - x), 0⟩ := by
    simp only [K, bK, cK, r1, r2, hinv, h1, h2, hGI.1, hGI.2]
    ext <;> simp [appV, app]; field_simp; ring
  have hK1 : toroidalTorus.Kdash1 [x] 0 (1 / 2) = ⟨2 * π * (1 - x), 0, 0⟩ := by
    simp only [Kdash1, Kdash1Op, Kdash1Const, dg2InvNdash1, dg1InvNdash1, i1, h12, h11, h1, h2, hinv, r1, r2, r3, r4, r5, hGI.1, hGI.2]
    ext <;> simp [appV, app]; field_simp; ring
  have hK2 : toroidalTorus.Kdash2 [x] 0 (1 / 2) = ⟨0, 0, 0⟩ := by
    simp only [Kdash2, Kdash2Op, Kdash2Const, dg2InvNdash2, dg1InvNdash2, i2, h12, h22, h1, h2, hinv, r1, r2, r3, r4, r5, hGI.1, hGI.2]
    ext <;> simp [appV, app]
  have hu1 : toroidalTorus.unitNdash1 0 (1 / 2) = ⟨0, -(2 * π), 0⟩ := by
    rw [unitNdash1, dg1InvNdash1, i1, h11, h12, h1, h2, hinv]; ext <;> simp [V3.cross]; field_simp
  have hu2 : toroidalTorus.unitNdash2 0 (1 / 2) = ⟨0, 0, -(2 * π)⟩ := by
    rw [unitNdash2, dg1InvNdash2, i2, h12, h22, h1, h2, hinv]; ext <;> simp [V3.cross]; field_simp
  have hg1 : toroidalTorus.grad1 0 (1 / 2) = ⟨0, 1 / (2 * π), 0⟩ := by
    rw [grad1, hsq, hN, h2]; ext <;> simp [V3.cross]; field_simp; norm_num
  have hg2 : toroidalTorus.grad2 0 (1 / 2) = ⟨0, 0, -(1 / (2 * π))⟩ := by
    rw [grad2, hsq, hN, h1]; ext <;> simp [V3.cross]; field_simp; norm_num
  have hdiv : toroidalTorus.divN 0 (1 / 2) = 0 := by
    rw [divN, hg1, hg2, hu1, hu2]; simp [V3.dot]
  refine ⟨hn, hu, hK, fun z => ?_, fun z => ?_⟩
  · simp only [forceSingle, divPi, nDotGradN, hu, hK, hK1, hK2, hg1, hg2, hdiv, hu1, hu2]
    ext <;> simp [M3.act, M3.scale, M3.add, M3.sub, M3.outer, V3.dot]
    field_simp
  · simp only [forceDouble, hu, hK]
    ext <;> simp [M3.act, M3.scale, M3.sub, M3.outer]
    ring

/-- The opposite field period. -/
theorem toroidal_opposite (x t : ℝ) : toroidalTorus.surf.gamma toroidalTorus.wdofs (1 / 2) t =
      ⟨-(toroidalTorus.surf.gamma toroidalTorus.wdofs 0 t).x, -(toroidalTorus.surf.gamma toroidalTorus.wdofs 0 t).y,
        (toroidalTorus.surf.gamma toroidalTorus.wdofs 0 t).z⟩ ∧
    (toroidalTorus.N (1 / 2) t).norm = (toroidalTorus.N 0 t).norm ∧
    toroidalTorus.unitN (1 / 2) t = ⟨-(toroidalTorus.unitN 0 t).x, -(toroidalTorus.unitN 0 t).y, (toroidalTorus.unitN 0 t).z⟩ ∧
    (∀ y, M3.act ⟨0, y, 0⟩ (toroidalTorus.forceSingle [x] (1 / 2) t) =
      let v := M3.act ⟨0, -y, 0⟩ (toroidalTorus.forceSingle [x] 0 t); ⟨-v.x, -v.y, v.z⟩) ∧
    (∀ y, M3.act ⟨0, y, 0⟩ (toroidalTorus.forceDouble [x] (1 / 2) t) =
      let v := M3.act ⟨0, -y, 0⟩ (toroidalTorus.forceDouble [x] 0 t); ⟨-v.x, -v.y, v.z⟩) := by
  have hn : toroidalTorus.surf.nfp ≠ 0 := by decide
  have e : (0 : ℝ) + ((1 : ℤ) : ℝ) / (toroidalTorus.surf.nfp : ℝ) = 1 / 2 := by
    simp [toroidalTorus]
  have hg := C39_field_period toroidalTorus.surf hn toroidalTorus.wdofs 0 0 0 t 1
  have hu := toroidalTorus.unitN_field_period hn 0 t 1
  have hN := congrArg V3.norm (toroidalTorus.N_field_period hn 0 t 1)
  have hf := fun y => toroidalTorus.force_tensors_field_period hn [x] (phi := 0) (theta := t) 1 (toroidal_regular 0 t) ⟨0, -y, 0⟩
  rw [e] at hg hu hN
  simp only [e] at hf
  rw [rotZ_norm] at hN
  rw [show toroidalTorus.surf.nfp = 2 from rfl, rotZ_pi] at hg hu
  simp only [show toroidalTorus.surf.nfp = 2 from rfl, rotZ_pi, neg_zero, neg_neg] at hf
  exact ⟨hg, hN, hu, fun z => (hf z).1, fun z => (hf z).2⟩

/-- The integrand when target and source lie on one axis. -/
theorem integrand_on_axis {P : CpParams} {c : List ℝ} {k : V3} {phi theta r g n a b d : ℝ}
    (hg : P.surf.gamma P.wdofs phi theta = ⟨g, 0, 0⟩) (hd : |r - g| = d) (hpos : 0 < d) (hn : P.unitN phi theta = ⟨n, 0, 0⟩)
    (ha : M3.act k (P.forceSingle c phi theta) = ⟨a, 0, 0⟩) (hb : M3.act k (P.forceDouble c phi theta) = ⟨b, 0, 0⟩) :
    forceIntegrand P c ⟨r, 0, 0⟩ k phi theta = ⟨a / d + n * (r - g) * b / d ^ 3, 0, 0⟩ := by
  have hv : (⟨r, 0, 0⟩ : V3) - P.surf.gamma P.wdofs phi theta = ⟨r - g, 0, 0⟩ := by
    rw [hg]; ext <;> simp
  have hnorm : (⟨r - g, 0, 0⟩ : V3).norm = d := norm_of_sq hpos.le (by simp [V3.normSq, ← hd])
  simp only [forceIntegrand, hv, hnorm, hn, ha, hb]
  ext <;> simp [V3.dot]
  field_simp

/-- The problem of C145 on this torus. -/
noncomputable def toroidalProblem : FieldProblem := { twoPeriodProblem with cp := toroidalTorus }

theorem toroidal_first : FirstPeriod toroidalProblem 1 := ⟨by decide, rfl, rfl, rfl⟩

theorem toroidal_grid : toroidalProblem.wPhis = [0, 1 / 2] ∧ toroidalProblem.wThetas = [0, 1 / 2] := twoPeriod_grid

/-- The force on the two points of the evaluation grid. -/
theorem toroidal_force (x : ℝ) :
    toroidalProblem.forceAt [x] 0 0 = ⟨-(1e-7 * π ^ 2 * ((1 + x) * (20 * (1 + x) - 27 * (1 - x)) / 48)), 0, 0⟩ ∧
    toroidalProblem.forceAt [x] 0 1 = ⟨-(1e-7 * π ^ 2 * ((1 - x) * (63 * (1 + x) - 36 * (1 - x)) / 48)), 0, 0⟩ := by
  have g0 : toroidalTorus.surf.gamma toroidalTorus.wdofs 0 0 = ⟨3, 0, 0⟩ := twoPeriod_derivs.2.2.2.2.2
  have g1 : toroidalTorus.surf.gamma toroidalTorus.wdofs 0 (1 / 2) = ⟨1, 0, 0⟩ := twoPeriod_derivs'.2.2.2.2.2
  obtain ⟨n0, u0, k0, s0, d0⟩ := toroidal_outside x
  obtain ⟨n1, u1, k1, s1, d1⟩ := toroidal_inside x
  obtain ⟨og0, on0, ou0, os0, od0⟩ := toroidal_opposite x 0
  obtain ⟨og1, on1, ou1, os1, od1⟩ := toroidal_opposite x (1 / 2)
  simp only [g0, u0, s0, d0, neg_zero, neg_neg] at og0 ou0 os0 od0
  simp only [g1, u1, s1, d1, neg_zero, neg_neg] at og1 ou1 os1 od1
  rw [n0] at on0
  rw [n1] at on1
  obtain ⟨gp, gt⟩ := toroidal_grid
  have hcp : toroidalProblem.cp = toroidalTorus := rfl
  have hpi := pi_ne_zero
  have da : ∀ p t, toroidalProblem.windingDa p t =
      1 / 4 * (toroidalTorus.N (([0, 1 / 2] : List ℝ).getD p 0) (([0, 1 / 2] : List ℝ).getD t 0)).norm := by
    intro p t
    rw [FieldProblem.windingDa, gp, gt]
    show gridStep _ * gridStep _ * (toroidalTorus.N _ _).norm = _
    simp only [gridStep]
    norm_num
  have s00 : toroidalProblem.source 0 0 = ⟨3, 0, 0⟩ := by rw [FieldProblem.source, gp, gt]; exact g0
  have s01 : toroidalProblem.source 0 1 = ⟨1, 0, 0⟩ := by rw [FieldProblem.source, gp, gt]; exact g1
  have s10 : toroidalProblem.source 1 0 = ⟨-3, 0, 0⟩ := by rw [FieldProblem.source, gp, gt]; exact og0
  have s11 : toroidalProblem.source 1 1 = ⟨-1, 0, 0⟩ := by rw [FieldProblem.source, gp, gt]; exact og1
  have sk : toroidalProblem.sourceK [x] 0 0 = ⟨0, -(1 + x), 0⟩ := by rw [FieldProblem.sourceK, gp, gt]; exact k0
  have sk' : toroidalProblem.sourceK [x] 0 1 = ⟨0, -(1 - x), 0⟩ := by rw [FieldProblem.sourceK, gp, gt]; exact k1
  have m3 : (⟨3, 0, 0⟩ : V3).norm = 3 := norm_of_sq (by norm_num) (by simp [V3.normSq])
  have m3' : (⟨-3, 0, 0⟩ : V3).norm = 3 := norm_of_sq (by norm_num) (by simp [V3.normSq])
  have m1 : (⟨1, 0, 0⟩ : V3).norm = 1 := norm_of_sq (by norm_num) (by simp [V3.normSq])
  have m1' : (⟨-1, 0, 0⟩ : V3).norm = 1 := norm_of_sq (by norm_num) (by simp [V3.normSq])
  have pc3 : ∀ y : ℝ, projectCylindrical ⟨3, 0, 0⟩ ⟨0, y, 0⟩ = ⟨0, y, 0⟩ := by
    intro y
    ext <;> simp [projectCylindrical, projectCoord, rUnit, phiUnit, zUnit, V3.dot, V3.cross, m3]
  have pc1 : ∀ y : ℝ, projectCylindrical ⟨1, 0, 0⟩ ⟨0, y, 0⟩ = ⟨0, y, 0⟩ := by
    intro y
    ext <;> simp [projectCylindrical, projectCoord, rUnit, phiUnit, zUnit, V3.dot, V3.cross, m1]
  have fv3 : ∀ y : ℝ, frameVector ⟨3, 0, 0⟩ ⟨0, y, 0⟩ = ⟨0, y, 0⟩ := by
    intro y
    ext <;> simp [frameVector, rUnit, phiUnit, zUnit, V3.cross, m3]
  have fv1 : ∀ y : ℝ, frameVector ⟨1, 0, 0⟩ ⟨0, y, 0⟩ = ⟨0, y, 0⟩ := by
    intro y
    ext <;> simp [frameVector, rUnit, phiUnit, zUnit, V3.cross, m1]
  have fv3' : ∀ y : ℝ, frameVector ⟨-3, 0, 0⟩ ⟨0, y, 0⟩ = ⟨0, -y, 0⟩ := by
    intro y
    ext <;> simp [frameVector, rUnit, phiUnit, zUnit, V3.cross, m3']
  have fv1' : ∀ y : ℝ, frameVector ⟨-1, 0, 0⟩ ⟨0, y, 0⟩ = ⟨0, -y, 0⟩ := by
    intro y
    ext <;> simp [frameVector, rUnit, phiUnit, zUnit, V3.cross, m1']
  have a01 := fun y => integrand_on_axis (r := 3) (d := 2) g1 (by norm_num) (by norm_num) u1 (s1 y) (d1 y)
  have a10 := fun y => integrand_on_axis (r := 3) (d := 6) og0 (by norm_num) (by norm_num) ou0 (os0 y) (od0 y)
  have a11 := fun y => integrand_on_axis (r := 3) (d := 4) og1 (by norm_num) (by norm_num) ou1 (os1 y) (od1 y)
  have b00 := fun y => integrand_on_axis (r := 1) (d := 2) g0 (by norm_num) (by norm_num) u0 (s0 y) (d0 y)
  have b10 := fun y => integrand_on_axis (r := 1) (d := 4) og0 (by norm_num) (by norm_num) ou0 (os0 y) (od0 y)
  have b11 := fun y => integrand_on_axis (r := 1) (d := 2) og1 (by norm_num) (by norm_num) ou1 (os1 y) (od1 y)
  clear s0 d0 s1 d1 os0 od0 os1 od1 u0 u1 ou0 ou1 k0 k1
  have hf0 : ∀ {comp : V3 → ℝ}, IsComponent comp → comp (toroidalProblem.forceAt [x] 0 0) = _ := fun {comp} hc =>
    C145_force_of_a_problem toroidal_first toroidal_regular [x] (i := 0) (j := 0) (by norm_num) (by rw [gt]; simp) hc
  have hf1 : ∀ {comp : V3 → ℝ}, IsComponent comp → comp (toroidalProblem.forceAt [x] 0 1) = _ := fun {comp} hc =>
    C145_force_of_a_problem toroidal_first toroidal_regular [x] (i := 0) (j := 1) (by norm_num) (by rw [gt]; simp) hc
  constructor
  · ext
    all_goals
      first
        | rw [hf0 (Or.inl rfl)]
        | rw [hf0 (Or.inr (Or.inl rfl))]
        | rw [hf0 (Or.inr (Or.inr rfl))]
      simp only [gp, gt, List.length_cons, List.length_nil, zero_add, Nat.reduceAdd, Finset.sum_range_succ, Finset.sum_range_zero,
        forceContribution, s00, s01, s10, s11, sk, pc3, fv1, fv3', fv1', da, hcp]
      simp only [List.getD_cons_zero, List.getD_cons_succ, a01, a10, a11, n1, on0, on1, projectCylindrical, projectCoord, rUnit, phiUnit,
        m3', m1, m1', V3.dot, V3.smul_x, V3.smul_y, V3.smul_z]
      simp [V3.cross, zUnit]
    ring
  · ext
    all_goals
      first
        | rw [hf1 (Or.inl rfl)]
        | rw [hf1 (Or.inr (Or.inl rfl))]
        | rw [hf1 (Or.inr (Or.inr rfl))]
      simp only [gp, gt, List.length_cons, List.length_nil, zero_add, Nat.reduceAdd, Finset.sum_range_succ, Finset.sum_range_zero,
        forceContribution, s00, s01, s10, s11, sk', pc1, fv3, fv3', fv1', da, hcp]
      simp only [List.getD_cons_zero, List.getD_cons_succ, b00, b10, b11, n0, on0, on1, projectCylindrical, projectCoord, rUnit, phiUnit,
        m3, m3', m1', V3.dot, V3.smul_x, V3.smul_y, V3.smul_z]
      simp [V3.cross, zUnit]
    ring

/-- The largest component of the force on this grid. -/
theorem toroidal_forceCyl (x : ℝ) : ((FieldProblem.fns.forceCyl toroidalProblem (phiOnly (.array [x]))).flatten).map (fun y => |y|) =
    [1e-7 * π ^ 2 / 48 * |(1 + x) * (47 * x - 7)|, 0, 0, 1e-7 * π ^ 2 / 48 * |(1 - x) * (27 + 99 * x)|, 0, 0] := by
  have hk : (0 : ℝ) ≤ 1e-7 * π ^ 2 / 48 := by positivity
  have he : toroidalProblem.ePhis.length = 1 := by
    simp [toroidalProblem, twoPeriodProblem, linspace0]
  have ht : toroidalProblem.eThetas.length = 2 := by
    simp [toroidalProblem, twoPeriodProblem, linspace0]
  have h : FieldProblem.fns.forceCyl toroidalProblem (phiOnly (.array [x])) =
      [(toroidalProblem.forceAt [x] 0 0).toList, (toroidalProblem.forceAt [x] 0 1).toList] := by
    simp only [FieldProblem.fns, he, ht, coefs_phiOnly, List.range_succ, List.range_zero]
    rfl
  rw [h, (toroidal_force x).1, (toroidal_force x).2]
  have e1 : -(1e-7 * π ^ 2 * ((1 + x) * (20 * (1 + x) - 27 * (1 - x)) / 48)) = -(1e-7 * π ^ 2 / 48 * ((1 + x) * (47 * x - 7))) := by ring
  have e2 : -(1e-7 * π ^ 2 * ((1 - x) * (63 * (1 + x) - 36 * (1 - x)) / 48)) = -(1e-7 * π ^ 2 / 48 * ((1 - x) * (27 + 99 * x))) := by ring
  rw [e1, e2]
  simp only [V3.toList, List.flatten_cons, List.flatten_nil, List.append_nil, List.cons_append, List.nil_append, List.map_cons, List.map_nil,
    abs_neg, abs_zero]
  rw [abs_mul, abs_of_nonneg hk, abs_mul (1e-7 * π ^ 2 / 48), abs_of_nonneg hk]

theorem toroidal_max (x : ℝ) : jmax (((FieldProblem.fns.forceCyl toroidalProblem (phiOnly (.array [x]))).flatten).map fun y => |y|) =
    1e-7 * π ^ 2 / 48 * max |(1 + x) * (47 * x - 7)| |(1 - x) * (27 + 99 * x)| := by
  have hk : (0 : ℝ) ≤ 1e-7 * π ^ 2 / 48 := by positivity
  rw [toroidal_forceCyl, mul_max_of_nonneg _ _ hk]
  refine jmax_eq ?_ ?_
  · rcases max_choice (1e-7 * π ^ 2 / 48 * |(1 + x) * (47 * x - 7)|) (1e-7 * π ^ 2 / 48 * |(1 - x) * (27 + 99 * x)|) with h | h <;>
      rw [h] <;> simp
  · intro y hy
    simp only [List.mem_cons, List.not_mem_nil, or_false] at hy
    have h0 : (0 : ℝ) ≤ max (1e-7 * π ^ 2 / 48 * |(1 + x) * (47 * x - 7)|) (1e-7 * π ^ 2 / 48 * |(1 - x) * (27 + 99 * x)|) :=
      le_max_of_le_left (by positivity)
    rcases hy with rfl | rfl | rfl | rfl | rfl | rfl
    · exact le_max_left _ _
    · exact h0
    · exact h0
    · exact le_max_right _ _
    · exact h0
    · exact h0

/-- **C124.** The values of `f_max_force_cyl` and `f_max_force2_cyl` are not convex: at `[1/8]` each of them is larger than the mean of its
values at `[-1/4]` and `[1/2]`. -/
theorem C124_force_violated_partial :
    (∃ q, (shipped FieldProblem.fns).lookup "f_max_force_cyl" = some q ∧ ¬ EachEntry (ConvexOnVectors 1) (valuesOf q toroidalProblem)) ∧
    (∃ q, (shipped FieldProblem.fns).lookup "f_max_force2_cyl" = some q ∧ ¬ EachEntry (ConvexOnVectors 1) (valuesOf q toroidalProblem)) := by
  have hk : (0 : ℝ) < 1e-7 * π ^ 2 / 48 := by positivity
  have v1 := toroidal_max (-1 / 4)
  have v2 := toroidal_max (1 / 2)
  have v3 := toroidal_max (1 / 8)
  have w1 : max |(1 + (-1 / 4 : ℝ)) * (47 * (-1 / 4) - 7)| |(1 - (-1 / 4 : ℝ)) * (27 + 99 * (-1 / 4))| = 225 / 16 := by
    norm_num [abs_of_nonneg, abs_of_neg]
  have w2 : max |(1 + (1 / 2 : ℝ)) * (47 * (1 / 2) - 7)| |(1 - (1 / 2 : ℝ)) * (27 + 99 * (1 / 2))| = 153 / 4 := by
    norm_num [abs_of_nonneg, abs_of_neg]
  have w3 : max |(1 + (1 / 8 : ℝ)) * (47 * (1 / 8) - 7)| |(1 - (1 / 8 : ℝ)) * (27 + 99 * (1 / 8))| = 2205 / 64 := by
    norm_num [abs_of_nonneg, abs_of_neg]
  rw [w1] at v1
  rw [w2] at v2
  rw [w3] at v3
  have e : comb (1 / 2) (1 - 1 / 2) [-1 / 4] [1 / 2] = [(1 / 8 : ℝ)] := by
    simp [comb]
    norm_num
  have key : ∀ g : ℝ → ℝ, (g (1e-7 * π ^ 2 / 48 * (225 / 16)) + g (1e-7 * π ^ 2 / 48 * (153 / 4)) < 2 * g (1e-7 * π ^ 2 / 48 * (2205 / 64))) →
      ∀ q : Quantity FieldProblem, (∀ x : ℝ, valuesOf q toroidalProblem [x] =
        [g (jmax (((FieldProblem.fns.forceCyl toroidalProblem (phiOnly (.array [x]))).flatten).map fun y => |y|))]) →
      ¬ EachEntry (ConvexOnVectors 1) (valuesOf q toroidalProblem) := by
    rintro g hg q hq ⟨fs, hfs, hconv⟩
    obtain ⟨f, rfl⟩ : ∃ f, fs = [f] := by
      have := congrArg List.length (hfs [0])
      rw [hq] at this
      exact List.length_eq_one_iff.1 (by simpa using this.symm)
    have hf : ∀ x : ℝ, f [x] = g (jmax (((FieldProblem.fns.forceCyl toroidalProblem (phiOnly (.array [x]))).flatten).map fun y => |y|)) := by
      intro x
      have := hfs [x]
      rw [hq] at this
      simpa using this.symm
    have hc := hconv f (by simp) [-1 / 4] [1 / 2] rfl rfl (1 / 2) (by norm_num) (by norm_num)
    rw [e, hf, hf, hf, v1, v2, v3] at hc
    linarith
  refine ⟨⟨_, rfl, key id ?_ _ ?_⟩, ⟨_, rfl, key (· ^ 2) ?_ _ ?_⟩⟩
  · simp only [id]
    nlinarith
  · intro x
    rw [valuesOf, call_phiOnly]
    simp [Quantity.generateLinf, Quantity.maxAbs, arr, Val.entries]
  · have : 0 < (1e-7 * π ^ 2 / 48) ^ 2 := by positivity
    simp only [mul_pow]
    nlinarith
  · intro x
    rw [valuesOf, call_phiOnly]
    simp [Quantity.generateLinf, Quantity.maxAbs, arr, Val.entries]

end Verif
