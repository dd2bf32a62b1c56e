import Verif.Props.ForceProblem

/-!
# C145: a problem on which the force has the wrong value
-/

namespace Verif

open CpParams Real

/-- Circular torus with major radius 2, minor radius 1 and two field periods, net poloidal current 5, no toroidal current. -/
def twoPeriodTorus : CpParams where
  surf := { nfp := 2, stellsym := true, mpol := 1, ntor := 0 }
  wdofs := [2, 1, 1]
  G := 5
  I := 0
  mpol := 1
  ntor := 0
  stellsym := true

theorem twoPeriod_derivs : twoPeriodTorus.dg1 0 0 = ⟨0, 6 * π, 0⟩ ∧ twoPeriodTorus.dg2 0 0 = ⟨0, 0, 2 * π⟩ ∧
    twoPeriodTorus.dg11 0 0 = ⟨-(12 * π ^ 2), 0, 0⟩ ∧ twoPeriodTorus.dg12 0 0 = ⟨0, 0, 0⟩ ∧
    twoPeriodTorus.dg22 0 0 = ⟨-(4 * π ^ 2), 0, 0⟩ ∧ twoPeriodTorus.surf.gamma twoPeriodTorus.wdofs 0 0 = ⟨3, 0, 0⟩ := by
  refine ⟨?_, ?_, ?_, ?_, ?_, ?_⟩ <;>
  · simp only [dg1, dg2, dg11, dg12, dg22, SurfaceShape.gamma]
    rw [SurfaceShape.gammadash_eq]
    simp only [twoPeriodTorus, SurfaceShape.leibniz, Finset.Nat.antidiagonal_succ, Finset.Nat.antidiagonal_zero]
    simp [SurfaceShape.rDash, SurfaceShape.zDash, SurfaceShape.rOperatorPadded, SurfaceShape.zOperatorPadded,
      SurfaceShape.rOperator, SurfaceShape.zOperator, SurfaceShape.cmn, SurfaceShape.smn, surfMc, surfNc, surfMs, surfNs,
      repeatEach, tile, arange, SurfaceShape.applyRow, cEntry, sEntry, derivFactor, modeAngle, cosD, sinD]
    try ring_nf

theorem twoPeriod_derivs' : twoPeriodTorus.dg1 0 (1 / 2) = ⟨0, 2 * π, 0⟩ ∧ twoPeriodTorus.dg2 0 (1 / 2) = ⟨0, 0, -(2 * π)⟩ ∧
    twoPeriodTorus.dg11 0 (1 / 2) = ⟨-(4 * π ^ 2), 0, 0⟩ ∧ twoPeriodTorus.dg12 0 (1 / 2) = ⟨0, 0, 0⟩ ∧
    twoPeriodTorus.dg22 0 (1 / 2) = ⟨4 * π ^ 2, 0, 0⟩ ∧ twoPeriodTorus.surf.gamma twoPeriodTorus.wdofs 0 (1 / 2) = ⟨1, 0, 0⟩ := by
  have e : (2 : ℝ)⁻¹ * π * 2 = π := by ring
  refine ⟨?_, ?_, ?_, ?_, ?_, ?_⟩ <;>
  · simp only [dg1, dg2, dg11, dg12, dg22, SurfaceShape.gamma]
    rw [SurfaceShape.gammadash_eq]
    simp only [twoPeriodTorus, SurfaceShape.leibniz, Finset.Nat.antidiagonal_succ, Finset.Nat.antidiagonal_zero]
    simp [SurfaceShape.rDash, SurfaceShape.zDash, SurfaceShape.rOperatorPadded, SurfaceShape.zOperatorPadded,
      SurfaceShape.rOperator, SurfaceShape.zOperator, SurfaceShape.cmn, SurfaceShape.smn, surfMc, surfNc, surfMs, surfNs,
      repeatEach, tile, arange, SurfaceShape.applyRow, cEntry, sEntry, derivFactor, modeAngle, cosD, sinD, e]
    try ring_nf

theorem twoPeriod_tangents (p t : ℝ) :
    twoPeriodTorus.dg1 p t = ⟨-(2 * π) * (2 + cos (2 * π * t)) * sin (2 * π * p), 2 * π * (2 + cos (2 * π * t)) * cos (2 * π * p), 0⟩ ∧
    twoPeriodTorus.dg2 p t = ⟨-(2 * π) * sin (2 * π * t) * cos (2 * π * p), -(2 * π) * sin (2 * π * t) * sin (2 * π * p),
      2 * π * cos (2 * π * t)⟩ := by
  have e1 : p * π * 2 = 2 * π * p := by ring
  constructor
  · rw [dg1, SurfaceShape.gammadash_eq]
    simp only [twoPeriodTorus, SurfaceShape.leibniz, Finset.Nat.antidiagonal_succ, Finset.Nat.antidiagonal_zero]
    simp [SurfaceShape.rDash, SurfaceShape.zDash, SurfaceShape.rOperatorPadded, SurfaceShape.zOperatorPadded,
      SurfaceShape.rOperator, SurfaceShape.zOperator, SurfaceShape.cmn, SurfaceShape.smn, surfMc, surfNc, surfMs, surfNs,
      repeatEach, tile, arange, SurfaceShape.applyRow, cEntry, sEntry, derivFactor, modeAngle, cosD, sinD, e1]
    constructor <;> ring_nf
  · rw [dg2, SurfaceShape.gammadash_eq]
    simp only [twoPeriodTorus, SurfaceShape.leibniz, Finset.Nat.antidiagonal_zero]
    simp [SurfaceShape.rDash, SurfaceShape.zDash, SurfaceShape.rOperatorPadded, SurfaceShape.zOperatorPadded,
      SurfaceShape.rOperator, SurfaceShape.zOperator, SurfaceShape.cmn, SurfaceShape.smn, surfMc, surfNc, surfMs, surfNs,
      repeatEach, tile, arange, SurfaceShape.applyRow, cEntry, sEntry, derivFactor, modeAngle, cosD, sinD, e1]
    refine ⟨?_, ?_, ?_⟩ <;> ring_nf <;> simp

theorem twoPeriod_regular (p t : ℝ) : twoPeriodTorus.N p t ≠ 0 := by
  have e : twoPeriodTorus.N p t = circularTorus.N p t := by
    rw [N, N, (twoPeriod_tangents p t).1, (twoPeriod_tangents p t).2, (circularTorus_tangents p t).1, (circularTorus_tangents p t).2]
  rw [e]
  exact (circularTorus_regular p t).1

theorem app_zero (row : List ℝ) : app row [0] = 0 := by
  cases row <;> simp [app]

theorem appV_zero (row : List V3) : appV row [0] = 0 := by
  simp only [appV, app_zero]
  rfl

theorem norm_of_sq {v : V3} {r : ℝ} (hr : 0 ≤ r) (h : v.normSq = r ^ 2) : v.norm = r := by
  rw [V3.norm, h, sqrt_sq hr]

/-- Values on the outside. -/
theorem twoPeriod_outside : (twoPeriodTorus.N 0 0).norm = 12 * π ^ 2 ∧ twoPeriodTorus.unitN 0 0 = ⟨1, 0, 0⟩ ∧
    twoPeriodTorus.K [0] 0 0 = ⟨0, 0, 5 / (6 * π)⟩ ∧
    (∀ z, M3.act ⟨0, 0, z⟩ (twoPeriodTorus.forceSingle [0] 0 0) = ⟨-(1e-7 * z * (5 / (18 * π))), 0, 0⟩) ∧
    (∀ z, M3.act ⟨0, 0, z⟩ (twoPeriodTorus.forceDouble [0] 0 0) = ⟨-(1e-7 * z * (5 / (6 * π))), 0, 0⟩) := by
  obtain ⟨h1, h2, h11, h12, h22, -⟩ := twoPeriod_derivs
  have hN : twoPeriodTorus.N 0 0 = ⟨12 * π ^ 2, 0, 0⟩ := by
    rw [N, h1, h2]; ext <;> simp [V3.cross]; ring
  have hsq : (twoPeriodTorus.N 0 0).normSq = (12 * π ^ 2) ^ 2 := by rw [hN]; simp [V3.normSq]
  have hn : (twoPeriodTorus.N 0 0).norm = 12 * π ^ 2 := norm_of_sq (by positivity) hsq
  have hpi := pi_ne_zero
  have hu : twoPeriodTorus.unitN 0 0 = ⟨1, 0, 0⟩ := by
    rw [unitN, hn, hN]; ext <;> simp; field_simp
  have i1 : twoPeriodTorus.invNdash1 0 0 = 0 := by
    rw [invNdash1, normaldash1, hN, h1, h2, h11, h12]; simp [V3.dot, V3.cross]
  have i2 : twoPeriodTorus.invNdash2 0 0 = 0 := by
    rw [invNdash2, normaldash2, hN, h1, h2, h12, h22]; simp [V3.dot, V3.cross]
  have hinv : twoPeriodTorus.invN 0 0 = 1 / (12 * π ^ 2) := by rw [invN, hn]
  have hK : twoPeriodTorus.K [0] 0 0 = ⟨0, 0, 5 / (6 * π)⟩ := by
    rw [K, appV_zero, cK, hinv, h1, h2]; ext <;> simp [twoPeriodTorus]; field_simp; norm_num
  have hK1 : twoPeriodTorus.Kdash1 [0] 0 0 = ⟨0, 0, 0⟩ := by
    rw [Kdash1, appV_zero, Kdash1Const, dg2InvNdash1, dg1InvNdash1, i1, h12]; ext <;> simp [twoPeriodTorus]
  have hK2 : twoPeriodTorus.Kdash2 [0] 0 0 = ⟨-(5 / 3), 0, 0⟩ := by
    rw [Kdash2, appV_zero, Kdash2Const, dg2InvNdash2, dg1InvNdash2, i2, h12, h22, hinv]; ext <;> simp [twoPeriodTorus]; field_simp; norm_num
  have hu1 : twoPeriodTorus.unitNdash1 0 0 = ⟨0, 2 * π, 0⟩ := by
    rw [unitNdash1, dg1InvNdash1, i1, h11, h12, h1, h2, hinv]; ext <;> simp [V3.cross]; field_simp
  have hu2 : twoPeriodTorus.unitNdash2 0 0 = ⟨0, 0, 2 * π⟩ := by
    rw [unitNdash2, dg1InvNdash2, i2, h12, h22, h1, h2, hinv]; ext <;> simp [V3.cross]; field_simp; norm_num
  have hg1 : twoPeriodTorus.grad1 0 0 = ⟨0, 1 / (6 * π), 0⟩ := by
    rw [grad1, hsq, hN, h2]; ext <;> simp [V3.cross]; field_simp; norm_num
  have hg2 : twoPeriodTorus.grad2 0 0 = ⟨0, 0, 1 / (2 * π)⟩ := by
    rw [grad2, hsq, hN, h1]; ext <;> simp [V3.cross]; field_simp; norm_num
  have hdiv : twoPeriodTorus.divN 0 0 = 4 / 3 := by
    rw [divN, hg1, hg2, hu1, hu2]; simp [V3.dot]; field_simp; norm_num
  refine ⟨hn, hu, hK, fun z => ?_, fun z => ?_⟩
  · simp only [forceSingle, divPi, nDotGradN, hu, hK, hK1, hK2, hg1, hg2, hdiv, hu1, hu2]
    ext <;> simp [M3.act, M3.scale, M3.add, M3.sub, M3.outer, V3.dot]
    field_simp
    ring
  · simp only [forceDouble, hu, hK]
    ext <;> simp [M3.act, M3.scale, M3.sub, M3.outer]
    field_simp

/-- Values on the inside. -/
theorem twoPeriod_inside : (twoPeriodTorus.N 0 (1 / 2)).norm = 4 * π ^ 2 ∧ twoPeriodTorus.unitN 0 (1 / 2) = ⟨-1, 0, 0⟩ ∧
    (∀ z, M3.act ⟨0, 0, z⟩ (twoPeriodTorus.forceSingle [0] 0 (1 / 2)) = ⟨1e-7 * z * (5 / (2 * π)), 0, 0⟩) ∧
    (∀ z, M3.act ⟨0, 0, z⟩ (twoPeriodTorus.forceDouble [0] 0 (1 / 2)) = ⟨-(1e-7 * z * (5 / (2 * π))), 0, 0⟩) := by
  obtain ⟨h1, h2, h11, h12, h22, -⟩ := twoPeriod_derivs'
  have hN : twoPeriodTorus.N 0 (1 / 2) = ⟨-(4 * π ^ 2), 0, 0⟩ := by
    rw [N, h1, h2]; ext <;> simp [V3.cross]; ring
  have hsq : (twoPeriodTorus.N 0 (1 / 2)).normSq = (4 * π ^ 2) ^ 2 := by rw [hN]; simp [V3.normSq]
  have hn : (twoPeriodTorus.N 0 (1 / 2)).norm = 4 * π ^ 2 := norm_of_sq (by positivity) hsq
  have hpi := pi_ne_zero
  have hu : twoPeriodTorus.unitN 0 (1 / 2) = ⟨-1, 0, 0⟩ := by
    rw [unitN, hn, hN]; ext <;> simp; field_simp
  have i1 : twoPeriodTorus.invNdash1 0 (1 / 2) = 0 := by
    rw [invNdash1, normaldash1, hN, h1, h2, h11, h12]; simp [V3.dot, V3.cross]
  have i2 : twoPeriodTorus.invNdash2 0 (1 / 2) = 0 := by
    rw [invNdash2, normaldash2, hN, h1, h2, h12, h22]; simp [V3.dot, V3.cross]
  have hinv : twoPeriodTorus.invN 0 (1 / 2) = 1 / (4 * π ^ 2) := by rw [invN, hn]
  have hK : twoPeriodTorus.K [0] 0 (1 / 2) = ⟨0, 0, -(5 / (2 * π))⟩ := by
    rw [K, appV_zero, cK, hinv, h1, h2]; ext <;> simp [twoPeriodTorus]; field_simp; norm_num
  have hK1 : twoPeriodTorus.Kdash1 [0] 0 (1 / 2) = ⟨0, 0, 0⟩ := by
    rw [Kdash1, appV_zero, Kdash1Const, dg2InvNdash1, dg1InvNdash1, i1, h12]; ext <;> simp [twoPeriodTorus]
  have hK2 : twoPeriodTorus.Kdash2 [0] 0 (1 / 2) = ⟨5, 0, 0⟩ := by
    rw [Kdash2, appV_zero, Kdash2Const, dg2InvNdash2, dg1InvNdash2, i2, h12, h22, hinv]; ext <;> simp [twoPeriodTorus]; field_simp
  have hu1 : twoPeriodTorus.unitNdash1 0 (1 / 2) = ⟨0, -(2 * π), 0⟩ := by
    rw [unitNdash1, dg1InvNdash1, i1, h11, h12, h1, h2, hinv]; ext <;> simp [V3.cross]; field_simp
  have hu2 : twoPeriodTorus.unitNdash2 0 (1 / 2) = ⟨0, 0, -(2 * π)⟩ := by
    rw [unitNdash2, dg1InvNdash2, i2, h12, h22, h1, h2, hinv]; ext <;> simp [V3.cross]; field_simp
  have hg1 : twoPeriodTorus.grad1 0 (1 / 2) = ⟨0, 1 / (2 * π), 0⟩ := by
    rw [grad1, hsq, hN, h2]; ext <;> simp [V3.cross]; field_simp; norm_num
  have hg2 : twoPeriodTorus.grad2 0 (1 / 2) = ⟨0, 0, -(1 / (2 * π))⟩ := by
    rw [grad2, hsq, hN, h1]; ext <;> simp [V3.cross]; field_simp; norm_num
  have hdiv : twoPeriodTorus.divN 0 (1 / 2) = 0 := by
    rw [divN, hg1, hg2, hu1, hu2]; simp [V3.dot]
  refine ⟨hn, hu, fun z => ?_, fun z => ?_⟩
  · simp only [forceSingle, divPi, nDotGradN, hu, hK, hK1, hK2, hg1, hg2, hdiv, hu1, hu2]
    ext <;> simp [M3.act, M3.scale, M3.add, M3.sub, M3.outer, V3.dot]
    field_simp
  · simp only [forceDouble, hu, hK]
    ext <;> simp [M3.act, M3.scale, M3.sub, M3.outer]
    field_simp

/-- The problem with two toroidal and two poloidal grid points on the whole winding surface, evaluated on the first field period. -/
noncomputable def twoPeriodProblem : FieldProblem where
  cp := twoPeriodTorus
  wPhis := linspace0 1 (2 * 1)
  wThetas := linspace0 1 2
  ePhis := (linspace0 1 (2 * 1)).take 1
  eThetas := linspace0 1 2
  plasma := ⟨twoPeriodTorus.surf, [2, 1 / 2, 1 / 2], [0], [0]⟩
  bPlasma := []

theorem twoPeriod_first : FirstPeriod twoPeriodProblem 1 := ⟨by decide, rfl, rfl, rfl⟩

/-- The Lorentz force which all other grid points exert on the current at the point `i`, `j`: the integrand of C87 with the current at that
point, summed as vectors, and only then given by its components in the frame of that point. -/
noncomputable def lorentzForce (Q : FieldProblem) (c : List ℝ) (i j : ℕ) (comp : V3 → ℝ) : ℝ :=
  ∑ p ∈ Finset.range Q.wPhis.length, ∑ t ∈ Finset.range Q.wThetas.length,
    if p = i ∧ t = j then 0 else comp (projectCylindrical (Q.source i j)
      (Q.windingDa p t • forceIntegrand Q.cp c (Q.source i j) (Q.sourceK c i j) (Q.wPhis.getD p 0) (Q.wThetas.getD t 0)))

theorem rotZ_pi (v : V3) : rotZ (2 * π * ((1 : ℤ) : ℝ) / ((2 : ℕ) : ℝ)) v = ⟨-v.x, -v.y, v.z⟩ := by
  have : 2 * π * ((1 : ℤ) : ℝ) / ((2 : ℕ) : ℝ) = π := by push_cast; ring
  rw [this]
  ext <;> simp [rotZ]

/-- The opposite field period. -/
theorem twoPeriod_opposite (t : ℝ) : twoPeriodTorus.surf.gamma twoPeriodTorus.wdofs (1 / 2) t =
      ⟨-(twoPeriodTorus.surf.gamma twoPeriodTorus.wdofs 0 t).x, -(twoPeriodTorus.surf.gamma twoPeriodTorus.wdofs 0 t).y,
        (twoPeriodTorus.surf.gamma twoPeriodTorus.wdofs 0 t).z⟩ ∧
    (twoPeriodTorus.N (1 / 2) t).norm = (twoPeriodTorus.N 0 t).norm ∧
    twoPeriodTorus.unitN (1 / 2) t = ⟨-(twoPeriodTorus.unitN 0 t).x, -(twoPeriodTorus.unitN 0 t).y, (twoPeriodTorus.unitN 0 t).z⟩ ∧
    (∀ z, M3.act ⟨0, 0, z⟩ (twoPeriodTorus.forceSingle [0] (1 / 2) t) =
      let v := M3.act ⟨0, 0, z⟩ (twoPeriodTorus.forceSingle [0] 0 t); ⟨-v.x, -v.y, v.z⟩) ∧
    (∀ z, M3.act ⟨0, 0, z⟩ (twoPeriodTorus.forceDouble [0] (1 / 2) t) =
      let v := M3.act ⟨0, 0, z⟩ (twoPeriodTorus.forceDouble [0] 0 t); ⟨-v.x, -v.y, v.z⟩) := by
  have hn : twoPeriodTorus.surf.nfp ≠ 0 := by decide
  have e : (0 : ℝ) + ((1 : ℤ) : ℝ) / (twoPeriodTorus.surf.nfp : ℝ) = 1 / 2 := by
    simp [twoPeriodTorus]
  have hg := C39_field_period twoPeriodTorus.surf hn twoPeriodTorus.wdofs 0 0 0 t 1
  have hu := twoPeriodTorus.unitN_field_period hn 0 t 1
  have hN := congrArg V3.norm (twoPeriodTorus.N_field_period hn 0 t 1)
  have hf := fun z => twoPeriodTorus.force_tensors_field_period hn [0] (phi := 0) (theta := t) 1 (twoPeriod_regular 0 t) ⟨0, 0, z⟩
  rw [e] at hg hu hN
  simp only [e] at hf
  rw [rotZ_norm] at hN
  rw [show twoPeriodTorus.surf.nfp = 2 from rfl, rotZ_pi] at hg hu
  simp only [show twoPeriodTorus.surf.nfp = 2 from rfl, rotZ_pi, neg_zero] at hf
  exact ⟨hg, hN, hu, fun z => (hf z).1, fun z => (hf z).2⟩

theorem twoPeriod_grid : twoPeriodProblem.wPhis = [0, 1 / 2] ∧ twoPeriodProblem.wThetas = [0, 1 / 2] := by
  constructor <;> simp [twoPeriodProblem, linspace0, List.range_succ]

theorem integrand_value {P : CpParams} {c : List ℝ} {y k : V3} {phi theta g n a b d : ℝ} (hy : y = ⟨3, 0, 0⟩)
    (hg : P.surf.gamma P.wdofs phi theta = ⟨g, 0, 0⟩) (hd : 3 - g = d) (hpos : 0 < d) (hn : P.unitN phi theta = ⟨n, 0, 0⟩)
    (ha : M3.act k (P.forceSingle c phi theta) = ⟨a, 0, 0⟩) (hb : M3.act k (P.forceDouble c phi theta) = ⟨b, 0, 0⟩) :
    forceIntegrand P c y k phi theta = ⟨a / d + n * b / d ^ 2, 0, 0⟩ := by
  have hv : y - P.surf.gamma P.wdofs phi theta = ⟨d, 0, 0⟩ := by
    rw [hy, hg, ← hd]; ext <;> simp
  have hnorm : (⟨d, 0, 0⟩ : V3).norm = d := norm_of_sq hpos.le (by simp [V3.normSq])
  simp only [forceIntegrand, hv, hnorm, hn, ha, hb]
  ext <;> simp [V3.dot]
  field_simp

/-- The integrands at the three other grid points. -/
theorem twoPeriod_integrands (z : ℝ) :
    forceIntegrand twoPeriodTorus [0] ⟨3, 0, 0⟩ ⟨0, 0, z⟩ 0 (1 / 2) = ⟨3 / 4 * (1e-7 * z * (5 / (2 * π))), 0, 0⟩ ∧
    forceIntegrand twoPeriodTorus [0] ⟨3, 0, 0⟩ ⟨0, 0, z⟩ (1 / 2) 0 = ⟨1 / 36 * (1e-7 * z * (5 / (6 * π))), 0, 0⟩ ∧
    forceIntegrand twoPeriodTorus [0] ⟨3, 0, 0⟩ ⟨0, 0, z⟩ (1 / 2) (1 / 2) = ⟨-(3 / 16) * (1e-7 * z * (5 / (2 * π))), 0, 0⟩ := by
  obtain ⟨-, -, -, -, -, g0⟩ := twoPeriod_derivs
  obtain ⟨-, -, -, -, -, g1⟩ := twoPeriod_derivs'
  obtain ⟨-, u0, -, s0, d0⟩ := twoPeriod_outside
  obtain ⟨-, u1, s1, d1⟩ := twoPeriod_inside
  obtain ⟨og0, -, ou0, os0, od0⟩ := twoPeriod_opposite 0
  obtain ⟨og1, -, ou1, os1, od1⟩ := twoPeriod_opposite (1 / 2)
  simp only [g0, u0, s0, d0, neg_zero, neg_neg] at og0 ou0 os0 od0
  simp only [g1, u1, s1, d1, neg_zero, neg_neg] at og1 ou1 os1 od1
  have hpi := pi_ne_zero
  refine ⟨?_, ?_, ?_⟩
  · rw [integrand_value (d := 2) rfl g1 (by norm_num) (by norm_num) u1 (s1 z) (d1 z)]
    ext <;> simp; ring
  · rw [integrand_value (d := 6) rfl og0 (by norm_num) (by norm_num) ou0 (os0 z) (od0 z)]
    ext <;> simp; ring
  · rw [integrand_value (d := 4) rfl og1 (by norm_num) (by norm_num) ou1 (os1 z) (od1 z)]
    ext <;> simp; ring

/-- **C145, the force that the code reports is not the force.** On a circular torus with a purely poloidal current and a grid of two by two
points, the radial force at the outermost point is `2125e-7 / 1728`; the code reports `3275e-7 / 1728`, 54 per cent more. The two sources
of the opposite field period are entered with the opposite sign, because their contribution is given in the frame of the source. -/
theorem C145_force_frame_violated_partial :
    (twoPeriodProblem.forceAt [0] 0 0).x = 3275e-7 / 1728 ∧ lorentzForce twoPeriodProblem [0] 0 0 V3.x = 2125e-7 / 1728 := by
  obtain ⟨-, -, -, -, -, g0⟩ := twoPeriod_derivs
  obtain ⟨-, -, -, -, -, g1⟩ := twoPeriod_derivs'
  obtain ⟨n0, -, k0, -, -⟩ := twoPeriod_outside
  obtain ⟨n1, -, -, -⟩ := twoPeriod_inside
  obtain ⟨og0, on0, -, -, -⟩ := twoPeriod_opposite 0
  obtain ⟨og1, on1, -, -, -⟩ := twoPeriod_opposite (1 / 2)
  obtain ⟨gp, gt⟩ := twoPeriod_grid
  obtain ⟨f1, f2, f3⟩ := twoPeriod_integrands (5 / (6 * π))
  rw [n0] at on0
  rw [n1] at on1
  simp only [g0, neg_zero] at og0
  simp only [g1, neg_zero] at og1
  have hcp : twoPeriodProblem.cp = twoPeriodTorus := rfl
  have hpi := pi_ne_zero
  have da : ∀ p t, twoPeriodProblem.windingDa p t =
      1 / 4 * (twoPeriodTorus.N (([0, 1 / 2] : List ℝ).getD p 0) (([0, 1 / 2] : List ℝ).getD t 0)).norm := by
    intro p t
    rw [FieldProblem.windingDa, gp, gt]
    show gridStep _ * gridStep _ * (twoPeriodTorus.N _ _).norm = _
    simp only [gridStep]
    norm_num
  have s00 : twoPeriodProblem.source 0 0 = ⟨3, 0, 0⟩ := by rw [FieldProblem.source, gp, gt]; exact g0
  have s01 : twoPeriodProblem.source 0 1 = ⟨1, 0, 0⟩ := by rw [FieldProblem.source, gp, gt]; exact g1
  have s10 : twoPeriodProblem.source 1 0 = ⟨-3, 0, 0⟩ := by rw [FieldProblem.source, gp, gt]; exact og0
  have s11 : twoPeriodProblem.source 1 1 = ⟨-1, 0, 0⟩ := by rw [FieldProblem.source, gp, gt]; exact og1
  have sk : twoPeriodProblem.sourceK [0] 0 0 = ⟨0, 0, 5 / (6 * π)⟩ := by rw [FieldProblem.sourceK, gp, gt]; exact k0
  have m3 : (⟨3, 0, 0⟩ : V3).norm = 3 := norm_of_sq (by norm_num) (by simp [V3.normSq])
  have m3' : (⟨-3, 0, 0⟩ : V3).norm = 3 := norm_of_sq (by norm_num) (by simp [V3.normSq])
  have m1 : (⟨1, 0, 0⟩ : V3).norm = 1 := norm_of_sq (by norm_num) (by simp [V3.normSq])
  have m1' : (⟨-1, 0, 0⟩ : V3).norm = 1 := norm_of_sq (by norm_num) (by simp [V3.normSq])
  have pc : ∀ (r z : ℝ), projectCylindrical ⟨r, 0, 0⟩ ⟨0, 0, z⟩ = ⟨0, 0, z⟩ := by
    intro r z
    ext <;> simp [projectCylindrical, projectCoord, rUnit, phiUnit, zUnit, V3.dot, V3.cross]
  have fv : ∀ (r z : ℝ), frameVector ⟨r, 0, 0⟩ ⟨0, 0, z⟩ = ⟨0, 0, z⟩ := by
    intro r z
    ext <;> simp [frameVector, rUnit, phiUnit, zUnit, V3.cross]
  constructor
  · rw [C145_force_of_a_problem twoPeriod_first twoPeriod_regular [0] (by norm_num) (by rw [gt]; simp) (Or.inl rfl)]
    simp only [gp, gt, List.length_cons, List.length_nil, zero_add, Nat.reduceAdd, Finset.sum_range_succ, Finset.sum_range_zero,
      forceContribution, s00, s01, s10, s11, sk, pc, fv, da, hcp]
    simp only [List.getD_cons_zero, List.getD_cons_succ, f1, f2, f3, n1, on0, on1, projectCylindrical, projectCoord, rUnit, phiUnit, m3',
      m1, m1', V3.dot, V3.smul_x]
    norm_num
    field_simp
    norm_num
  · simp only [lorentzForce, gp, gt, List.length_cons, List.length_nil, zero_add, Nat.reduceAdd, Finset.sum_range_succ,
      Finset.sum_range_zero, s00, sk, da, hcp]
    simp only [List.getD_cons_zero, List.getD_cons_succ, f1, f2, f3, n1, on0, on1, projectCylindrical, projectCoord, rUnit, phiUnit, m3,
      V3.dot, V3.smul_x, V3.smul_y, V3.smul_z]
    norm_num
    field_simp
    norm_num

end Verif
