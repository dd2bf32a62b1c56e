import Verif.Props.AxisymmetricSolution

/-!
# C182: the plasma field must not depend on the toroidal angle
-/

namespace Verif

open Real

/-- The torus with a coarse grid, no net currents and a plasma field still to be chosen. -/
noncomputable def tiltedTorus (b : List ℝ) : FieldProblem where
  cp := { circularTorus with ntor := 1, G := 0, I := 0 }
  wPhis := linspace0 1 2
  wThetas := linspace0 1 1
  ePhis := linspace0 1 2
  eThetas := linspace0 1 2
  plasma := ⟨circularTorus.surf, [2, 1 / 2, 1 / 2], linspace0 1 4, linspace0 1 2⟩
  bPlasma := b

/-- If the plasma field is opposite to the one of `e`, then `f_B` measures the distance to the field of `e`. -/
theorem fB_matched (Q : FieldProblem) (e c : List ℝ)
    (hb : Q.bPlasma = (gridPoints Q.plasma.phis Q.plasma.thetas).map fun q => -Q.bnWinding e q) :
    Q.fB c = ((gridPoints Q.plasma.phis Q.plasma.thetas).map fun q => (Q.bnWinding c q - Q.bnWinding e q) ^ 2 / 2 *
      (gridStep Q.plasma.phis * gridStep Q.plasma.thetas * (Q.plasma.shape.normal Q.plasma.dofs q.1 q.2).norm)).sum * Q.cp.nfp := by
  rw [FieldProblem.fB, GridSurface.integrate, GridSurface.da, FieldProblem.bnormal, hb]
  congr 2
  generalize gridPoints Q.plasma.phis Q.plasma.thetas = L
  induction L with
  | nil => rfl
  | cons q L ih =>
    simp only [List.map_cons, List.zip_cons_cons, List.zipWith_cons_cons, ih, ← sub_eq_add_neg]

theorem tiltedTorus_current (b : List ℝ) (x p : ℝ) :
    CpParams.app ((tiltedTorus b).cp.opPhi p 0) [x, 0, 0, 0] = -(2 * π) * cos (2 * π * p) * x ∧
      CpParams.app ((tiltedTorus b).cp.opTheta p 0) [x, 0, 0, 0] = 0 := by
  have hr : (tiltedTorus b).cp.rows = [(0, 1, 1), (1, -1, 1), (1, 0, 1), (1, 1, 1)] := by
    show bandTorus.cp.rows = _
    decide
  have hn : (tiltedTorus b).cp.nfp = 1 := rfl
  constructor
  · simp [CpParams.opPhi, CpParams.mulDiag, CpParams.trigDiff, CpParams.partialPhi, CpParams.app, hr, hn, sinOrCos, CpParams.angle]
    ring_nf
    exact .inl trivial
  · simp [CpParams.opTheta, CpParams.mulDiag, CpParams.trigDiff, CpParams.partialTheta, CpParams.app, hr, sinOrCos, CpParams.angle]

theorem tiltedTorus_normal (b : List ℝ) : (tiltedTorus b).plasma.shape.normal (tiltedTorus b).plasma.dofs (1 / 4) 0 = ⟨0, 5 * π ^ 2, 0⟩ := by
  have c4 : cos (2 * π * (1 / 4)) = 0 := by rw [show 2 * π * (1 / 4) = π / 2 by ring, cos_pi_div_two]
  have s4 : sin (2 * π * (1 / 4)) = 1 := by rw [show 2 * π * (1 / 4) = π / 2 by ring, sin_pi_div_two]
  have h1 : circularTorus.surf.gammadash [2, 1 / 2, 1 / 2] 1 0 (1 / 4) 0 = ⟨-(5 * π), 0, 0⟩ := by
    have e : (4⁻¹ : ℝ) * π * 2 = 2 * π * (1 / 4) := by ring
    rw [SurfaceShape.gammadash_eq]
    simp only [circularTorus, SurfaceShape.leibniz, Finset.Nat.antidiagonal_succ, Finset.Nat.antidiagonal_zero]
    simp [SurfaceShape.rDash, SurfaceShape.zDash, SurfaceShape.rOperatorPadded, SurfaceShape.zOperatorPadded,
      SurfaceShape.rOperator, SurfaceShape.zOperator, SurfaceShape.cmn, SurfaceShape.smn, surfMc, surfNc, surfMs, surfNs,
      repeatEach, tile, arange, SurfaceShape.applyRow, cEntry, sEntry, derivFactor, modeAngle, cosD, sinD]
    rw [e, c4, s4]
    exact ⟨by ring, .inr rfl⟩
  have h2 : circularTorus.surf.gammadash [2, 1 / 2, 1 / 2] 0 1 (1 / 4) 0 = ⟨0, 0, π⟩ := by
    rw [SurfaceShape.gammadash_eq]
    simp only [circularTorus, SurfaceShape.leibniz, Finset.Nat.antidiagonal_succ, Finset.Nat.antidiagonal_zero]
    simp [SurfaceShape.rDash, SurfaceShape.zDash, SurfaceShape.rOperatorPadded, SurfaceShape.zOperatorPadded,
      SurfaceShape.rOperator, SurfaceShape.zOperator, SurfaceShape.cmn, SurfaceShape.smn, surfMc, surfNc, surfMs, surfNs,
      repeatEach, tile, arange, SurfaceShape.applyRow, cEntry, sEntry, derivFactor, modeAngle, cosD, sinD]
  show V3.cross (circularTorus.surf.gammadash [2, 1 / 2, 1 / 2] 1 0 (1 / 4) 0) (circularTorus.surf.gammadash [2, 1 / 2, 1 / 2] 0 1 (1 / 4) 0) = _
  rw [h1, h2]
  ext <;> simp [V3.cross]
  ring

/-- The field of the first mode points out of the plasma at a quarter of the way round. -/
theorem tiltedTorus_bn (b : List ℝ) (x : ℝ) : ∃ s > 0, (tiltedTorus b).bnWinding [x, 0, 0, 0] (1 / 4, 0) = s * x := by
  have c4 : cos (2 * π * (1 / 4)) = 0 := by rw [show 2 * π * (1 / 4) = π / 2 by ring, cos_pi_div_two]
  have s4 : sin (2 * π * (1 / 4)) = 1 := by rw [show 2 * π * (1 / 4) = π / 2 by ring, sin_pi_div_two]
  have c2 : cos (2 * π * (1 / 2)) = -1 := by rw [show 2 * π * (1 / 2) = π by ring, cos_pi]
  have s2 : sin (2 * π * (1 / 2)) = 0 := by rw [show 2 * π * (1 / 2) = π by ring, sin_pi]
  have hg : gridPoints (tiltedTorus b).wPhis (tiltedTorus b).wThetas = [(0, 0), (1 / 2, 0)] := by
    simp [tiltedTorus, gridPoints, linspace0, List.range_succ]
  have hpt : (tiltedTorus b).plasma.shape.gamma (tiltedTorus b).plasma.dofs (1 / 4) 0 = ⟨0, 5 / 2, 0⟩ := by
    show circularTorus.surf.gamma [2, 1 / 2, 1 / 2] (1 / 4) 0 = _
    rw [torus_gamma, c4, s4]
    ext <;> norm_num
  have hJ : ∀ p, ((tiltedTorus b).cp.surf.normal (tiltedTorus b).cp.wdofs p 0).norm • (tiltedTorus b).cp.K [x, 0, 0, 0] p 0 =
      (⟨0, 0, -(4 * π ^ 2) * cos (2 * π * p) * x⟩ : V3) := by
    intro p
    have hne : ((tiltedTorus b).cp.N p 0).norm ≠ 0 := ((V3.norm_pos_iff _).2 (circularTorus_regular p 0).1).ne'
    have e : (tiltedTorus b).cp.surf.normal (tiltedTorus b).cp.wdofs p 0 = (tiltedTorus b).cp.N p 0 := rfl
    have d2 : (tiltedTorus b).cp.dg2 p 0 = ⟨0, 0, 2 * π⟩ := by
      refine (circularTorus_tangents p 0).2.trans ?_
      ext <;> simp
    have hG : (tiltedTorus b).cp.G = 0 := rfl
    have hI : (tiltedTorus b).cp.I = 0 := rfl
    rw [CpParams.K_eq, e, (tiltedTorus_current b x p).1, (tiltedTorus_current b x p).2, hG, hI, d2, CpParams.invN]
    ext <;> simp
    field_simp
    ring
  have hterm : ∀ p, (tiltedTorus b).bTerm [x, 0, 0, 0] ⟨0, 5 / 2, 0⟩ (p, 0) =
      (1 / √((⟨0, 5 / 2, 0⟩ : V3) - circularTorus.surf.gamma [2, 1, 1] p 0).normSq) ^ 3 •
        V3.cross ⟨0, 0, -(4 * π ^ 2) * cos (2 * π * p) * x⟩ (⟨0, 5 / 2, 0⟩ - circularTorus.surf.gamma [2, 1, 1] p 0) := by
    intro p
    rw [← hJ p]
    simp only [FieldProblem.bTerm]
    congr 1
    ext <;> simp [V3.cross] <;> ring_nf <;> rfl
  have g0 : circularTorus.surf.gamma [2, 1, 1] 0 0 = ⟨3, 0, 0⟩ := by
    rw [torus_gamma]
    ext <;> norm_num
  have g1 : circularTorus.surf.gamma [2, 1, 1] (1 / 2) 0 = ⟨-3, 0, 0⟩ := by
    rw [torus_gamma, c2, s2]
    ext <;> norm_num
  have n0 : ((⟨0, 5 / 2, 0⟩ : V3) - ⟨3, 0, 0⟩).normSq = 61 / 4 := by norm_num [V3.normSq]
  have n1 : ((⟨0, 5 / 2, 0⟩ : V3) - ⟨-3, 0, 0⟩).normSq = 61 / 4 := by norm_num [V3.normSq]
  have hN : (0 : ℝ) < (⟨0, 5 * π ^ 2, 0⟩ : V3).norm := by
    refine (V3.norm_pos_iff _).2 fun h => ?_
    have := congrArg V3.y h
    simp [pi_ne_zero] at this
  refine ⟨1 / (⟨0, 5 * π ^ 2, 0⟩ : V3).norm * (5 * π ^ 2) * ((1e-7 : ℝ) / 2 * ((1 / √(61 / 4)) ^ 3 * (24 * π ^ 2))), by positivity, ?_⟩
  have l1 : (tiltedTorus b).wPhis.length = 2 := linspace0_length _ _
  have l2 : (tiltedTorus b).wThetas.length = 1 := linspace0_length _ _
  rw [FieldProblem.bnWinding, FieldProblem.windingB, FieldProblem.computeB, SurfaceShape.unitnormal]
  simp only [hpt, tiltedTorus_normal, hg, l1, l2, List.map_cons, List.map_nil, hterm, g0, g1, n0, n1, c2]
  simp [V3.dot, vsum, V3.cross]
  ring


/-- **C182 (the hypothesis on the plasma field is needed).** With the surfaces and grids of an axisymmetric device, but a plasma field that depends
on the toroidal angle, leaving out the toroidal modes can increase `f_B`. -/
theorem C182_field_needed : ∃ (b : List ℝ) (c : List ℝ), b.length = (gridPoints (tiltedTorus b).plasma.phis (tiltedTorus b).plasma.thetas).length ∧
    c.length = (cpNdofs (tiltedTorus b).cp.stellsym (tiltedTorus b).cp.mpol (tiltedTorus b).cp.ntor).1 ∧
    (tiltedTorus b).fB c < (tiltedTorus b).fB (axisymmetricPart (tiltedTorus b).cp c) := by
  set L := gridPoints (linspace0 1 4) (linspace0 1 2)
  set b := L.map fun q => -(tiltedTorus []).bnWinding [1, 0, 0, 0] q with hb
  have hb' : (tiltedTorus b).bPlasma = (gridPoints (tiltedTorus b).plasma.phis (tiltedTorus b).plasma.thetas).map
      fun q => -(tiltedTorus b).bnWinding [1, 0, 0, 0] q := hb
  have hpart : axisymmetricPart (tiltedTorus b).cp [1, 0, 0, 0] = [0, 0, 0, 0] := by
    have hr : (tiltedTorus b).cp.rows = [(0, 1, 1), (1, -1, 1), (1, 0, 1), (1, 1, 1)] := by
      show bandTorus.cp.rows = _
      decide
    simp [axisymmetricPart, hr]
  refine ⟨b, [1, 0, 0, 0], by rw [hb, List.length_map]; rfl, rfl, ?_⟩
  rw [hpart, fB_matched _ [1, 0, 0, 0] _ hb', fB_matched _ [1, 0, 0, 0] _ hb']
  have hz : ((gridPoints (tiltedTorus b).plasma.phis (tiltedTorus b).plasma.thetas).map fun q =>
      ((tiltedTorus b).bnWinding [1, 0, 0, 0] q - (tiltedTorus b).bnWinding [1, 0, 0, 0] q) ^ 2 / 2 *
        (gridStep (tiltedTorus b).plasma.phis * gridStep (tiltedTorus b).plasma.thetas *
          ((tiltedTorus b).plasma.shape.normal (tiltedTorus b).plasma.dofs q.1 q.2).norm)).sum = 0 := by simp
  rw [hz, zero_mul]
  have hstep : 0 < gridStep (tiltedTorus b).plasma.phis * gridStep (tiltedTorus b).plasma.thetas := by
    simp only [tiltedTorus, gridStep_linspace0 _ _ (by norm_num : 2 ≤ 4), gridStep_linspace0 _ _ (le_refl 2)]
    norm_num
  have hmem : ((1 / 4 : ℝ), (0 : ℝ)) ∈ gridPoints (tiltedTorus b).plasma.phis (tiltedTorus b).plasma.thetas := by
    simp [tiltedTorus, gridPoints, linspace0, List.range_succ]
  obtain ⟨s, hs, e1⟩ := tiltedTorus_bn b 1
  obtain ⟨s', hs', e0⟩ := tiltedTorus_bn b 0
  have hn : (0 : ℝ) < ((tiltedTorus b).plasma.shape.normal (tiltedTorus b).plasma.dofs (1 / 4) 0).norm :=
    (V3.norm_pos_iff _).2 (torus_normal 2 (1 / 2) (1 / 4) 0 (by norm_num) (by norm_num))
  have hf : (tiltedTorus b).cp.nfp = 1 := rfl
  rw [hf, Nat.cast_one, mul_one]
  refine lt_of_lt_of_le ?_ (List.single_le_sum ?_ _ (List.mem_map_of_mem hmem))
  · rw [e0, e1, mul_zero, mul_one, zero_sub, neg_sq]
    positivity
  · intro y hy
    obtain ⟨q, -, rfl⟩ := List.mem_map.1 hy
    exact mul_nonneg (by positivity) (mul_nonneg hstep.le (Real.sqrt_nonneg _))

/-- All the other conditions hold. -/
example (b : List ℝ) (f : ℝ → ℝ) (hb : b = (gridPoints (linspace0 1 4) (linspace0 1 2)).map fun q => f q.2) :
    IsAxisymmetricData (tiltedTorus b) 2 where
  nfp := one_ne_zero
  winding := torus_axisymmetric 2 1
  plasma := torus_axisymmetric 2 (1 / 2)
  same_nfp := rfl
  winding_grid := ⟨1, one_ne_zero, rfl⟩
  eval_grid := ⟨1, one_ne_zero, by simp [tiltedTorus, circularTorus]⟩
  plasma_grid := ⟨2, two_ne_zero, by simp [tiltedTorus, circularTorus]⟩
  plasma_field := ⟨f, hb⟩

end Verif
