import Verif.Props.AxisymmetricSolution
import Verif.Props.NetCurrentBound

/-!
# C182, C184: too few evaluation points
-/

namespace Verif

open Real

/-- The torus with toroidal modes up to 2 and two toroidal evaluation points. -/
noncomputable def coarseTorus : FieldProblem where
  cp := { circularTorus with ntor := 2, I := 0 }
  wPhis := linspace0 1 2
  wThetas := linspace0 1 2
  ePhis := linspace0 1 2
  eThetas := linspace0 1 2
  plasma := ⟨circularTorus.surf, [2, 1 / 2, 1 / 2], linspace0 1 2, linspace0 1 2⟩
  bPlasma := List.replicate 4 0

theorem coarseTorus_rows :
    coarseTorus.cp.rows = [(0, 1, 1), (0, 2, 1), (1, -2, 1), (1, -1, 1), (1, 0, 1), (1, 1, 1), (1, 2, 1)] := by
  show ({ circularTorus with ntor := 2 } : CpParams).rows = _
  decide

theorem coarseTorus_op (x p t : ℝ) : CpParams.app (coarseTorus.cp.opPhi p t) [0, x, 0, 0, 0, 0, 0] = -(4 * π) * cos (4 * π * p) * x ∧
    CpParams.app (coarseTorus.cp.opTheta p t) [0, x, 0, 0, 0, 0, 0] = 0 := by
  have hn : coarseTorus.cp.nfp = 1 := rfl
  have e : 2 * (π * 2 * p) = 4 * π * p := by ring
  constructor
  · simp [CpParams.opPhi, CpParams.mulDiag, CpParams.trigDiff, CpParams.partialPhi, CpParams.app, coarseTorus_rows, hn, sinOrCos, CpParams.angle, e]
    ring_nf
    exact .inl trivial
  · simp [CpParams.opTheta, CpParams.mulDiag, CpParams.trigDiff, CpParams.partialTheta, CpParams.app, coarseTorus_rows, sinOrCos, CpParams.angle]

/-- **C184 (the resolution is needed).** With two toroidal evaluation points and `ntor = 2`, a potential cancels the net poloidal current
at all evaluation points: `f_K` is zero, although the net current is not. -/
theorem C184_resolution_needed : coarseTorus.cp.G = 5 ∧
    (∀ q ∈ gridPoints coarseTorus.ePhis coarseTorus.eThetas, coarseTorus.cp.K [0, 5 / (4 * π), 0, 0, 0, 0, 0] q.1 q.2 = 0) ∧
    coarseTorus.fK [0, 5 / (4 * π), 0, 0, 0, 0, 0] = 0 := by
  have hK : ∀ q ∈ gridPoints coarseTorus.ePhis coarseTorus.eThetas, coarseTorus.cp.K [0, 5 / (4 * π), 0, 0, 0, 0, 0] q.1 q.2 = 0 := by
    intro q hq
    have hcos : cos (4 * π * q.1) = 1 := by
      have : q.1 = 0 ∨ q.1 = 1 / 2 := by
        simp [coarseTorus, gridPoints, linspace0, List.range_succ] at hq
        rcases hq with rfl | rfl | rfl | rfl <;> simp
      rcases this with h | h
      · simp [h]
      · rw [h, show 4 * π * (1 / 2) = 2 * π by ring, cos_two_pi]
    have hG : coarseTorus.cp.G = 5 := rfl
    have hI : coarseTorus.cp.I = 0 := rfl
    have h0 : -(4 * π) * 1 * (5 / (4 * π)) + 5 = 0 := by
      have := pi_ne_zero
      field_simp
      ring
    rw [CpParams.K_eq, (coarseTorus_op _ _ _).1, (coarseTorus_op _ _ _).2, hcos, hG, hI, h0]
    ext <;> simp
  refine ⟨rfl, hK, ?_⟩
  rw [fK_eq]
  have : ((gridPoints coarseTorus.ePhis coarseTorus.eThetas).map fun q => coarseTorus.cp.K2 [0, 5 / (4 * π), 0, 0, 0, 0, 0] q.1 q.2 / 2) =
      (gridPoints coarseTorus.ePhis coarseTorus.eThetas).map fun _ => 0 := by
    refine List.map_congr_left fun q hq => ?_
    rw [CpParams.K2, hK q hq]
    simp [V3.normSq]
  rw [this]
  have hz : ∀ (L : List (ℝ × ℝ)) (D : List ℝ), (List.zipWith (· * ·) (L.map fun _ => (0 : ℝ)) D).sum = 0 := by
    intro L
    induction L with
    | nil => simp
    | cons _ L ih =>
      intro D
      cases D with
      | nil => simp
      | cons d D => simpa using ih D
  rw [hz, zero_mul]

/-- **C182 (the steps are needed).** With as many common steps as `ntor`, leaving out the toroidal modes can increase `f_B + w f_K`. -/
theorem C182_steps_needed : IsAxisymmetricData coarseTorus 2 ∧ coarseTorus.cp.ntor = 2 ∧ ∃ w > 0, ∃ c : List ℝ,
    c.length = (cpNdofs coarseTorus.cp.stellsym coarseTorus.cp.mpol coarseTorus.cp.ntor).1 ∧
      regObjective coarseTorus w c < regObjective coarseTorus w (axisymmetricPart coarseTorus.cp c) := by
  have hax : IsAxisymmetricData coarseTorus 2 :=
    { nfp := one_ne_zero
      winding := torus_axisymmetric 2 1
      plasma := torus_axisymmetric 2 (1 / 2)
      same_nfp := rfl
      winding_grid := ⟨1, one_ne_zero, rfl⟩
      eval_grid := ⟨1, one_ne_zero, by simp [coarseTorus, circularTorus]⟩
      plasma_grid := ⟨1, one_ne_zero, by simp [coarseTorus, circularTorus]⟩
      plasma_field := ⟨fun _ => 0, by simp [coarseTorus, gridPoints, linspace0, List.range_succ]⟩ }
  have hpart : axisymmetricPart coarseTorus.cp [0, 5 / (4 * π), 0, 0, 0, 0, 0] = [0, 0, 0, 0, 0, 0, 0] := by
    simp [axisymmetricPart, coarseTorus_rows]
  have hstep : 0 < gridStep coarseTorus.ePhis * gridStep coarseTorus.eThetas := by
    simp only [coarseTorus, gridStep_linspace0 _ _ (le_refl 2)]
    norm_num
  have hN : ∀ p t, 0 < (coarseTorus.cp.N p t).norm := fun p t => (V3.norm_pos_iff _).2 (circularTorus_regular p t).1
  have hpos : 0 < coarseTorus.fK [0, 0, 0, 0, 0, 0, 0] := by
    have hf : coarseTorus.cp.nfp = 1 := rfl
    rw [fK_eq, GridSurface.da, hf, Nat.cast_one, mul_one]
    have hg : gridPoints coarseTorus.evalSurface.phis coarseTorus.evalSurface.thetas = gridPoints coarseTorus.ePhis coarseTorus.eThetas := rfl
    rw [hg, List.zipWith_map, List.zipWith_self]
    have hmem : ((0 : ℝ), (0 : ℝ)) ∈ gridPoints coarseTorus.ePhis coarseTorus.eThetas := by
      simp [coarseTorus, gridPoints, linspace0, List.range_succ]
    have hK2 : 0 < coarseTorus.cp.K2 [0, 0, 0, 0, 0, 0, 0] 0 0 := by
      have hG : coarseTorus.cp.G = 5 := rfl
      have hI : coarseTorus.cp.I = 0 := rfl
      have d2 : coarseTorus.cp.dg2 0 0 = ⟨0, 0, 2 * π⟩ := circularTorus_dg2
      have h := hN 0 0
      rw [CpParams.K2, CpParams.K_eq, (coarseTorus_op 0 0 0).1, (coarseTorus_op 0 0 0).2, hG, hI, d2, V3.normSq_smul, CpParams.invN]
      refine mul_pos (by positivity) ?_
      simp [V3.normSq]
      positivity
    refine lt_of_lt_of_le ?_ (List.single_le_sum ?_ _ (List.mem_map_of_mem hmem))
    · exact mul_pos (by positivity) (mul_pos hstep (hN 0 0))
    · intro y hy
      obtain ⟨q, -, rfl⟩ := List.mem_map.1 hy
      exact mul_nonneg (div_nonneg (V3.normSq_nonneg _) (by norm_num)) (mul_nonneg hstep.le (Real.sqrt_nonneg _))
  set A := coarseTorus.fB [0, 5 / (4 * π), 0, 0, 0, 0, 0]
  set B := coarseTorus.fB [0, 0, 0, 0, 0, 0, 0] with hB
  refine ⟨hax, rfl, (|A - B| + 1) / coarseTorus.fK [0, 0, 0, 0, 0, 0, 0], by positivity, [0, 5 / (4 * π), 0, 0, 0, 0, 0], rfl, ?_⟩
  rw [hpart, regObjective, regObjective, C184_resolution_needed.2.2, mul_zero, add_zero, div_mul_cancel₀ _ hpos.ne', ← hB]
  have := le_abs_self (A - B)
  linarith

/-- The torus with poloidal modes up to 2 and two poloidal evaluation points. -/
noncomputable def coarseTheta : FieldProblem where
  cp := { circularTorus with mpol := 2, G := 0 }
  wPhis := linspace0 1 2
  wThetas := linspace0 1 2
  ePhis := linspace0 1 2
  eThetas := linspace0 1 2
  plasma := ⟨circularTorus.surf, [2, 1 / 2, 1 / 2], linspace0 1 2, linspace0 1 2⟩
  bPlasma := List.replicate 4 0

theorem coarseTheta_rows : coarseTheta.cp.rows = [(1, 0, 1), (2, 0, 1)] := by
  show ({ circularTorus with mpol := 2 } : CpParams).rows = _
  decide

theorem coarseTheta_op (x p t : ℝ) : CpParams.app (coarseTheta.cp.opPhi p t) [0, x] = 0 ∧
    CpParams.app (coarseTheta.cp.opTheta p t) [0, x] = 4 * π * cos (4 * π * t) * x := by
  have e : 2 * (π * 2 * t) = 4 * π * t := by ring
  constructor
  · simp [CpParams.opPhi, CpParams.mulDiag, CpParams.trigDiff, CpParams.partialPhi, CpParams.app, coarseTheta_rows, sinOrCos, CpParams.angle]
  · simp [CpParams.opTheta, CpParams.mulDiag, CpParams.trigDiff, CpParams.partialTheta, CpParams.app, coarseTheta_rows, sinOrCos, CpParams.angle, e]
    ring_nf
    exact .inl trivial

/-- **C184 (the poloidal resolution is needed).** With two poloidal evaluation points and `mpol = 2`, a potential cancels the net toroidal
current at all evaluation points, and the largest current density is zero. -/
theorem C184_resolution_needed_I (others : List String) (d : Dofs) (hd : coefs d = [0, -(7 / (4 * π))]) : coarseTheta.cp.I = 7 ∧
    (∀ q ∈ gridPoints coarseTheta.ePhis coarseTheta.eThetas, coarseTheta.cp.K (coefs d) q.1 q.2 = 0) ∧
    ∃ p ∈ coarseTheta.ePhis, √(quantityNumber others coarseTheta d "f_max_K2") * poloidalLoop coarseTheta p < |coarseTheta.cp.I| := by
  have hK : ∀ q ∈ gridPoints coarseTheta.ePhis coarseTheta.eThetas, coarseTheta.cp.K (coefs d) q.1 q.2 = 0 := by
    intro q hq
    have hcos : cos (4 * π * q.2) = 1 := by
      have : q.2 = 0 ∨ q.2 = 1 / 2 := by
        simp [coarseTheta, gridPoints, linspace0, List.range_succ] at hq
        rcases hq with rfl | rfl | rfl | rfl <;> simp
      rcases this with h | h
      · simp [h]
      · rw [h, show 4 * π * (1 / 2) = 2 * π by ring, cos_two_pi]
    have hG : coarseTheta.cp.G = 0 := rfl
    have hI : coarseTheta.cp.I = 7 := rfl
    have h0 : 4 * π * 1 * -(7 / (4 * π)) + 7 = 0 := by
      have := pi_ne_zero
      field_simp
      ring
    rw [hd, CpParams.K_eq, (coarseTheta_op _ _ _).1, (coarseTheta_op _ _ _).2, hcos, hG, hI, h0]
    ext <;> simp
  refine ⟨rfl, hK, 0, by simp [coarseTheta, linspace0, List.range_succ], ?_⟩
  have e2 : quantityNumber others coarseTheta d "f_max_K2" =
      Quantity.maxAbs (.array (coarseTheta.evalGrid.map fun q => coarseTheta.cp.K2 (coefs d) q.1 q.2)) := rfl
  have e3 : (coarseTheta.evalGrid.map fun q => coarseTheta.cp.K2 (coefs d) q.1 q.2) = [0, 0, 0, 0] := by
    have h : (coarseTheta.evalGrid.map fun q => coarseTheta.cp.K2 (coefs d) q.1 q.2) = coarseTheta.evalGrid.map fun _ => 0 := by
      refine List.map_congr_left fun q hq => ?_
      rw [CpParams.K2, hK q hq]
      simp [V3.normSq]
    have hg : coarseTheta.evalGrid = gridPoints (linspace0 1 2) (linspace0 1 2) := rfl
    rw [h, hg]
    simp [gridPoints, linspace0, List.range_succ]
  have hI : coarseTheta.cp.I = 7 := rfl
  have e4 : quantityNumber others coarseTheta d "f_max_K2" = 0 := by
    rw [e2, e3]
    simp [Quantity.maxAbs, Val.entries, jmax]
  rw [e4, Real.sqrt_zero, zero_mul, hI]
  norm_num

example := C184_resolution_needed_I [] (fun _ => .array [0, -(7 / (4 * π))]) rfl

end Verif
