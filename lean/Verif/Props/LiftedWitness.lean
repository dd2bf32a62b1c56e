import Verif.Props.Lifted
import Verif.Props.ForceWitness

/-!
# C170: the cylindrical components depend on the height
-/

namespace Verif

open CpParams Real

/-- A circular torus with major radius 2 and minor radius 1, described without stellarator symmetry, and a net poloidal current. -/
noncomputable def freeTorus : FieldProblem where
  cp := { surf := ⟨1, false, 1, 0⟩, wdofs := [2, 1, 0, 0, 0, 1], G := 5, I := 0, mpol := 1, ntor := 0, stellsym := true }
  wPhis := [0, 1 / 2]
  wThetas := [0, 1 / 2]
  ePhis := [0]
  eThetas := [0]
  plasma := ⟨⟨1, false, 1, 0⟩, [2, 1 / 2, 0, 0, 0, 1 / 2], [0], [0]⟩
  bPlasma := [0]

theorem freeTorus_movable : freeTorus.Movable := ⟨rfl, rfl, rfl, rfl⟩

theorem freeTorus_derivs : freeTorus.cp.dg1 0 0 = ⟨0, 6 * π, 0⟩ ∧ freeTorus.cp.dg2 0 0 = ⟨0, 0, 2 * π⟩ ∧
    freeTorus.cp.dg12 0 0 = ⟨0, 0, 0⟩ ∧
    freeTorus.cp.dg22 0 0 = ⟨-(4 * π ^ 2), 0, 0⟩ ∧ freeTorus.cp.surf.gamma freeTorus.cp.wdofs 0 0 = ⟨3, 0, 0⟩ := by
  refine ⟨?_, ?_, ?_, ?_, ?_⟩ <;>
  · simp only [dg1, dg2, dg12, dg22, SurfaceShape.gamma]
    rw [SurfaceShape.gammadash_eq]
    simp only [freeTorus, SurfaceShape.leibniz, Finset.Nat.antidiagonal_succ, Finset.Nat.antidiagonal_zero]
    simp [SurfaceShape.rDash, SurfaceShape.zDash, SurfaceShape.rOperatorPadded, SurfaceShape.zOperatorPadded,
      SurfaceShape.rOperator, SurfaceShape.zOperator, SurfaceShape.cmn, SurfaceShape.smn, surfMc, surfNc, surfMs, surfNs,
      repeatEach, tile, arange, SurfaceShape.applyRow, cEntry, sEntry, derivFactor, modeAngle, cosD, sinD]
    try ring_nf

theorem freeTorus_KK : freeTorus.cp.KdotGradK [0] 0 0 = ⟨-(25 / (36 * π ^ 2)), 0, 0⟩ := by
  obtain ⟨h1, h2, h12, h22, -⟩ := freeTorus_derivs
  have hN : freeTorus.cp.N 0 0 = ⟨12 * π ^ 2, 0, 0⟩ := by
    rw [N, h1, h2]; ext <;> simp [V3.cross]; ring
  have hsq : (freeTorus.cp.N 0 0).normSq = (12 * π ^ 2) ^ 2 := by rw [hN]; simp [V3.normSq]
  have hn : (freeTorus.cp.N 0 0).norm = 12 * π ^ 2 := norm_of_sq (by positivity) hsq
  have hpi := pi_ne_zero
  have i2 : freeTorus.cp.invNdash2 0 0 = 0 := by
    rw [invNdash2, normaldash2, hN, h1, h2, h12, h22]; simp [V3.dot, V3.cross]
  have hinv : freeTorus.cp.invN 0 0 = 1 / (12 * π ^ 2) := by rw [invN, hn]
  have hK2 : freeTorus.cp.Kdash2 [0] 0 0 = ⟨-(5 / 3), 0, 0⟩ := by
    rw [Kdash2, appV_zero, Kdash2Const, dg2InvNdash2, dg1InvNdash2, i2, h12, h22, hinv]; ext <;> simp [freeTorus]; field_simp; norm_num
  rw [KdotGradK, hinv, hK2, app_zero, app_zero]
  ext <;> simp [freeTorus]
  field_simp
  norm_num

theorem coefs_zero : coefs (phiOnly (.array [0])) = [0] := by simp [coefs, phiOnly, Val.entries]

/-- **C170 is false for cylindrical components.** For a torus that stands 4 higher, `K_dot_grad_K_cyl` reports 3/5 of the radial component, and its
maximum norm is smaller. -/
theorem C170_cylindrical_false_partial :
    FieldProblem.fns.KdotGradKCyl freeTorus (phiOnly (.array [0])) = [-(25 / (36 * π ^ 2)), 0, 0] ∧
    FieldProblem.fns.KdotGradKCyl (freeTorus.lifted 4) (phiOnly (.array [0])) = [-(15 / (36 * π ^ 2)), 0, 0] ∧
    FieldProblem.fns.KdotGradK (freeTorus.lifted 4) (phiOnly (.array [0])) = FieldProblem.fns.KdotGradK freeTorus (phiOnly (.array [0])) := by
  have hpi := pi_ne_zero
  have hg := (freeTorus_derivs).2.2.2.2
  have hg' : (freeTorus.lifted 4).cp.surf.gamma (freeTorus.lifted 4).cp.wdofs 0 0 = ⟨3, 0, 4⟩ := by
    have := gamma_lift freeTorus_movable.winding freeTorus_movable.windingIn 4 0 0
    rw [hg] at this
    rw [show (⟨3, 0, 4⟩ : V3) = liftZ 4 ⟨3, 0, 0⟩ by ext <;> simp [liftZ]]
    exact this
  have hKK' : (freeTorus.lifted 4).cp.KdotGradK [0] 0 0 = ⟨-(25 / (36 * π ^ 2)), 0, 0⟩ := by
    rw [(lifted_derivatives freeTorus_movable 4).KdotGradK, freeTorus_KK]
  have n1 : (⟨3, 0, 0⟩ : V3).norm = 3 := norm_of_sq (by norm_num) (by simp [V3.normSq])
  have n2 : (⟨3, 0, 4⟩ : V3).norm = 5 := norm_of_sq (by norm_num) (by norm_num [V3.normSq])
  have eg : freeTorus.evalGrid = [(0, 0)] := by simp [FieldProblem.evalGrid, gridPoints, freeTorus]
  have eg' : (freeTorus.lifted 4).evalGrid = [(0, 0)] := eg
  refine ⟨?_, ?_, (C170_fields_partial freeTorus_movable 4 _).KdotGradK⟩
  · simp only [FieldProblem.fns, eg, List.flatMap_cons, List.flatMap_nil, coefs_zero, freeTorus_KK, hg]
    simp [projectCylindrical, projectCoord, rUnit, phiUnit, zUnit, V3.cross, V3.dot, V3.toList, n1]
  · simp only [FieldProblem.fns, eg', List.flatMap_cons, List.flatMap_nil, coefs_zero, hKK', hg']
    simp [projectCylindrical, projectCoord, rUnit, phiUnit, zUnit, V3.cross, V3.dot, V3.toList, n2]
    field_simp
    norm_num

/-- The maximum norm is different, too. -/
theorem C170_maximum_false_partial : ∃ q, shippedRegistry FieldProblem.fns [] "f_max_K_dot_grad_K_cyl" = some (.quantity q) ∧
    q.rawF freeTorus (phiOnly (.array [0])) = .scalar (25 / (36 * π ^ 2)) ∧
    q.rawF (freeTorus.lifted 4) (phiOnly (.array [0])) = .scalar (15 / (36 * π ^ 2)) := by
  obtain ⟨h1, h2, -⟩ := C170_cylindrical_false_partial
  have p1 : (0 : ℝ) ≤ 25 / (36 * π ^ 2) := by positivity
  have p2 : (0 : ℝ) ≤ 15 / (36 * π ^ 2) := by positivity
  refine ⟨_, rfl, ?_, ?_⟩
  · simp only [Quantity.generateLinf, arr, h1, Quantity.maxAbs, Val.entries, List.map_cons, List.map_nil, abs_neg, abs_of_nonneg p1, abs_zero, jmax]
    simp [p1]
  · simp only [Quantity.generateLinf, arr, h2, Quantity.maxAbs, Val.entries, List.map_cons, List.map_nil, abs_neg, abs_of_nonneg p2, abs_zero, jmax]
    simp [p2]

/-! ## Examples -/

/-- A call with given surfaces without stellarator symmetry. -/
example (opt : Optimizer ℝ) (others : List String) (h : ℝ) (g : Generator) :
    quadcoilCall opt realGrad (shippedRegistry FieldProblem.fns others)
      (CallArgs.lifted h { nfp := 1, stellsym := true, plasmaMpol := 1, plasmaNtor := 0, plasmaDofs := [2, 1 / 2, 0, 0, 0, 1 / 2], netPoloidal := 5,
                           plasmaStellsym := false, generator := g, windingDofs := some [2, 1, 0, 0, 0, 1], windingMpol := 1, windingNtor := 0,
                           windingStellsym := false }) =
    (quadcoilCall opt realGrad (shippedRegistry FieldProblem.fns others)
      { nfp := 1, stellsym := true, plasmaMpol := 1, plasmaNtor := 0, plasmaDofs := [2, 1 / 2, 0, 0, 0, 1 / 2], netPoloidal := 5,
        plasmaStellsym := false, generator := g, windingDofs := some [2, 1, 0, 0, 0, 1], windingMpol := 1, windingNtor := 0,
        windingStellsym := false }).map (Option.map (liftedOut h)) :=
  C170_call_partial opt realGrad others _ h ⟨rfl, rfl, rfl, rfl⟩ (fun d hd => by simp at hd) (.inr (.inr ⟨le_rfl, le_rfl⟩))
    (by simp [QuadcoilArgs.usedNames, OneOrMany.names, defaultArgs, CallArgs.metrics, cylNames])

/-- The device really moves. -/
example (h : ℝ) : (freeTorus.lifted h).cp.wdofs = [2, 1, 0, h, 0, 1] ∧ (freeTorus.lifted h).plasma.dofs = [2, 1 / 2, 0, h, 0, 1 / 2] := by
  simp [FieldProblem.lifted, freeTorus, SurfaceShape.liftDofs, SurfaceShape.numR]

end Verif
