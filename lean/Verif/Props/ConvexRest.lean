import Verif.Props.ForceConvex
import Verif.Props.PeriodForce

/-!
# C124: the L1 norm of the force and the components of the curvature are not convex
-/

namespace Verif

open CpParams Real

/-- The problem of `ForceConvex.lean` with a plasma field. -/
noncomputable def toroidalDevice : FieldProblem := { toroidalProblem with bPlasma := [0] }

/-- The same device described without field periods, with two toroidal points on the evaluation grid. -/
noncomputable def wholeToroidal : FieldProblem where
  cp := { toroidalTorus with surf := { nfp := 1, stellsym := true, mpol := 1, ntor := 0 } }
  wPhis := linspace0 1 2
  wThetas := linspace0 1 2
  ePhis := linspace0 1 2
  eThetas := linspace0 1 2
  plasma := ⟨{ nfp := 1, stellsym := true, mpol := 1, ntor := 0 }, [2, 1 / 2, 1 / 2], [0, 1 / 2], [0]⟩
  bPlasma := [0, 0]

theorem axisymmetric_nfp (a b c : ℝ) (n m : ℕ) (p t : ℝ) :
    (⟨n, true, 1, 0⟩ : SurfaceShape).gamma [a, b, c] p t = (⟨m, true, 1, 0⟩ : SurfaceShape).gamma [a, b, c] p t := by
  simp only [SurfaceShape.gamma]
  rw [SurfaceShape.gammadash_eq, SurfaceShape.gammadash_eq]
  simp only [SurfaceShape.leibniz, Finset.Nat.antidiagonal_succ, Finset.Nat.antidiagonal_zero]
  simp [SurfaceShape.rDash, SurfaceShape.zDash, SurfaceShape.rOperatorPadded, SurfaceShape.zOperatorPadded,
      SurfaceShape.rOperator, SurfaceShape.zOperator, SurfaceShape.cmn, SurfaceShape.smn, surfMc, surfNc, surfMs, surfNs,
      repeatEach, tile, arange, SurfaceShape.applyRow, cEntry, sEntry, derivFactor, modeAngle, cosD, sinD]

theorem wholeToroidal_same : SameDevice 2 toroidalDevice wholeToroidal where
  nfp := rfl
  nfp_ne := by decide
  plasma_nfp := rfl
  winding p t := axisymmetric_nfp _ _ _ _ _ p t
  plasma p t := axisymmetric_nfp _ _ _ _ _ p t
  uniform := ⟨1, by norm_num, rfl⟩
  wPhis := rfl
  wThetas := rfl
  ePhis := by
    simp [wholeToroidal, toroidalDevice, toroidalProblem, twoPeriodProblem, toroidalTorus, linspace0, shiftedCopies, List.range_succ]
  eThetas := rfl
  pPhis := by
    simp [wholeToroidal, toroidalDevice, toroidalProblem, twoPeriodProblem, toroidalTorus, shiftedCopies, List.range_succ]
  pThetas := rfl
  bPlasma_length := rfl
  bPlasma := rfl
  G := rfl
  I := rfl

theorem wholeToroidal_potential (c : List ℝ) : SamePotential toroidalDevice wholeToroidal c c := by
  intro p t
  have h1 : toroidalDevice.cp.rows = [(1, 0, 1)] := by decide
  have h2 : wholeToroidal.cp.rows = [(1, 0, 1)] := by decide
  rw [CpParams.Phi, CpParams.Phi, trig, trig, h1, h2]
  simp [angle, sinOrCos]

/-- The area elements of this grid. -/
theorem wholeToroidal_da : HasQp.da wholeToroidal = [3 * π ^ 2, π ^ 2, 3 * π ^ 2, π ^ 2] := by
  have hc := wholeToroidal_potential [0]
  have hn : ∀ (m : ℕ) (p t : ℝ), (wholeToroidal.cp.surf.normal wholeToroidal.cp.wdofs (p + m / 2) t).norm = (toroidalTorus.N p t).norm :=
    fun m p t => ((wholeToroidal_same.turned hc m).sameSource p t).normal
  have n00 := hn 0 0 0
  have n01 := hn 0 0 (1 / 2)
  have n10 := hn 1 0 0
  have n11 := hn 1 0 (1 / 2)
  simp only [Nat.cast_zero, Nat.cast_one, zero_div, zero_add] at n00 n01 n10 n11
  rw [(toroidal_outside 0).1] at n00 n10
  rw [(toroidal_inside 0).1] at n01 n11
  show wholeToroidal.evalSurface.da = _
  rw [GridSurface.da]
  show (gridPoints (linspace0 1 2) (linspace0 1 2)).map (fun q => gridStep (linspace0 1 2) * gridStep (linspace0 1 2) *
    (wholeToroidal.cp.surf.normal wholeToroidal.cp.wdofs q.1 q.2).norm) = _
  have g : linspace0 1 2 = [0, 1 / 2] := by simp [linspace0, List.range_succ]
  rw [g]
  simp only [gridPoints, List.flatMap_cons, List.flatMap_nil, List.map_cons, List.map_nil, List.append_nil, List.cons_append,
    List.nil_append, n00, n01, n10, n11, gridStep]
  norm_num
  refine ⟨?_, ?_, ?_, ?_⟩ <;> ring

/-- The value of `f_l1_force_cyl` on this grid. -/
theorem wholeToroidal_l1 (x : ℝ) : Quantity.l1Integral wholeToroidal
      ((FieldProblem.fns.forceCyl wholeToroidal (phiOnly (.array [x]))).map fun v => (v.map fun y => |y|).sum) =
    2 * π ^ 2 * (1e-7 * π ^ 2 / 48) * (3 * |(1 + x) * (47 * x - 7)| + |(1 - x) * (27 + 99 * x)|) := by
  have hk : (0 : ℝ) ≤ 1e-7 * π ^ 2 / 48 := by positivity
  have hf : FirstPeriod toroidalDevice 1 := ⟨by decide, rfl, rfl, rfl⟩
  have hc := wholeToroidal_potential (coefs (phiOnly (.array [x])))
  have hF := C155_force wholeToroidal_same hf toroidal_regular (d := phiOnly (.array [x])) (d' := phiOnly (.array [x])) hc
  have he : toroidalProblem.ePhis.length = 1 := by
    simp [toroidalProblem, twoPeriodProblem, linspace0]
  have ht : toroidalProblem.eThetas.length = 2 := by
    simp [toroidalProblem, twoPeriodProblem, linspace0]
  have h : FieldProblem.fns.forceCyl toroidalDevice (phiOnly (.array [x])) =
      [(toroidalProblem.forceAt [x] 0 0).toList, (toroidalProblem.forceAt [x] 0 1).toList] := by
    show FieldProblem.fns.forceCyl toroidalProblem (phiOnly (.array [x])) = _
    simp only [FieldProblem.fns, he, ht, coefs_phiOnly, List.range_succ, List.range_zero]
    rfl
  have e1 : -(1e-7 * π ^ 2 * ((1 + x) * (20 * (1 + x) - 27 * (1 - x)) / 48)) = -(1e-7 * π ^ 2 / 48 * ((1 + x) * (47 * x - 7))) := by ring
  have e2 : -(1e-7 * π ^ 2 * ((1 - x) * (63 * (1 + x) - 36 * (1 - x)) / 48)) = -(1e-7 * π ^ 2 / 48 * ((1 - x) * (27 + 99 * x))) := by ring
  rw [hF, h, (toroidal_force x).1, (toroidal_force x).2, e1, e2, Quantity.l1Integral, wholeToroidal_da, show HasQp.nfp wholeToroidal = 1 from Nat.cast_one]
  simp only [V3.toList, List.replicate_succ, List.replicate_zero, List.flatten_cons, List.flatten_nil, List.append_nil, List.cons_append,
    List.nil_append, List.map_cons, List.map_nil, abs_neg, abs_zero, List.sum_cons, List.sum_nil, List.zipWith_cons_cons, List.zipWith_nil_left]
  rw [abs_mul, abs_of_nonneg hk, abs_mul (1e-7 * π ^ 2 / 48), abs_of_nonneg hk]
  ring

/-- **C124.** The value of `f_l1_force_cyl` is not convex: at zero it is larger than the mean of its values at `[-1/8]` and `[1/8]`. -/
theorem C124_l1_force_violated_partial :
    ∃ q, (shipped FieldProblem.fns).lookup "f_l1_force_cyl" = some q ∧ ¬ EachEntry (ConvexOnVectors 1) (valuesOf q wholeToroidal) := by
  refine ⟨_, rfl, ?_⟩
  rintro ⟨fs, hfs, hconv⟩
  have hk : (0 : ℝ) < 2 * π ^ 2 * (1e-7 * π ^ 2 / 48) := by positivity
  have hv : ∀ x : ℝ, (fs.map fun f => f [x]) =
      [2 * π ^ 2 * (1e-7 * π ^ 2 / 48) * (3 * |(1 + x) * (47 * x - 7)| + |(1 - x) * (27 + 99 * x)|)] := by
    intro x
    rw [← hfs [x], valuesOf, call_phiOnly, ← wholeToroidal_l1]
    rfl
  obtain ⟨f, rfl⟩ : ∃ f, fs = [f] := by
    have := congrArg List.length (hv 0)
    exact List.length_eq_one_iff.1 (by simpa using this)
  have hf : ∀ x : ℝ, f [x] = 2 * π ^ 2 * (1e-7 * π ^ 2 / 48) * (3 * |(1 + x) * (47 * x - 7)| + |(1 - x) * (27 + 99 * x)|) := by
    intro x
    have := hv x
    simpa only [List.map_cons, List.map_nil, List.cons.injEq, and_true] using this
  have e : comb (1 / 2) (1 - 1 / 2) [-1 / 8] [1 / 8] = [(0 : ℝ)] := by
    simp [comb]
    norm_num
  have hc := hconv f (by simp) [-1 / 8] [1 / 8] rfl rfl (1 / 2) (by norm_num) (by norm_num)
  rw [e, hf, hf, hf] at hc
  norm_num [abs_of_nonneg, abs_of_neg] at hc
  nlinarith

/-- **C124.** The curvature itself is neither affine nor convex, in the coordinates of space and in cylindrical ones: the first entry is
the component of the curvature along the axis `x` at a point on the outside of a circular torus, and it is strictly concave. -/
theorem C124_curvature_components_violated_partial :
    ∀ name ∈ ["K_dot_grad_K", "K_dot_grad_K_cyl"], ∃ q, (shipped FieldProblem.fns).lookup name = some q ∧
      ¬ EachEntry (ConvexOnVectors 1) (valuesOf q poloidalTorus) := by
  have hpi := pi_pos
  have hcyl : ∀ x : ℝ, (projectCylindrical (poloidalTorus.cp.surf.gamma poloidalTorus.cp.wdofs 0 0) (poloidalTorus.cp.KdotGradK [x] 0 0)).x =
      -(25 + (2 * π * x) ^ 2 * 3) / (6 * π) ^ 2 := by
    intro x
    rw [poloidalTorus_curvature 0 0 1 (by norm_num) (by simp) (by simp)]
    norm_num
    ring_nf
  have hxyz : ∀ x : ℝ, (poloidalTorus.cp.KdotGradK [x] 0 0).x = -(25 + (2 * π * x) ^ 2 * 3) / (6 * π) ^ 2 := by
    intro x
    rw [← hcyl x, (poloidalTorus_geometry 0 0 1 (by norm_num) (by simp) (by simp)).1]
    have m3 : (⟨3, 0, 0⟩ : V3).norm = 3 := norm_of_sq (by norm_num) (by simp [V3.normSq])
    have e : (⟨(2 + 1) * cos (2 * π * 0), (2 + 1) * sin (2 * π * 0), 0⟩ : V3) = ⟨3, 0, 0⟩ := by
      ext <;> norm_num
    rw [e]
    simp [projectCylindrical, projectCoord, rUnit, V3.dot, m3]
  have hgrid : ∃ rest, poloidalTorus.evalGrid = (0, 0) :: rest := by
    simp only [poloidalTorus, torusProblem, FieldProblem.evalGrid, gridPoints, linspace0, List.range_succ, List.range_zero]
    simp
  obtain ⟨rest, hgrid⟩ := hgrid
  have key : ∀ q : Quantity FieldProblem, (∀ x : ℝ, ∃ r, valuesOf q poloidalTorus [x] = -(25 + (2 * π * x) ^ 2 * 3) / (6 * π) ^ 2 :: r) →
      ¬ EachEntry (ConvexOnVectors 1) (valuesOf q poloidalTorus) := by
    rintro q hq ⟨fs, hfs, hconv⟩
    cases fs with
    | nil =>
      obtain ⟨r, hr⟩ := hq 0
      rw [hfs] at hr
      simp at hr
    | cons f fs =>
      have hf : ∀ x : ℝ, f [x] = -(25 + (2 * π * x) ^ 2 * 3) / (6 * π) ^ 2 := by
        intro x
        obtain ⟨r, hr⟩ := hq x
        rw [hfs] at hr
        exact (List.cons.inj hr).1
      have e : comb (1 / 2) (1 - 1 / 2) [-1] [1] = [(0 : ℝ)] := by
        simp [comb]
        norm_num
      have hc := hconv f (by simp) [-1] [1] rfl rfl (1 / 2) (by norm_num) (by norm_num)
      rw [e, hf, hf, hf, ← mul_div_assoc, ← mul_div_assoc, ← add_div, div_le_div_iff_of_pos_right (by positivity)] at hc
      nlinarith
  intro name hname
  simp only [List.mem_cons, List.not_mem_nil, or_false] at hname
  rcases hname with rfl | rfl
  · refine ⟨_, rfl, key _ fun x => ?_⟩
    rw [valuesOf, call_phiOnly]
    simp only [Quantity.generateC2, arr, Val.entries, FieldProblem.fns, hgrid, List.flatMap_cons, coefs_phiOnly, V3.toList, List.cons_append,
      hxyz]
    exact ⟨_, rfl⟩
  · refine ⟨_, rfl, key _ fun x => ?_⟩
    rw [valuesOf, call_phiOnly]
    simp only [Quantity.generateC2, arr, Val.entries, FieldProblem.fns, hgrid, List.flatMap_cons, coefs_phiOnly, V3.toList, List.cons_append,
      hcyl]
    exact ⟨_, rfl⟩

end Verif
