import Verif.Model.Generate
import Verif.Lemmas.Scaling
import Verif.Spec.CallRescale
import Verif.Props.AxisymmetricOffset
import Verif.Props.CallUnits

/-!
# C153: the generated winding surface scales with the plasma
-/

namespace Verif

open Real

/-- The plasma in another unit of length. -/
def PlasmaGrid.scale (l : ℝ) (G : PlasmaGrid) : PlasmaGrid := { G with gamma := fun i j => l • G.gamma i j }

/-- A sample in another unit of length. -/
def FitPoint.scale (l : ℝ) (p : FitPoint) : FitPoint := { p with r := l * p.r, z := l * p.z }

/-! ## The fit -/

theorem fitRows_scale (S : SurfaceShape) (l : ℝ) (pts : List FitPoint) :
    S.fitRows (pts.map (FitPoint.scale l)) = (S.fitRows pts).map fun r => (r.1, l * r.2) := by
  simp only [SurfaceShape.fitRows, List.flatMap_map, List.map_flatMap]
  refine List.flatMap_congr fun p _ => ?_
  simp [FitPoint.scale, mul_assoc]

open Matrix in
/-- The normal equations with sums over the rows. -/
theorem isFit_iff_sums (S : SurfaceShape) (lam : ℝ) (pts : List FitPoint) (x : Fin S.fitSize → ℝ) :
    S.IsFit lam pts x ↔ ∀ k : Fin S.fitSize,
      ∑ m : Fin S.fitSize, (((S.fitRows pts).map fun r => r.1.getD k 0 * r.1.getD m 0).sum + S.fitReg lam k m) * x m =
        ((S.fitRows pts).map fun r => r.1.getD k 0 * r.2).sum := by
  have e1 : ∀ k m, ((S.fitMatrix pts)ᵀ * S.fitMatrix pts) k m =
      ((S.fitRows pts).map fun r => r.1.getD k 0 * r.1.getD m 0).sum := fun k m => by
    rw [Matrix.mul_apply, ← Fin.sum_univ_fun_getElem]
    rfl
  have e2 : ∀ k, ((S.fitMatrix pts)ᵀ *ᵥ S.fitRhs pts) k = ((S.fitRows pts).map fun r => r.1.getD k 0 * r.2).sum := fun k => by
    rw [← Fin.sum_univ_fun_getElem]
    rfl
  rw [SurfaceShape.IsFit, funext_iff]
  refine forall_congr' fun k => ?_
  rw [e2 k, Matrix.mulVec, dotProduct]
  simp only [Matrix.add_apply, e1]

theorem isFit_scale (S : SurfaceShape) {l : ℝ} (hl : l ≠ 0) (lam : ℝ) (pts : List FitPoint) (x : Fin S.fitSize → ℝ) :
    S.IsFit lam (pts.map (FitPoint.scale l)) (fun k => l * x k) ↔ S.IsFit lam pts x := by
  rw [isFit_iff_sums, isFit_iff_sums]
  refine forall_congr' fun k => ?_
  rw [fitRows_scale]
  simp only [List.map_map, Function.comp_def]
  have e1 : ((S.fitRows pts).map fun r => r.1.getD k 0 * (l * r.2)).sum = l * ((S.fitRows pts).map fun r => r.1.getD k 0 * r.2).sum := by
    rw [← List.sum_map_mul_left]
    exact congrArg List.sum (List.map_congr_left fun r _ => by ring)
  have e2 : ∀ c : Fin S.fitSize → ℝ, ∑ m, c m * (l * x m) = l * ∑ m, c m * x m := fun c => by
    rw [Finset.mul_sum]
    exact Finset.sum_congr rfl fun m _ => by ring
  rw [e1, e2]
  exact mul_right_inj' hl

/-! ## Samples of the first fit -/

theorem rotMatrixApply_smul (l t : ℝ) (v : V3) : rotMatrixApply t (l • v) = l • rotMatrixApply t v := by
  ext <;> simp only [rotMatrixApply, V3.smul_x, V3.smul_y, V3.smul_z] <;> ring

theorem V3.smul_sub_smul (l : ℝ) (u v : V3) : l • u - l • v = l • (u - v) := by
  ext <;> simp only [V3.sub_x, V3.sub_y, V3.sub_z, V3.smul_x, V3.smul_y, V3.smul_z] <;> ring

/-- Radius of a scaled point. -/
theorem radius_scale {l : ℝ} (hl : 0 < l) (x y : ℝ) : sqrt ((l * y) ^ 2 + (l * x) ^ 2) = l * sqrt (y ^ 2 + x ^ 2) := by
  rw [show (l * y) ^ 2 + (l * x) ^ 2 = l ^ 2 * (y ^ 2 + x ^ 2) by ring, sqrt_mul (sq_nonneg l), sqrt_sq hl.le]

theorem arg_scale {l : ℝ} (hl : 0 < l) (x y : ℝ) : Complex.arg ⟨l * x, l * y⟩ = Complex.arg ⟨x, y⟩ := by
  rw [← Complex.arg_real_mul ⟨x, y⟩ hl]
  congr 1
  apply Complex.ext <;> simp

namespace PlasmaGrid

variable (G : PlasmaGrid) {l : ℝ}

theorem deltaPhi_scale (i j : ℕ) : (G.scale l).deltaPhi i j = l • G.deltaPhi i j := by
  simp only [deltaPhi, scale, rotMatrixApply_smul]
  split_ifs <;> rw [V3.smul_sub_smul]

theorem deltaTheta_scale (i j : ℕ) : (G.scale l).deltaTheta i j = l • G.deltaTheta i j := by
  simp only [deltaTheta, scale, V3.smul_sub_smul]

theorem unitnormalApprox_scale (hl : 0 < l) (i j : ℕ) : (G.scale l).unitnormalApprox i j = G.unitnormalApprox i j := by
  rw [unitnormalApprox, normalApprox, deltaPhi_scale, deltaTheta_scale, V3.cross_smul_smul, ← normalApprox,
    V3.norm_smul_pos _ (by positivity), V3.smul_smul', unitnormalApprox]
  congr 1
  rw [one_div, one_div, mul_inv]
  have : l * l ≠ 0 := by positivity
  field_simp

theorem offsetWith_scale (hl : 0 < l) (normals : Option (ℕ → ℕ → V3)) (d : ℝ) (i j : ℕ) :
    (G.scale l).offsetWith normals (l * d) i j = l • G.offsetWith normals d i j := by
  cases normals with
  | none =>
    rw [offsetWith, offset, unitnormalApprox_scale G hl, scale, offsetWith, offset]
    ext <;> simp only [V3.add_x, V3.add_y, V3.add_z, V3.smul_x, V3.smul_y, V3.smul_z] <;> ring
  | some u =>
    simp only [offsetWith, scale]
    ext <;> simp only [V3.add_x, V3.add_y, V3.add_z, V3.smul_x, V3.smul_y, V3.smul_z] <;> ring

theorem offsetSample_scale (hl : 0 < l) (normals : Option (ℕ → ℕ → V3)) (d : ℝ) (i j : ℕ) :
    (G.scale l).offsetSample normals (l * d) i j = (G.offsetSample normals d i j).scale l := by
  simp only [offsetSample, offsetWith_scale G hl, FitPoint.scale, V3.smul_x, V3.smul_y, V3.smul_z, radius_scale hl, arg_scale hl]
  rfl

theorem offsetSamples_scale (hl : 0 < l) (normals : Option (ℕ → ℕ → V3)) (d : ℝ) (sym : Bool) :
    (G.scale l).offsetSamples normals (l * d) sym = (G.offsetSamples normals d sym).map (FitPoint.scale l) := by
  simp only [offsetSamples, List.map_flatMap, List.map_map, offsetSample_scale G hl]
  rfl

end PlasmaGrid

/-! ## Cross sections -/

theorem sectionPoint_scale (S : SurfaceShape) (dofs : List ℝ) (nPhi nTheta tor pol i j : ℕ) {l : ℝ} (hl : 0 < l) :
    sectionPoint S (dofs.map (l * ·)) nPhi nTheta tor pol i j = l • sectionPoint S dofs nPhi nTheta tor pol i j := by
  simp only [sectionPoint, gamma_scale, V3.smul_x, V3.smul_y, V3.smul_z, radius_scale hl]
  rfl

section Polygon

variable {l : ℝ} (n : ℕ) (P : ℕ → ℝ × ℝ)

theorem lineDenom_scale (l : ℝ) (p0 p1 p2 p3 : ℝ × ℝ) :
    lineDenom (l • p0) (l • p1) (l • p2) (l • p3) = l ^ 2 * lineDenom p0 p1 p2 p3 := by
  simp only [lineDenom, Prod.fst_sub, Prod.snd_sub, Prod.smul_fst, Prod.smul_snd, smul_eq_mul]
  ring

theorem lineInvDenom_scale (hl : l ≠ 0) (p0 p1 p2 p3 : ℝ × ℝ) :
    l ^ 2 * lineInvDenom (l • p0) (l • p1) (l • p2) (l • p3) = lineInvDenom p0 p1 p2 p3 := by
  have h2 : l ^ 2 ≠ 0 := pow_ne_zero 2 hl
  simp only [lineInvDenom, lineDenom_scale]
  by_cases h : lineDenom p0 p1 p2 p3 = 0
  · simp [h]
  · rw [if_pos (mul_ne_zero h2 h), if_pos h]
    field_simp

theorem lineIntersection_scale (hl : l ≠ 0) (p0 p1 p2 p3 : ℝ × ℝ) :
    lineIntersection (l • p0) (l • p1) (l • p2) (l • p3) ↔ lineIntersection p0 p1 p2 p3 := by
  have h2 : l ^ 2 ≠ 0 := pow_ne_zero 2 hl
  have hi := lineInvDenom_scale hl p0 p1 p2 p3
  have es : (-(l • p1 - l • p0).2 * ((l • p0).1 - (l • p2).1) + (l • p1 - l • p0).1 * ((l • p0).2 - (l • p2).2)) *
      lineInvDenom (l • p0) (l • p1) (l • p2) (l • p3) =
      (-(p1 - p0).2 * (p0.1 - p2.1) + (p1 - p0).1 * (p0.2 - p2.2)) * lineInvDenom p0 p1 p2 p3 := by
    rw [← hi]
    simp only [Prod.fst_sub, Prod.snd_sub, Prod.smul_fst, Prod.smul_snd, smul_eq_mul]
    ring
  have et : ((l • p3 - l • p2).1 * ((l • p0).2 - (l • p2).2) - (l • p3 - l • p2).2 * ((l • p0).1 - (l • p2).1)) *
      lineInvDenom (l • p0) (l • p1) (l • p2) (l • p3) =
      ((p3 - p2).1 * (p0.2 - p2.2) - (p3 - p2).2 * (p0.1 - p2.1)) * lineInvDenom p0 p1 p2 p3 := by
    rw [← hi]
    simp only [Prod.fst_sub, Prod.snd_sub, Prod.smul_fst, Prod.smul_snd, smul_eq_mul]
    ring
  simp only [lineIntersection]
  rw [es, et, lineDenom_scale]
  simp only [ne_eq, mul_eq_zero, h2, false_or]

theorem edgeCrosses_scale (hl : l ≠ 0) (a : ℕ) : edgeCrosses n (fun j => l • P j) a ↔ edgeCrosses n P a := by
  simp only [edgeCrosses, nextVertex, lineIntersection_scale hl]

theorem scanWeight_scale (hl : l ≠ 0) (a : ℕ) : scanWeight n (fun j => l • P j) a = scanWeight n P a := by
  induction a with
  | zero =>
    rw [scanWeight, scanWeight]
    by_cases h : edgeCrosses n P 0
    · rw [if_pos h, if_pos ((edgeCrosses_scale n P hl 0).2 h)]
    · rw [if_neg h, if_neg fun h' => h ((edgeCrosses_scale n P hl 0).1 h')]
  | succ a ih =>
    rw [scanWeight, scanWeight, ih]
    by_cases h : edgeCrosses n P (a + 1)
    · rw [if_pos h, if_pos ((edgeCrosses_scale n P hl _).2 h)]
    · rw [if_neg h, if_neg fun h' => h ((edgeCrosses_scale n P hl _).1 h')]

theorem polygonWeight_scale (hl : l ≠ 0) (j : ℕ) : polygonWeight n (fun j => l • P j) j = polygonWeight n P j := by
  simp only [polygonWeight, scanWeight_scale n P hl]

theorem segmentLength_scale (hl : 0 < l) (j : ℕ) : segmentLength n (fun j => l • P j) j = l * segmentLength n P j := by
  simp only [segmentLength, nextVertex, Prod.smul_fst, Prod.smul_snd, smul_eq_mul, ← mul_sub]
  exact radius_scale hl _ _

theorem arclength_scale (hl : 0 < l) (j : ℕ) : arclength n (fun j => l • P j) j = l * arclength n P j := by
  induction j with
  | zero => exact segmentLength_scale n P hl 0
  | succ j ih => rw [arclength, ih, segmentLength_scale n P hl, arclength]; ring

theorem thetaArc_scale (hl : 0 < l) (j : ℕ) : thetaArc n (fun j => l • P j) j = thetaArc n P j := by
  simp only [thetaArc, arclength_scale n P hl, ← mul_sub]
  exact mul_div_mul_left _ _ hl.ne'

theorem thetaAtan_scale (hl : 0 < l) (p c : ℝ × ℝ) : thetaAtan (l • p) (l • c) = thetaAtan p c := by
  simp only [thetaAtan, Prod.smul_fst, Prod.smul_snd, smul_eq_mul, ← mul_sub, arg_scale hl]

end Polygon

theorem centrePoint_scale (G : PlasmaGrid) {l : ℝ} (hl : 0 < l) (c : ℕ) : centrePoint (G.scale l) c = l • centrePoint G c := by
  simp only [centrePoint, PlasmaGrid.scale, V3.smul_x, V3.smul_y, V3.smul_z, radius_scale hl, List.sum_map_mul_left]
  ext <;> simp only [Prod.smul_fst, Prod.smul_snd, smul_eq_mul] <;> ring

theorem arcSamples_scale (S : SurfaceShape) (dofs : List ℝ) (nPhi nTheta tor pol : ℕ) {l : ℝ} (hl : 0 < l) :
    arcSamples S (dofs.map (l * ·)) nPhi nTheta tor pol = (arcSamples S dofs nPhi nTheta tor pol).map (FitPoint.scale l) := by
  simp only [arcSamples, List.map_flatMap, List.map_map]
  refine List.flatMap_congr fun i _ => List.map_congr_left fun j _ => ?_
  have e : sectionPoint S (dofs.map (l * ·)) nPhi nTheta tor pol i = fun j => l • sectionPoint S dofs nPhi nTheta tor pol i j :=
    funext fun j => sectionPoint_scale S dofs nPhi nTheta tor pol i j hl
  simp only [e, thetaArc_scale _ _ hl, polygonWeight_scale _ _ hl.ne', Function.comp_apply, FitPoint.scale]
  rfl

theorem atanRow_scale (G : PlasmaGrid) (S : SurfaceShape) (dofs : List ℝ) (tor pol i c : ℕ) {l : ℝ} (hl : 0 < l) :
    atanRow (G.scale l) S (dofs.map (l * ·)) tor pol i c = (atanRow G S dofs tor pol i c).map (FitPoint.scale l) := by
  simp only [atanRow, List.map_map]
  have e : sectionPoint S (dofs.map (l * ·)) G.nPhi G.nTheta tor pol i = fun j => l • sectionPoint S dofs G.nPhi G.nTheta tor pol i j :=
    funext fun j => sectionPoint_scale S dofs G.nPhi G.nTheta tor pol i j hl
  refine List.map_congr_left fun j _ => ?_
  have hn : (G.scale l).nPhi = G.nPhi := rfl
  have ht : (G.scale l).nTheta = G.nTheta := rfl
  simp only [hn, ht, e, centrePoint_scale G hl, thetaAtan_scale hl, polygonWeight_scale _ _ hl.ne', Function.comp_apply, FitPoint.scale]
  rfl

theorem mapM_scale (rows : List ℕ) (row : ℕ → Except PyErr ℕ) (f g : ℕ → ℕ → List FitPoint) (l : ℝ)
    (h : ∀ i c, f i c = (g i c).map (FitPoint.scale l)) :
    (rows.mapM fun i => do let c ← row i; (.ok (f i c) : Except PyErr _)) =
      (rows.mapM fun i => do let c ← row i; (.ok (g i c) : Except PyErr _)).map (List.map (List.map (FitPoint.scale l))) := by
  induction rows with
  | nil => rfl
  | cons i rows ih =>
    rw [List.mapM_cons, List.mapM_cons, ih]
    cases row i with
    | error e => rfl
    | ok c =>
      simp only [h]
      cases List.mapM (fun i => do let c ← row i; (.ok (g i c) : Except PyErr _)) rows <;> rfl

theorem atanSamples_scale (G : PlasmaGrid) (S : SurfaceShape) (dofs : List ℝ) (tor pol : ℕ) {l : ℝ} (hl : 0 < l) :
    atanSamples (G.scale l) S (dofs.map (l * ·)) tor pol = (atanSamples G S dofs tor pol).map (List.map (FitPoint.scale l)) := by
  unfold atanSamples
  rw [show (G.scale l).nPhi = G.nPhi from rfl,
    mapM_scale _ _ _ _ l fun i c => atanRow_scale G S dofs tor pol i c hl]
  cases List.mapM (fun i => do
    let c ← centreRow S.stellsym G.nPhi tor i
    (.ok (atanRow G S dofs tor pol i c) : Except PyErr _)) (List.range (interpRows S.stellsym G.nPhi tor)) with
  | error e => rfl
  | ok rows => exact congrArg Except.ok (List.map_flatten ..).symm

/-! ## The generators -/

theorem ofFn_scale {n : ℕ} (l : ℝ) (x : Fin n → ℝ) : List.ofFn (fun k => l * x k) = (List.ofFn x).map (l * ·) := by
  rw [List.map_ofFn]; rfl

variable {l : ℝ} (hl : 0 < l) (G : PlasmaGrid) (normals : Option (ℕ → ℕ → V3)) (d : ℝ) (sym : Bool) (mpol ntor tor pol : ℕ) (lam : ℝ)

include hl

/-- The uniform offset in another unit of length. -/
theorem C153_offset (x : Fin (generatedShape G sym mpol ntor).fitSize → ℝ) :
    IsOffsetResult (G.scale l) normals (l * d) sym mpol ntor (fun k => l * x k) ↔ IsOffsetResult G normals d sym mpol ntor x := by
  rw [IsOffsetResult, G.offsetSamples_scale hl]
  exact isFit_scale (generatedShape G sym mpol ntor) hl.ne' 0 _ x

theorem exists_unscaled {n : ℕ} (y : Fin n → ℝ) : ∃ x : Fin n → ℝ, y = fun k => l * x k :=
  ⟨fun k => y k / l, funext fun k => (mul_div_cancel₀ (y k) hl.ne').symm⟩

/-- The winding surface with arc length angles in another unit of length. -/
theorem C153_arc (x : Fin (generatedShape G sym mpol ntor).fitSize → ℝ) :
    IsArcResult (G.scale l) normals (l * d) sym mpol ntor tor pol lam (fun k => l * x k) ↔
      IsArcResult G normals d sym mpol ntor tor pol lam x := by
  have key : ∀ x0 : Fin (generatedShape G sym mpol ntor).fitSize → ℝ,
      (generatedShape G sym mpol ntor).IsFit lam (arcSamples (generatedShape G sym mpol ntor) (List.ofFn fun k => l * x0 k)
        G.nPhi G.nTheta tor pol) (fun k => l * x k) ↔
      (generatedShape G sym mpol ntor).IsFit lam (arcSamples (generatedShape G sym mpol ntor) (List.ofFn x0)
        G.nPhi G.nTheta tor pol) x := fun x0 => by
    rw [ofFn_scale, arcSamples_scale _ _ _ _ _ _ hl]
    exact isFit_scale _ hl.ne' _ _ _
  constructor
  · rintro ⟨y, h1, h2⟩
    obtain ⟨x0, rfl⟩ := exists_unscaled hl y
    exact ⟨x0, (C153_offset hl G normals d sym mpol ntor x0).1 h1, (key x0).1 h2⟩
  · rintro ⟨x0, h1, h2⟩
    exact ⟨fun k => l * x0 k, (C153_offset hl G normals d sym mpol ntor x0).2 h1, (key x0).2 h2⟩

/-- The winding surface with angles around the centre in another unit of length. -/
theorem C153_atan (x : Fin (generatedShape G sym mpol ntor).fitSize → ℝ) :
    IsAtanResult (G.scale l) normals (l * d) sym mpol ntor tor pol lam (fun k => l * x k) ↔
      IsAtanResult G normals d sym mpol ntor tor pol lam x := by
  have hs : ∀ x0 : Fin (generatedShape G sym mpol ntor).fitSize → ℝ,
      atanSamples (G.scale l) (generatedShape G sym mpol ntor) (List.ofFn fun k => l * x0 k) tor pol =
      (atanSamples G (generatedShape G sym mpol ntor) (List.ofFn x0) tor pol).map (List.map (FitPoint.scale l)) := fun x0 => by
    rw [ofFn_scale, atanSamples_scale _ _ _ _ _ hl]
  constructor
  · rintro ⟨y, pts, h1, h2, h3⟩
    obtain ⟨x0, rfl⟩ : ∃ x0 : Fin (generatedShape G sym mpol ntor).fitSize → ℝ, y = fun k => l * x0 k := exists_unscaled hl y
    have h2' := (hs x0).symm.trans h2
    cases hp : atanSamples G (generatedShape G sym mpol ntor) (List.ofFn x0) tor pol with
    | error e => rw [hp] at h2'; exact absurd h2' (by simp [Except.map])
    | ok q =>
      rw [hp] at h2'
      have : q.map (FitPoint.scale l) = pts := Except.ok.inj h2'
      subst this
      exact ⟨x0, q, (C153_offset hl G normals d sym mpol ntor x0).1 h1, hp, (isFit_scale _ hl.ne' _ _ _).1 h3⟩
  · rintro ⟨x0, pts, h1, h2, h3⟩
    exact ⟨fun k => l * x0 k, pts.map (FitPoint.scale l), (C153_offset hl G normals d sym mpol ntor x0).2 h1,
      (hs x0).trans (by rw [h2]; rfl), (isFit_scale (generatedShape G sym mpol ntor) hl.ne' _ _ _).2 h3⟩


omit hl

/-! ## The generators as functions -/

open Matrix in
/-- A solvable symmetric system has one solution of least norm. -/
theorem least_solution {n : Type} [Fintype n] (M : Matrix n n ℝ) (hM : Mᵀ = M) (c : n → ℝ) (h : ∃ y, M *ᵥ y = c) :
    ∃ x, M *ᵥ x = c ∧ ∀ y, M *ᵥ y = c → ∑ k, x k ^ 2 ≤ ∑ k, y k ^ 2 ∧ (∑ k, y k ^ 2 ≤ ∑ k, x k ^ 2 → y = x) := by
  obtain ⟨y0, hy0⟩ := h
  obtain ⟨z, hz⟩ := normal_equations_solvable M y0
  rw [hM, hy0, ← Matrix.mulVec_mulVec] at hz
  refine ⟨M *ᵥ z, hz, fun y hy => ?_⟩
  have h0 : M *ᵥ (y - M *ᵥ z) = 0 := by rw [Matrix.mulVec_sub, hy, hz, sub_self]
  have hv : ∀ w, (M *ᵥ z) ⬝ᵥ w = z ⬝ᵥ (M *ᵥ w) := fun w => by
    rw [Matrix.dotProduct_mulVec, ← Matrix.mulVec_transpose, hM]
  have h1 : (M *ᵥ z) ⬝ᵥ (y - M *ᵥ z) = 0 := by rw [hv, h0, dotProduct_zero]
  have h2 : ∑ k, y k ^ 2 = ∑ k, (M *ᵥ z) k ^ 2 + ∑ k, (y k - (M *ᵥ z) k) ^ 2 := by
    have e : ∑ k, (M *ᵥ z) k * (y k - (M *ᵥ z) k) = 0 := h1
    have e2 : ∑ k, y k ^ 2 = ∑ k, (M *ᵥ z) k ^ 2 + ∑ k, (y k - (M *ᵥ z) k) ^ 2 + 2 * ∑ k, (M *ᵥ z) k * (y k - (M *ᵥ z) k) := by
      rw [Finset.mul_sum, ← Finset.sum_add_distrib, ← Finset.sum_add_distrib]
      exact Finset.sum_congr rfl fun k _ => by ring
    rw [e2, e, mul_zero, add_zero]
  have h3 : 0 ≤ ∑ k, (y k - (M *ᵥ z) k) ^ 2 := Finset.sum_nonneg fun k _ => sq_nonneg _
  refine ⟨by linarith, fun hle => ?_⟩
  have h4 := (Finset.sum_eq_zero_iff_of_nonneg fun k _ => sq_nonneg (y k - (M *ᵥ z) k)).1 (by linarith)
  funext k
  have := pow_eq_zero_iff (two_ne_zero) |>.1 (h4 k (Finset.mem_univ k))
  linarith

open Matrix in
theorem fitSystem_symm (S : SurfaceShape) (lam : ℝ) (pts : List FitPoint) :
    ((S.fitMatrix pts)ᵀ * S.fitMatrix pts + S.fitReg lam)ᵀ = (S.fitMatrix pts)ᵀ * S.fitMatrix pts + S.fitReg lam := by
  rw [Matrix.transpose_add, Matrix.transpose_mul, Matrix.transpose_transpose, SurfaceShape.fitReg, Matrix.transpose_smul,
    Matrix.diagonal_transpose]

/-- If the fit has a solution, it has one of least norm. -/
theorem leastFit_of_fit (S : SurfaceShape) (lam : ℝ) (pts : List FitPoint) (h : ∃ x, S.IsFit lam pts x) :
    ∃ x, S.IsLeastFit lam pts x := by
  obtain ⟨x, h1, h2⟩ := least_solution _ (fitSystem_symm S lam pts) _ h
  exact ⟨x, h1, fun y hy => (h2 y hy).1⟩

theorem leastFit_unique (S : SurfaceShape) (lam : ℝ) (pts : List FitPoint) {x y : Fin S.fitSize → ℝ} (hx : S.IsLeastFit lam pts x)
    (hy : S.IsLeastFit lam pts y) : x = y := by
  obtain ⟨z, h1, h2⟩ := least_solution _ (fitSystem_symm S lam pts) _ ⟨x, hx.1⟩
  rw [(h2 x hx.1).2 (hx.2 z h1), (h2 y hy.1).2 (hy.2 z h1)]

theorem fitSolve_eq {S : SurfaceShape} {lam : ℝ} {pts : List FitPoint} {x : Fin S.fitSize → ℝ} (hx : S.IsLeastFit lam pts x) :
    S.fitSolve lam pts = x := by
  have h : ∃ x, S.IsLeastFit lam pts x := ⟨x, hx⟩
  rw [SurfaceShape.fitSolve, dif_pos h]
  exact leastFit_unique S lam pts h.choose_spec hx

/-- The fit without regularisation is solved for all samples. -/
theorem fitSolve_offset (S : SurfaceShape) (pts : List FitPoint) : S.IsLeastFit 0 pts (S.fitSolve 0 pts) := by
  obtain ⟨x, hx⟩ := leastFit_of_fit S 0 pts (fit_exists_unregularised S pts)
  rwa [fitSolve_eq hx]

/-- The regularised fit is solved for all samples, with or without weight. -/
theorem fitSolve_regularised (S : SurfaceShape) {lam : ℝ} (hlam : 0 < lam) (pts : List FitPoint) :
    S.IsLeastFit lam pts (S.fitSolve lam pts) := by
  have h : ∃ x, S.IsFit lam pts x := by
    by_cases hw : ∃ p ∈ pts, p.w ≠ 0
    · exact (C52_fit_exists_unique S lam hlam pts hw).exists
    · push Not at hw
      refine ⟨0, (isFit_iff_sums S lam pts 0).2 fun k => ?_⟩
      have hz : ∀ r ∈ S.fitRows pts, r.1.getD k 0 * r.2 = 0 := by
        intro r hr
        obtain ⟨p, hp, hr⟩ := List.mem_flatMap.1 hr
        simp only [List.mem_cons, List.not_mem_nil, or_false] at hr
        rcases hr with hr | hr <;> rw [hr] <;> simp [hw p hp]
      rw [List.map_congr_left hz]
      simp
  obtain ⟨x, hx⟩ := leastFit_of_fit S lam pts h
  rwa [fitSolve_eq hx]

theorem isLeastFit_scale (S : SurfaceShape) {l : ℝ} (hl : 0 < l) (lam : ℝ) (pts : List FitPoint) (x : Fin S.fitSize → ℝ) :
    S.IsLeastFit lam (pts.map (FitPoint.scale l)) (fun k => l * x k) ↔ S.IsLeastFit lam pts x := by
  have hs : ∀ y : Fin S.fitSize → ℝ, ∑ k, (l * y k) ^ 2 = l ^ 2 * ∑ k, y k ^ 2 := fun y => by
    rw [Finset.mul_sum]
    exact Finset.sum_congr rfl fun k _ => by ring
  have h2 : 0 < l ^ 2 := by positivity
  refine and_congr (isFit_scale S hl.ne' lam pts x) ⟨fun h y hy => ?_, fun h y hy => ?_⟩
  · have := h _ ((isFit_scale S hl.ne' lam pts y).2 hy)
    rw [hs, hs] at this
    exact le_of_mul_le_mul_left this h2
  · obtain ⟨y, rfl⟩ := exists_unscaled hl y
    rw [hs, hs]
    exact mul_le_mul_of_nonneg_left (h y ((isFit_scale S hl.ne' lam pts y).1 hy)) h2.le

theorem fitSolve_scale (S : SurfaceShape) {l : ℝ} (hl : 0 < l) (lam : ℝ) (pts : List FitPoint) :
    S.fitSolve lam (pts.map (FitPoint.scale l)) = fun k => l * S.fitSolve lam pts k := by
  by_cases h : ∃ x, S.IsLeastFit lam pts x
  · obtain ⟨x, hx⟩ := h
    rw [fitSolve_eq hx, fitSolve_eq ((isLeastFit_scale S hl lam pts x).2 hx)]
  · have h' : ¬ ∃ x, S.IsLeastFit lam (pts.map (FitPoint.scale l)) x := by
      rintro ⟨y, hy⟩
      obtain ⟨x, rfl⟩ := exists_unscaled hl y
      exact h ⟨x, (isLeastFit_scale S hl lam pts x).1 hy⟩
    rw [SurfaceShape.fitSolve, SurfaceShape.fitSolve, dif_neg h, dif_neg h']
    funext k
    simp

theorem gridOf_scale (l : ℝ) (nfp : ℕ) (points : List (List V3)) :
    gridOf nfp (points.map fun r => r.map (l • ·)) = (gridOf nfp points).scale l := by
  have h0 : l • (0 : V3) = 0 := by ext <;> simp
  have h1 : ((points.map fun r => r.map (l • ·)).headD []).length = (points.headD []).length := by cases points <;> simp
  have h2 : ∀ i j, ((points.map fun r => r.map (l • ·)).getD i []).getD j 0 = l • (points.getD i []).getD j 0 := by
    intro i j
    have e : (points.map fun r => r.map (l • ·)).getD i [] = (points.getD i []).map (l • ·) := by
      simp only [List.getD_eq_getElem?_getD, List.getElem?_map]
      cases points[i]? <;> simp
    rw [e]
    simp only [List.getD_eq_getElem?_getD, List.getElem?_map]
    cases (points[i]?.getD [])[j]? <;> simp [h0]
  rw [gridOf, h1, List.length_map]
  simp only [h2]
  rfl

/-- The results of the generators are results in the sense of C147. -/
theorem offsetGenerator_result (points : List (List V3)) (d : ℝ) (nfp : ℕ) (sym : Bool) (mpol ntor : ℕ) :
    ∃ x, offsetGenerator points d nfp sym mpol ntor = List.ofFn x ∧ IsOffsetResult (gridOf nfp points) none d sym mpol ntor x :=
  ⟨_, rfl, (fitSolve_offset _ _).1⟩

theorem arcGenerator_result (tor pol : ℕ) {lam : ℝ} (hlam : 0 < lam) (points : List (List V3)) (d : ℝ) (nfp : ℕ) (sym : Bool)
    (mpol ntor : ℕ) :
    ∃ x, arcGenerator tor pol lam points d nfp sym mpol ntor = List.ofFn x ∧
      IsArcResult (gridOf nfp points) none d sym mpol ntor tor pol lam x :=
  ⟨_, rfl, _, (fitSolve_offset _ _).1, (fitSolve_regularised _ hlam _).1⟩

/-- The uniform offset generator in another unit of length. -/
theorem C153_offset_generator {l : ℝ} (hl : 0 < l) (points : List (List V3)) (d : ℝ) (nfp : ℕ) (sym : Bool) (mpol ntor : ℕ) :
    offsetGenerator (points.map fun r => r.map (l • ·)) (l * d) nfp sym mpol ntor =
      (offsetGenerator points d nfp sym mpol ntor).map (l * ·) := by
  simp only [offsetGenerator]
  rw [gridOf_scale, PlasmaGrid.offsetSamples_scale _ hl, ← ofFn_scale]
  exact congrArg List.ofFn (fitSolve_scale _ hl 0 _)

/-- The generator with arc length angles in another unit of length. -/
theorem C153_arc_generator {l : ℝ} (hl : 0 < l) (tor pol : ℕ) (lam : ℝ) (points : List (List V3)) (d : ℝ) (nfp : ℕ) (sym : Bool)
    (mpol ntor : ℕ) :
    arcGenerator tor pol lam (points.map fun r => r.map (l • ·)) (l * d) nfp sym mpol ntor =
      (arcGenerator tor pol lam points d nfp sym mpol ntor).map (l * ·) := by
  simp only [arcGenerator]
  rw [C153_offset_generator hl, gridOf_scale, arcSamples_scale _ _ _ _ _ _ hl, ← ofFn_scale]
  exact congrArg List.ofFn (fitSolve_scale _ hl lam _)

/-- The default generator meets the hypothesis of C152 in every call. -/
theorem C153_default_generator {l : ℝ} (hl : 0 < l) (a : CallArgs) (h : a.generator = defaultGenerator) : a.GeneratorScales l := by
  intro d _
  rw [h]
  exact C153_arc_generator hl ..

/-- A call with the default generator and a distance, in other units. -/
example (b : ℝ) (opt : Optimizer ℝ) (gradOp : (List ℝ → ℝ) → List ℝ → List ℝ) :
    let a : CallArgs := { torusCall b with
      plasmaCoilDistance := some (1 / 2)
      windingDofs := none
      generator := defaultGenerator
      opts := { defaultArgs with objectiveName := .many ["f_B", "f_K"], objectiveUnit := .many [.none, .none]
                                 objectiveWeight := .many [1, 1 / 2] } }
    quadcoilCall opt gradOp (shippedRegistry FieldProblem.fns []) (a.rescale 100 (1 / 1000)) =
      (quadcoilCall opt gradOp (shippedRegistry FieldProblem.fns []) a).map (Option.map (CallOut.rescale 100 (1 / 1000))) := by
  intro a
  refine C152_run (by norm_num) (by norm_num) opt gradOp a (C153_default_generator (by norm_num) a rfl) ?_
  intro n hn
  simp only [a, OneOrMany.list, List.cons_append, List.nil_append, List.mem_cons, List.not_mem_nil, or_false, defaultArgs] at hn
  rcases hn with rfl | rfl | rfl | rfl <;> simp [UnitBound, a, defaultArgs]

end Verif
