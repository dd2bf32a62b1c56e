import Verif.Props.GenerateUnits
import Verif.Props.OffsetLimit
import Verif.Props.MirrorCall

/-!
# C162: the generated winding surface of the mirror image of a plasma
-/

namespace Verif

open Real

/-- The mirror image of a sampled plasma. -/
def PlasmaGrid.mirror (G : PlasmaGrid) : PlasmaGrid := { G with gamma := fun i j => mirrorZ (G.gamma i j) }

/-- The mirror image of a sample. -/
def FitPoint.mirror (p : FitPoint) : FitPoint := { p with z := -p.z }

/-- The mirror image of a point of a cross section. -/
def mirror2 (p : ℝ × ℝ) : ℝ × ℝ := (p.1, -p.2)

/-- The sign that a coefficient takes in the mirror image. -/
def SurfaceShape.coefSign (S : SurfaceShape) (k : ℕ) : ℝ := if k < S.numR then 1 else -1

/-! ## The fit -/

theorem coefSign_sq (S : SurfaceShape) (k : ℕ) : S.coefSign k * S.coefSign k = 1 := by
  unfold SurfaceShape.coefSign
  split <;> norm_num

theorem rPadded_sign (S : SurfaceShape) (p t w : ℝ) (k : ℕ) :
    S.coefSign k * ((S.rOperatorPadded 0 0 p t).map (· * w)).getD k 0 = ((S.rOperatorPadded 0 0 p t).map (· * w)).getD k 0 := by
  unfold SurfaceShape.coefSign
  split
  · rw [one_mul]
  · rename_i h
    have e : ((S.rOperatorPadded 0 0 p t).map (· * w)).getD k 0 = 0 := by
      rw [SurfaceShape.rOperatorPadded, List.map_append, List.getD_append_right _ _ _ _ (by rw [List.length_map, rOperator_length]; omega),
        List.map_map, List.getD_eq_getElem?_getD, List.getElem?_map]
      cases (S.zOperator 0 0 p t)[k - ((S.rOperator 0 0 p t).map (· * w)).length]? <;> simp
    rw [e, mul_zero]

theorem zPadded_sign (S : SurfaceShape) (p t w : ℝ) (k : ℕ) :
    S.coefSign k * ((S.zOperatorPadded 0 0 p t).map (· * w)).getD k 0 = -((S.zOperatorPadded 0 0 p t).map (· * w)).getD k 0 := by
  unfold SurfaceShape.coefSign
  split
  · rename_i h
    have e : ((S.zOperatorPadded 0 0 p t).map (· * w)).getD k 0 = 0 := by
      rw [SurfaceShape.zOperatorPadded, List.map_append, List.getD_append _ _ _ _ (by rw [List.length_map, List.length_map, rOperator_length]; omega),
        List.map_map, List.getD_eq_getElem?_getD, List.getElem?_map]
      cases (S.rOperator 0 0 p t)[k]? <;> simp
    rw [e, mul_zero, neg_zero]
  · rw [neg_one_mul]

theorem fitRows_sum (S : SurfaceShape) (pts : List FitPoint) (g : List ℝ × ℝ → ℝ) : ((S.fitRows pts).map g).sum =
    (pts.map fun p => g ((S.rOperatorPadded 0 0 p.phi p.theta).map (· * p.w), p.r * p.w) +
      g ((S.zOperatorPadded 0 0 p.phi p.theta).map (· * p.w), p.z * p.w)).sum := by
  unfold SurfaceShape.fitRows
  induction pts with
  | nil => rfl
  | cons p pts ih =>
    rw [List.flatMap_cons, List.map_append, List.sum_append, ih, List.map_cons, List.sum_cons]
    simp

theorem isFit_mirror (S : SurfaceShape) (lam : ℝ) (pts : List FitPoint) (x : Fin S.fitSize → ℝ) :
    S.IsFit lam (pts.map FitPoint.mirror) (fun k => S.coefSign k * x k) ↔ S.IsFit lam pts x := by
  rw [isFit_iff_sums, isFit_iff_sums]
  refine forall_congr' fun k => ?_
  have e1 : ∀ m : Fin S.fitSize, ((S.fitRows (pts.map FitPoint.mirror)).map fun r => r.1.getD k 0 * r.1.getD m 0).sum * S.coefSign m =
      S.coefSign k * ((S.fitRows pts).map fun r => r.1.getD k 0 * r.1.getD m 0).sum := by
    intro m
    rw [fitRows_sum, fitRows_sum, ← List.sum_map_mul_left, ← List.sum_map_mul_right, List.map_map]
    refine congrArg List.sum (List.map_congr_left fun p _ => ?_)
    simp only [Function.comp_apply, FitPoint.mirror]
    have h1 := rPadded_sign S p.phi p.theta p.w
    have h2 := zPadded_sign S p.phi p.theta p.w
    linear_combination (((S.rOperatorPadded 0 0 p.phi p.theta).map (· * p.w)).getD k 0) * h1 m -
      (((S.rOperatorPadded 0 0 p.phi p.theta).map (· * p.w)).getD m 0) * h1 k +
      (((S.zOperatorPadded 0 0 p.phi p.theta).map (· * p.w)).getD k 0) * h2 m -
      (((S.zOperatorPadded 0 0 p.phi p.theta).map (· * p.w)).getD m 0) * h2 k
  have e2 : ((S.fitRows (pts.map FitPoint.mirror)).map fun r => r.1.getD k 0 * r.2).sum =
      S.coefSign k * ((S.fitRows pts).map fun r => r.1.getD k 0 * r.2).sum := by
    rw [fitRows_sum, fitRows_sum, ← List.sum_map_mul_left, List.map_map]
    refine congrArg List.sum (List.map_congr_left fun p _ => ?_)
    simp only [Function.comp_apply, FitPoint.mirror]
    have h1 := rPadded_sign S p.phi p.theta p.w k
    have h2 := zPadded_sign S p.phi p.theta p.w k
    linear_combination (-(p.r * p.w)) * h1 - (p.z * p.w) * h2
  have e3 : ∀ m : Fin S.fitSize, S.fitReg lam k m * S.coefSign m = S.coefSign k * S.fitReg lam k m := by
    intro m
    rw [SurfaceShape.fitReg, Matrix.smul_apply, Matrix.diagonal_apply]
    split
    · rename_i h
      rw [h, mul_comm]
    · simp
  have e4 : ∑ m : Fin S.fitSize, (((S.fitRows (pts.map FitPoint.mirror)).map fun r => r.1.getD k 0 * r.1.getD m 0).sum + S.fitReg lam k m) *
      (S.coefSign m * x m) =
      S.coefSign k * ∑ m : Fin S.fitSize, (((S.fitRows pts).map fun r => r.1.getD k 0 * r.1.getD m 0).sum + S.fitReg lam k m) * x m := by
    rw [Finset.mul_sum]
    refine Finset.sum_congr rfl fun m _ => ?_
    linear_combination x m * e1 m + x m * e3 m
  rw [e2, e4]
  refine mul_right_inj' fun h => ?_
  have := coefSign_sq S k
  rw [h] at this
  norm_num at this

theorem exists_unsigned (S : SurfaceShape) (y : Fin S.fitSize → ℝ) : ∃ x : Fin S.fitSize → ℝ, y = fun k : Fin S.fitSize => S.coefSign k * x k :=
  ⟨fun k => S.coefSign k * y k, funext fun k => by rw [← mul_assoc, coefSign_sq, one_mul]⟩

theorem isLeastFit_mirror (S : SurfaceShape) (lam : ℝ) (pts : List FitPoint) (x : Fin S.fitSize → ℝ) :
    S.IsLeastFit lam (pts.map FitPoint.mirror) (fun k => S.coefSign k * x k) ↔ S.IsLeastFit lam pts x := by
  have hs : ∀ y : Fin S.fitSize → ℝ, ∑ k : Fin S.fitSize, (S.coefSign k * y k) ^ 2 = ∑ k, y k ^ 2 := fun y =>
    Finset.sum_congr rfl fun k _ => by rw [mul_pow, sq (S.coefSign k), coefSign_sq, one_mul]
  refine and_congr (isFit_mirror S lam pts x) ⟨fun h y hy => ?_, fun h y hy => ?_⟩
  · have := h _ ((isFit_mirror S lam pts y).2 hy)
    rwa [hs, hs] at this
  · obtain ⟨y, rfl⟩ := exists_unsigned S y
    rw [hs, hs]
    exact h y ((isFit_mirror S lam pts y).1 hy)

theorem fitSolve_mirror (S : SurfaceShape) (lam : ℝ) (pts : List FitPoint) :
    S.fitSolve lam (pts.map FitPoint.mirror) = fun k : Fin S.fitSize => S.coefSign k * S.fitSolve lam pts k := by
  by_cases h : ∃ x, S.IsLeastFit lam pts x
  · obtain ⟨x, hx⟩ := h
    rw [fitSolve_eq hx, fitSolve_eq ((isLeastFit_mirror S lam pts x).2 hx)]
  · have h' : ¬ ∃ x, S.IsLeastFit lam (pts.map FitPoint.mirror) x := by
      rintro ⟨y, hy⟩
      obtain ⟨x, rfl⟩ := exists_unsigned S y
      exact h ⟨x, (isLeastFit_mirror S lam pts x).1 hy⟩
    rw [SurfaceShape.fitSolve, SurfaceShape.fitSolve, dif_neg h, dif_neg h']
    funext k
    simp

theorem ofFn_mirror (S : SurfaceShape) {n : ℕ} (x : Fin n → ℝ) : List.ofFn (fun k : Fin n => S.coefSign k * x k) = S.mirrorDofs (List.ofFn x) := by
  refine List.ext_getElem? fun i => ?_
  have hl : ((List.ofFn x).take S.numR).length = min S.numR n := by simp
  rw [SurfaceShape.mirrorDofs, List.getElem?_ofFn]
  by_cases hi : i < n
  · rw [dif_pos hi]
    by_cases h : i < S.numR
    · rw [List.getElem?_append_left (by omega), List.getElem?_take, if_pos h, List.getElem?_ofFn, dif_pos hi, SurfaceShape.coefSign, if_pos h, one_mul]
    · rw [List.getElem?_append_right (by omega), List.getElem?_map, List.getElem?_drop, List.getElem?_ofFn, hl,
        show S.numR + (i - min S.numR n) = i by omega, dif_pos hi, SurfaceShape.coefSign, if_neg h, neg_one_mul]
      rfl
  · rw [dif_neg hi, List.getElem?_eq_none]
    simp
    omega

/-! ## Samples -/

theorem rotMatrixApply_mirror (t : ℝ) (v : V3) : rotMatrixApply t (mirrorZ v) = mirrorZ (rotMatrixApply t v) := rfl

namespace PlasmaGrid

variable (G : PlasmaGrid)

theorem deltaPhi_mirror (i j : ℕ) : G.mirror.deltaPhi i j = mirrorZ (G.deltaPhi i j) := by
  rw [deltaPhi, deltaPhi]
  by_cases h : i + 1 < G.nPhi
  · rw [if_pos h, if_pos (show i + 1 < G.mirror.nPhi from h), mirrorZ_sub]
    rfl
  · rw [if_neg h, if_neg (show ¬ i + 1 < G.mirror.nPhi from h), mirrorZ_sub]
    rfl

theorem deltaTheta_mirror (i j : ℕ) : G.mirror.deltaTheta i j = mirrorZ (G.deltaTheta i j) := by
  simp only [deltaTheta, mirror, mirrorZ_sub]

/-- The approximate normal of the mirror image points to the other side. -/
theorem unitnormalApprox_mirror (i j : ℕ) : G.mirror.unitnormalApprox i j = -mirrorZ (G.unitnormalApprox i j) := by
  rw [unitnormalApprox, normalApprox, deltaPhi_mirror, deltaTheta_mirror, mirrorZ_cross, ← normalApprox, v3_neg_norm, mirrorZ_norm, v3_smul_neg,
    ← mirrorZ_smul, unitnormalApprox]

theorem offset_mirror (d : ℝ) (i j : ℕ) : G.mirror.offset (-d) i j = mirrorZ (G.offset d i j) := by
  rw [offset, unitnormalApprox_mirror, v3_smul_neg, v3_neg_smul, v3_neg_neg, ← mirrorZ_smul, offset, mirrorZ_add]
  rfl

theorem offsetSamples_mirror (d : ℝ) (sym : Bool) : G.mirror.offsetSamples none (-d) sym = (G.offsetSamples none d sym).map FitPoint.mirror := by
  have h : ∀ i j, G.mirror.offsetSample none (-d) i j = (G.offsetSample none d i j).mirror := by
    intro i j
    simp only [offsetSample, offsetWith, offset_mirror, FitPoint.mirror, mirrorZ]
    rfl
  simp only [offsetSamples, List.map_flatMap, List.map_map, h]
  rfl

end PlasmaGrid

/-! ## Cross sections -/

theorem sectionPoint_mirror (S : SurfaceShape) (dofs : List ℝ) (nPhi nTheta tor pol i j : ℕ) :
    sectionPoint S (S.mirrorDofs dofs) nPhi nTheta tor pol i j = mirror2 (sectionPoint S dofs nPhi nTheta tor pol i j) := by
  simp only [sectionPoint, gamma_mirror, mirrorZ, mirror2]

section Polygon

variable (n : ℕ) (P : ℕ → ℝ × ℝ)

theorem lineDenom_mirror (p0 p1 p2 p3 : ℝ × ℝ) : lineDenom (mirror2 p0) (mirror2 p1) (mirror2 p2) (mirror2 p3) = -lineDenom p0 p1 p2 p3 := by
  simp only [lineDenom, mirror2, Prod.fst_sub, Prod.snd_sub]
  ring

theorem lineInvDenom_mirror (p0 p1 p2 p3 : ℝ × ℝ) :
    lineInvDenom (mirror2 p0) (mirror2 p1) (mirror2 p2) (mirror2 p3) = -lineInvDenom p0 p1 p2 p3 := by
  simp only [lineInvDenom, lineDenom_mirror, ne_eq, neg_eq_zero]
  split
  · rw [one_div, one_div, inv_neg]
  · rw [neg_zero]

theorem lineIntersection_mirror (p0 p1 p2 p3 : ℝ × ℝ) :
    lineIntersection (mirror2 p0) (mirror2 p1) (mirror2 p2) (mirror2 p3) ↔ lineIntersection p0 p1 p2 p3 := by
  simp only [lineIntersection, lineInvDenom_mirror, lineDenom_mirror, Prod.fst_sub, Prod.snd_sub, ne_eq, neg_eq_zero]
  simp only [mirror2]
  have es : (-(-p1.2 - -p0.2) * (p0.1 - p2.1) + (p1.1 - p0.1) * (-p0.2 - -p2.2)) * -lineInvDenom p0 p1 p2 p3 =
      (-(p1.2 - p0.2) * (p0.1 - p2.1) + (p1.1 - p0.1) * (p0.2 - p2.2)) * lineInvDenom p0 p1 p2 p3 := by ring
  have et : ((p3.1 - p2.1) * (-p0.2 - -p2.2) - (-p3.2 - -p2.2) * (p0.1 - p2.1)) * -lineInvDenom p0 p1 p2 p3 =
      ((p3.1 - p2.1) * (p0.2 - p2.2) - (p3.2 - p2.2) * (p0.1 - p2.1)) * lineInvDenom p0 p1 p2 p3 := by ring
  rw [es, et]

theorem edgeCrosses_mirror (a : ℕ) : edgeCrosses n (fun j => mirror2 (P j)) a ↔ edgeCrosses n P a := by
  simp only [edgeCrosses, nextVertex, lineIntersection_mirror]

theorem scanWeight_mirror (a : ℕ) : scanWeight n (fun j => mirror2 (P j)) a = scanWeight n P a := by
  induction a with
  | zero =>
    rw [scanWeight, scanWeight]
    by_cases h : edgeCrosses n P 0
    · rw [if_pos h, if_pos ((edgeCrosses_mirror n P 0).2 h)]
    · rw [if_neg h, if_neg fun h' => h ((edgeCrosses_mirror n P 0).1 h')]
  | succ a ih =>
    rw [scanWeight, scanWeight, ih]
    by_cases h : edgeCrosses n P (a + 1)
    · rw [if_pos h, if_pos ((edgeCrosses_mirror n P _).2 h)]
    · rw [if_neg h, if_neg fun h' => h ((edgeCrosses_mirror n P _).1 h')]

theorem polygonWeight_mirror (j : ℕ) : polygonWeight n (fun j => mirror2 (P j)) j = polygonWeight n P j := by
  simp only [polygonWeight, scanWeight_mirror n P]

theorem segmentLength_mirror (j : ℕ) : segmentLength n (fun j => mirror2 (P j)) j = segmentLength n P j := by
  simp only [segmentLength, nextVertex, mirror2]
  congr 1
  ring

theorem arclength_mirror (j : ℕ) : arclength n (fun j => mirror2 (P j)) j = arclength n P j := by
  induction j with
  | zero => exact segmentLength_mirror n P 0
  | succ j ih => rw [arclength, ih, segmentLength_mirror n P, arclength]

theorem thetaArc_mirror (j : ℕ) : thetaArc n (fun j => mirror2 (P j)) j = thetaArc n P j := by
  simp only [thetaArc, arclength_mirror n P]

end Polygon

theorem arcSamples_mirror (S : SurfaceShape) (dofs : List ℝ) (nPhi nTheta tor pol : ℕ) :
    arcSamples S (S.mirrorDofs dofs) nPhi nTheta tor pol = (arcSamples S dofs nPhi nTheta tor pol).map FitPoint.mirror := by
  simp only [arcSamples, List.map_flatMap, List.map_map]
  refine List.flatMap_congr fun i _ => List.map_congr_left fun j _ => ?_
  have e : sectionPoint S (S.mirrorDofs dofs) nPhi nTheta tor pol i = fun j => mirror2 (sectionPoint S dofs nPhi nTheta tor pol i j) :=
    funext fun j => sectionPoint_mirror S dofs nPhi nTheta tor pol i j
  simp only [e, thetaArc_mirror, polygonWeight_mirror, Function.comp_apply, FitPoint.mirror]
  rfl

/-! ## The generators -/

theorem gridOf_mirror (nfp : ℕ) (points : List (List V3)) : gridOf nfp (points.map fun r => r.map mirrorZ) = (gridOf nfp points).mirror := by
  have h0 : mirrorZ (0 : V3) = 0 := by ext <;> simp [mirrorZ]
  have h1 : ((points.map fun r => r.map mirrorZ).headD []).length = (points.headD []).length := by cases points <;> simp
  have h2 : ∀ i j, ((points.map fun r => r.map mirrorZ).getD i []).getD j 0 = mirrorZ ((points.getD i []).getD j 0) := by
    intro i j
    have e : (points.map fun r => r.map mirrorZ).getD i [] = (points.getD i []).map mirrorZ := by
      simp only [List.getD_eq_getElem?_getD, List.getElem?_map]
      cases points[i]? <;> simp
    rw [e]
    simp only [List.getD_eq_getElem?_getD, List.getElem?_map]
    cases (points[i]?.getD [])[j]? <;> simp [h0]
  rw [gridOf, h1, List.length_map]
  simp only [h2]
  rfl

/-- **C162.** The uniform offset of the mirror image by the opposite distance is the mirror image of the uniform offset. -/
theorem C162_offset_generator (points : List (List V3)) (d : ℝ) (nfp : ℕ) (sym : Bool) (mpol ntor : ℕ) :
    offsetGenerator (points.map fun r => r.map mirrorZ) (-d) nfp sym mpol ntor =
      SurfaceShape.mirrorDofs ⟨nfp, sym, mpol, ntor⟩ (offsetGenerator points d nfp sym mpol ntor) := by
  simp only [offsetGenerator]
  rw [gridOf_mirror, PlasmaGrid.offsetSamples_mirror]
  exact (congrArg List.ofFn (fitSolve_mirror _ 0 _)).trans (ofFn_mirror _ _)

/-- **C162.** The same for the generator with arc length angles. -/
theorem C162_arc_generator (tor pol : ℕ) (lam : ℝ) (points : List (List V3)) (d : ℝ) (nfp : ℕ) (sym : Bool) (mpol ntor : ℕ) :
    arcGenerator tor pol lam (points.map fun r => r.map mirrorZ) (-d) nfp sym mpol ntor =
      SurfaceShape.mirrorDofs ⟨nfp, sym, mpol, ntor⟩ (arcGenerator tor pol lam points d nfp sym mpol ntor) := by
  simp only [arcGenerator]
  rw [C162_offset_generator, gridOf_mirror]
  have e := arcSamples_mirror (generatedShape (gridOf nfp points) sym mpol ntor) (offsetGenerator points d nfp sym mpol ntor)
    (gridOf nfp points).nPhi (gridOf nfp points).nTheta tor pol
  exact (congrArg (fun s => List.ofFn ((generatedShape (gridOf nfp points) sym mpol ntor).fitSolve lam s)) e).trans
    ((congrArg List.ofFn (fitSolve_mirror _ lam _)).trans (ofFn_mirror _ _))

/-- **C162.** A call with the default generator for the mirror image of a plasma and a distance `-d` returns what the call for the plasma and the
distance `d` returns, so with the distance `d` it returns what the plasma and the distance `-d` give. -/
theorem C162_call {opt : Optimizer ℝ} {gradOp : (List ℝ → ℝ) → List ℝ → List ℝ} (hsh : opt.ShapeContract gradOp)
    (hloc : opt.LocalContract gradOp) (others : List String) (a : CallArgs) {objs : List ObjectiveItem} {cons : List Request}
    (hgen : a.generator = defaultGenerator) (hsym : a.plasmaStellsym = a.stellsym) {d : ℝ} (hd : a.plasmaCoilDistance = some d)
    (hn : ∀ r ∈ cons, r.name ≠ "K" ∧ r.name ≠ "K_dot_grad_K" ∧ r.name ≠ "K_dot_grad_K_cyl" ∧ r.name ≠ "winding_surface_B")
    (hh : a.opts.smoothing = none ∨ (∀ o ∈ objs, o.name ≠ "f_huber_K") ∧ ∀ r ∈ cons, r.name ≠ "f_huber_K") :
    MirroredResults (quadcoilCall opt gradOp (shippedRegistry FieldProblem.fns others) (a.mirrored.listing objs cons))
      (quadcoilCall opt gradOp (shippedRegistry FieldProblem.fns others) (a.listing objs cons)) ∧ a.mirrored.plasmaCoilDistance = some (-d) := by
  refine ⟨C161_call hsh hloc others a (fun e _ => ?_) (.inr (.inl (by rw [hd]; rfl))) hn hh, by simp [CallArgs.mirrored, hd]⟩
  rw [hgen, hsym]
  exact C162_arc_generator ..

/-! ## A positive distance moves inwards -/

theorem exists_pos_below {n : ℕ} {f : ℕ → ℝ} (h : ∀ i < n, 0 < f i) : ∃ e > 0, ∀ i < n, e ≤ f i := by
  induction n with
  | zero => exact ⟨1, one_pos, by simp⟩
  | succ n ih =>
    obtain ⟨e, he, h'⟩ := ih fun i hi => h i (by omega)
    refine ⟨min e (f n), lt_min he (h n (by omega)), fun i hi => ?_⟩
    rcases Nat.lt_succ_iff_lt_or_eq.1 hi with hi | rfl
    · exact (min_le_left _ _).trans (h' i hi)
    · exact min_le_right _ _

/-- The property fails: the requested distance is measured outwards only if the poloidal angle turns counterclockwise. For the mirror image of a
circular torus, which is the same torus with the opposite poloidal angle, every small positive distance puts all points of the offset surface
inside the plasma. -/
theorem C162_inwards_partial {nfp nPhi nTheta : ℕ} (h3 : 3 ≤ nfp * nPhi) (ht : 3 ≤ nTheta) {R r : ℝ} (hr : 0 < r) (hR : r < R) :
    (∀ i j, let g := (torusGrid nfp nPhi nTheta R r).mirror.gamma i j; (sqrt (g.x ^ 2 + g.y ^ 2) - R) ^ 2 + g.z ^ 2 = r ^ 2) ∧
    ∃ d0 > 0, ∀ d, 0 < d → d < d0 → ∀ i < nPhi, ∀ j < nTheta,
      let q := (torusGrid nfp nPhi nTheta R r).mirror.offset d i j
      (sqrt (q.x ^ 2 + q.y ^ 2) - R) ^ 2 + q.z ^ 2 < r ^ 2 := by
  have hgc : ∀ i j, ((torusGrid nfp nPhi nTheta R r).gamma i j - revolve (2 * π * i / (nfp * nPhi)) (R, 0)).normSq = r ^ 2 := by
    intro i j
    simp only [torusGrid, revolutionGrid, revolve, V3.normSq, V3.sub_x, V3.sub_y, V3.sub_z]
    linear_combination (r ^ 2 * cos (2 * π * j / nTheta) ^ 2) * sin_sq_add_cos_sq (2 * π * i / (nfp * nPhi)) + r ^ 2 * sin_sq_add_cos_sq (2 * π * j / nTheta)
  constructor
  · intro i j
    have hpos : 0 < R + r * cos (2 * π * j / nTheta) := by nlinarith [neg_one_le_cos (2 * π * j / nTheta)]
    have e : ((R + r * cos (2 * π * j / nTheta)) * cos (2 * π * i / (nfp * nPhi))) ^ 2 +
        ((R + r * cos (2 * π * j / nTheta)) * sin (2 * π * i / (nfp * nPhi))) ^ 2 = (R + r * cos (2 * π * j / nTheta)) ^ 2 := by
      linear_combination ((R + r * cos (2 * π * j / nTheta)) ^ 2) * sin_sq_add_cos_sq (2 * π * i / (nfp * nPhi))
    simp only [PlasmaGrid.mirror, mirrorZ, torusGrid, revolutionGrid, revolve]
    rw [e, sqrt_sq hpos.le]
    linear_combination r ^ 2 * sin_sq_add_cos_sq (2 * π * j / nTheta)
  · have hpos : ∀ i < nPhi, ∀ j < nTheta, 0 < V3.dot ((torusGrid nfp nPhi nTheta R r).unitnormalApprox i j)
        ((torusGrid nfp nPhi nTheta R r).gamma i j - revolve (2 * π * i / (nfp * nPhi)) (R, 0)) := by
      intro i hi j hj
      have h := C98_circular_torus h3 ht hr hR hi hj one_pos
      change V3.dot ((torusGrid nfp nPhi nTheta R r).offset 1 i j - (torusGrid nfp nPhi nTheta R r).gamma i j)
        (_ - (torusGrid nfp nPhi nTheta R r).gamma i j) < 0 at h
      rw [PlasmaGrid.offset] at h
      simp only [V3.dot, V3.sub_x, V3.sub_y, V3.sub_z, V3.add_x, V3.add_y, V3.add_z, V3.smul_x, V3.smul_y, V3.smul_z] at h ⊢
      linarith
    choose! f hf hf' using fun i (hi : i < nPhi) => exists_pos_below (hpos i hi)
    obtain ⟨e, he, he'⟩ := exists_pos_below hf
    refine ⟨e, he, fun d hd hde i hi j hj => ?_⟩
    have hm : (torusGrid nfp nPhi nTheta R r).mirror.offset d i j = mirrorZ ((torusGrid nfp nPhi nTheta R r).offset (-d) i j) := by
      rw [← PlasmaGrid.offset_mirror, neg_neg]
    have h1 := axis_distance ((torusGrid nfp nPhi nTheta R r).offset (-d) i j) (φ := 2 * π * i / (nfp * nPhi)) (hr.trans hR)
    rw [offset_distance _ _ _ (torusGrid_normal h3 ht hr hR hi hj).1, hgc] at h1
    have h2 := (he' i hi).trans (hf' i hi j hj)
    rw [hm]
    simp only [mirrorZ]
    nlinarith

/-- A call with a generated winding surface that meets the hypotheses. -/
example (b : ℝ) (others : List String) :
    let a : CallArgs := { torusCall b with plasmaCoilDistance := some (1 / 2), windingDofs := none, generator := defaultGenerator }
    MirroredResults
      (quadcoilCall (gradientDescent realGrad (1 / 4)) realGrad (shippedRegistry FieldProblem.fns others)
        (a.mirrored.listing [⟨"f_B", .none, 1⟩, ⟨"f_K", .none, 1 / 2⟩] [⟨"K_theta", ">=", .none, 0⟩]))
      (quadcoilCall (gradientDescent realGrad (1 / 4)) realGrad (shippedRegistry FieldProblem.fns others)
        (a.listing [⟨"f_B", .none, 1⟩, ⟨"f_K", .none, 1 / 2⟩] [⟨"K_theta", ">=", .none, 0⟩])) := by
  intro a
  exact (C162_call (gradientDescent_shape _ (by simp [realGrad]) _) (gradientDescent_local _) others a rfl rfl rfl (by simp) (.inr (by simp))).1

/-- The hypotheses of the last theorem are met. -/
example : ∃ d0 > 0, ∀ d, 0 < d → d < d0 → ∀ i < 4, ∀ j < 6,
    let q := (torusGrid 2 4 6 3 1).mirror.offset d i j
    (sqrt (q.x ^ 2 + q.y ^ 2) - 3) ^ 2 + q.z ^ 2 < 1 ^ 2 :=
  (C162_inwards_partial (by norm_num) (by norm_num) one_pos (by norm_num)).2

/-- The mirror image of a point differs from it. -/
example : gridOf 1 [[⟨1, 0, 2⟩]] ≠ gridOf 1 ([[⟨1, 0, 2⟩]].map fun r => r.map mirrorZ) := by
  rw [gridOf_mirror]
  intro h
  have := congrArg (fun G : PlasmaGrid => (G.gamma 0 0).z) h
  simp [gridOf, PlasmaGrid.mirror, mirrorZ] at this
  norm_num at this

end Verif
