import Verif.Props.LiftedWitness
import Verif.Props.MirrorGenerator
import Verif.Props.AxisymmetricOffset
import Verif.Props.KeptVertices

/-!
# C170: the generated winding surface of a plasma at another height
-/

namespace Verif

open Real

/-- A sample, moved up. -/
def FitPoint.lift (h : ℝ) (p : FitPoint) : FitPoint := { p with z := p.z + h }

/-- A point of a cross section, moved up. -/
def lift2 (h : ℝ) (p : ℝ × ℝ) : ℝ × ℝ := (p.1, p.2 + h)

/-- A sampled plasma, moved up. -/
def PlasmaGrid.lift (h : ℝ) (G : PlasmaGrid) : PlasmaGrid := { G with gamma := fun i j => liftZ h (G.gamma i j) }

/-! ## The fit -/

section Fit

variable {S : SurfaceShape} (hs : S.stellsym = false) (h : ℝ)

include hs in
theorem fitSize_free : S.fitSize = 2 * S.numR := by
  have hl := rOperator_length S 0 0 0 0
  have hz : (S.zOperator 0 0 0 0).length = S.numR := by
    rw [← hl, SurfaceShape.zOperator, SurfaceShape.rOperator, hs]
    rfl
  rw [S.fitSize_eq 0 0, SurfaceShape.rOperatorPadded, List.length_append, List.length_map, hl, hz]
  ring

theorem rPadded_height (p t w : ℝ) : ((S.rOperatorPadded 0 0 p t).map (· * w)).getD S.numR 0 = 0 := by
  rw [SurfaceShape.rOperatorPadded, List.map_append, List.getD_append_right _ _ _ _ (by rw [List.length_map, rOperator_length]),
    List.map_map, List.getD_eq_getElem?_getD, List.getElem?_map]
  cases (S.zOperator 0 0 p t)[S.numR - ((S.rOperator 0 0 p t).map (· * w)).length]? <;> simp

include hs in
theorem zPadded_height (p t w : ℝ) : ((S.zOperatorPadded 0 0 p t).map (· * w)).getD S.numR 0 = w := by
  have hl : (((S.rOperator 0 0 p t).map fun _ => (0 : ℝ)).map (· * w)).length = S.numR := by rw [List.length_map, List.length_map, rOperator_length]
  rw [SurfaceShape.zOperatorPadded, List.map_append, ← hl, List.getD_append_right _ _ _ _ le_rfl, Nat.sub_self, SurfaceShape.zOperator, hs]
  simp only [Bool.false_eq_true, if_false, SurfaceShape.cmn, surfMc, surfNc, List.zipWith_cons_cons, List.cons_append, List.map_cons,
    List.getD_cons_zero, cEntry_zeroMode]
  simp

include hs in
theorem fitReg_height (lam : ℝ) (k m : Fin S.fitSize) (hm : (m : ℕ) = S.numR) : S.fitReg lam k m = 0 := by
  rw [SurfaceShape.fitReg, Matrix.smul_apply, Matrix.diagonal_apply]
  split
  · rename_i hk
    subst hk
    have hn : S.numR = (0 :: (S.sineSquares ++ S.sineSquares)).length := by
      have h1 := fitSize_free hs
      rw [SurfaceShape.fitSize, S.m2n2_eq, hs] at h1
      simp only [Bool.false_eq_true, if_false, List.length_append, List.length_cons] at h1 ⊢
      omega
    have e : S.m2n2[k] = 0 := by
      have h1 : S.m2n2[(k : ℕ)]? = some 0 := by
        rw [S.m2n2_eq, hs, hm, hn]
        simp only [Bool.false_eq_true, if_false]
        rw [List.getElem?_append_right le_rfl, Nat.sub_self]
        rfl
      exact (List.getElem?_eq_some_iff.1 h1).2
    rw [e]
    simp
  · simp

/-- The coefficients as a function, moved up. -/
noncomputable def SurfaceShape.liftVec (S : SurfaceShape) (h : ℝ) (x : Fin S.fitSize → ℝ) : Fin S.fitSize → ℝ :=
  fun k => x k + if (k : ℕ) = S.numR then h else 0

include hs in
theorem isFit_lift (lam : ℝ) {pts : List FitPoint} {x : Fin S.fitSize → ℝ} (hx : S.IsFit lam pts x) :
    S.IsFit lam (pts.map (FitPoint.lift h)) (S.liftVec h x) := by
  rw [isFit_iff_sums] at hx ⊢
  intro k
  have hk := hx k
  have hn : S.numR < S.fitSize := by
    have := fitSize_free hs
    have := numR_pos S
    omega
  have e1 : ∀ m : Fin S.fitSize, ((S.fitRows (pts.map (FitPoint.lift h))).map fun r => r.1.getD k 0 * r.1.getD m 0).sum =
      ((S.fitRows pts).map fun r => r.1.getD k 0 * r.1.getD m 0).sum := by
    intro m
    rw [fitRows_sum, fitRows_sum, List.map_map]
    rfl
  have e2 : ((S.fitRows (pts.map (FitPoint.lift h))).map fun r => r.1.getD k 0 * r.2).sum =
      ((S.fitRows pts).map fun r => r.1.getD k 0 * r.2).sum +
        ((S.fitRows pts).map fun r => r.1.getD k 0 * r.1.getD S.numR 0).sum * h := by
    rw [fitRows_sum, fitRows_sum, fitRows_sum, ← List.sum_map_mul_right, List.map_map, ← List.sum_map_add]
    refine congrArg List.sum (List.map_congr_left fun p _ => ?_)
    simp only [Function.comp_apply, FitPoint.lift, rPadded_height, zPadded_height hs]
    ring
  rw [e2, ← hk]
  simp only [e1, SurfaceShape.liftVec, mul_add, Finset.sum_add_distrib, mul_ite, mul_zero]
  congr 1
  rw [Finset.sum_eq_single (⟨S.numR, hn⟩ : Fin S.fitSize)]
  · rw [if_pos rfl, fitReg_height hs lam k ⟨S.numR, hn⟩ rfl, add_zero]
  · intro m _ hm
    rw [if_neg fun e => hm (Fin.ext e)]
  · intro hm
    exact absurd (Finset.mem_univ _) hm

theorem liftVec_neg (x : Fin S.fitSize → ℝ) : S.liftVec h (S.liftVec (-h) x) = x := by
  funext k
  unfold SurfaceShape.liftVec
  split <;> ring

theorem lift_neg_points (pts : List FitPoint) : (pts.map (FitPoint.lift h)).map (FitPoint.lift (-h)) = pts := by
  rw [List.map_map]
  conv_rhs => rw [← List.map_id pts]
  refine List.map_congr_left fun p _ => ?_
  cases p
  simp [FitPoint.lift]

include hs in
/-- A unique fit moves with the samples. -/
theorem fitSolve_lift {lam : ℝ} {pts : List FitPoint} (hu : ∃! x, S.IsFit lam pts x) :
    S.fitSolve lam (pts.map (FitPoint.lift h)) = S.liftVec h (S.fitSolve lam pts) := by
  obtain ⟨x, hx, hux⟩ := hu
  have h1 : S.IsLeastFit lam pts x := ⟨hx, fun y hy => by rw [hux y hy]⟩
  have h2 : S.IsLeastFit lam (pts.map (FitPoint.lift h)) (S.liftVec h x) := by
    refine ⟨isFit_lift hs h lam hx, fun y hy => ?_⟩
    have := isFit_lift hs (-h) lam hy
    rw [lift_neg_points] at this
    have e := congrArg (S.liftVec h) (hux _ this)
    rw [liftVec_neg] at e
    rw [e]
  rw [fitSolve_eq h1, fitSolve_eq h2]

theorem ofFn_lift (x : Fin S.fitSize → ℝ) : List.ofFn (S.liftVec h x) = S.liftDofs h (List.ofFn x) := by
  refine List.ext_getElem (by simp [SurfaceShape.liftDofs]) fun i h1 h2 => ?_
  simp only [SurfaceShape.liftDofs, SurfaceShape.liftVec, List.getElem_ofFn, List.getElem_modify]
  by_cases e : i = S.numR
  · rw [if_pos e, if_pos e.symm]
  · rw [if_neg e, if_neg fun e' => e e'.symm, add_zero]

end Fit

/-! ## Samples -/

namespace PlasmaGrid

variable (G : PlasmaGrid) (h : ℝ)

theorem deltaPhi_lift (i j : ℕ) : (G.lift h).deltaPhi i j = G.deltaPhi i j := by
  rw [deltaPhi, deltaPhi]
  by_cases hi : i + 1 < G.nPhi
  · rw [if_pos hi, if_pos (show i + 1 < (G.lift h).nPhi from hi)]
    exact liftZ_sub h _ _
  · rw [if_neg hi, if_neg (show ¬ i + 1 < (G.lift h).nPhi from hi)]
    exact liftZ_sub h (rotMatrixApply (2 * π / G.nfp) (G.gamma 0 j)) _

theorem deltaTheta_lift (i j : ℕ) : (G.lift h).deltaTheta i j = G.deltaTheta i j := liftZ_sub h _ _

theorem unitnormalApprox_lift (i j : ℕ) : (G.lift h).unitnormalApprox i j = G.unitnormalApprox i j := by
  rw [unitnormalApprox, normalApprox, deltaPhi_lift, deltaTheta_lift, ← normalApprox, unitnormalApprox]

theorem offset_lift (d : ℝ) (i j : ℕ) : (G.lift h).offset d i j = liftZ h (G.offset d i j) := by
  rw [offset, unitnormalApprox_lift, offset]
  ext <;> simp [lift, liftZ]
  ring

theorem offsetSamples_lift (d : ℝ) (sym : Bool) : (G.lift h).offsetSamples none d sym = (G.offsetSamples none d sym).map (FitPoint.lift h) := by
  have e : ∀ i j, (G.lift h).offsetSample none d i j = (G.offsetSample none d i j).lift h := by
    intro i j
    simp only [offsetSample, offsetWith, offset_lift, FitPoint.lift, liftZ]
    rfl
  simp only [offsetSamples, List.map_flatMap, List.map_map, e]
  rfl

end PlasmaGrid

/-! ## Cross sections -/

theorem sectionPoint_lift {S : SurfaceShape} (hs : S.stellsym = false) {dofs : List ℝ} (hl : S.numR < dofs.length) (h : ℝ)
    (nPhi nTheta tor pol i j : ℕ) :
    sectionPoint S (S.liftDofs h dofs) nPhi nTheta tor pol i j = lift2 h (sectionPoint S dofs nPhi nTheta tor pol i j) := by
  simp only [sectionPoint, gamma_lift hs hl, liftZ, lift2]

section Polygon

variable (h : ℝ) (n : ℕ) (P : ℕ → ℝ × ℝ)

theorem lift2_sub (p q : ℝ × ℝ) : lift2 h p - lift2 h q = p - q := by
  ext <;> simp [lift2]

theorem lineDenom_lift (p0 p1 p2 p3 : ℝ × ℝ) : lineDenom (lift2 h p0) (lift2 h p1) (lift2 h p2) (lift2 h p3) = lineDenom p0 p1 p2 p3 := by
  simp only [lineDenom, lift2_sub]

theorem lineIntersection_lift (p0 p1 p2 p3 : ℝ × ℝ) :
    lineIntersection (lift2 h p0) (lift2 h p1) (lift2 h p2) (lift2 h p3) ↔ lineIntersection p0 p1 p2 p3 := by
  have e : ∀ p q : ℝ × ℝ, (lift2 h p).1 - (lift2 h q).1 = p.1 - q.1 ∧ (lift2 h p).2 - (lift2 h q).2 = p.2 - q.2 := fun p q => by simp [lift2]
  simp only [lineIntersection, lineInvDenom, lineDenom_lift, lift2_sub, (e _ _).1, (e _ _).2]

theorem edgeCrosses_lift (a : ℕ) : edgeCrosses n (fun j => lift2 h (P j)) a ↔ edgeCrosses n P a := by
  simp only [edgeCrosses, nextVertex, lineIntersection_lift]

theorem scanWeight_lift (a : ℕ) : scanWeight n (fun j => lift2 h (P j)) a = scanWeight n P a := by
  induction a with
  | zero =>
    rw [scanWeight, scanWeight]
    by_cases e : edgeCrosses n P 0
    · rw [if_pos e, if_pos ((edgeCrosses_lift h n P 0).2 e)]
    · rw [if_neg e, if_neg fun e' => e ((edgeCrosses_lift h n P 0).1 e')]
  | succ a ih =>
    rw [scanWeight, scanWeight, ih]
    by_cases e : edgeCrosses n P (a + 1)
    · rw [if_pos e, if_pos ((edgeCrosses_lift h n P _).2 e)]
    · rw [if_neg e, if_neg fun e' => e ((edgeCrosses_lift h n P _).1 e')]

theorem polygonWeight_lift (j : ℕ) : polygonWeight n (fun j => lift2 h (P j)) j = polygonWeight n P j := by
  simp only [polygonWeight, scanWeight_lift h n P]

theorem segmentLength_lift (j : ℕ) : segmentLength n (fun j => lift2 h (P j)) j = segmentLength n P j := by
  simp only [segmentLength, nextVertex, lift2, add_sub_add_right_eq_sub]

theorem arclength_lift (j : ℕ) : arclength n (fun j => lift2 h (P j)) j = arclength n P j := by
  induction j with
  | zero => exact segmentLength_lift h n P 0
  | succ j ih => rw [arclength, ih, segmentLength_lift h n P, arclength]

theorem thetaArc_lift (j : ℕ) : thetaArc n (fun j => lift2 h (P j)) j = thetaArc n P j := by
  simp only [thetaArc, arclength_lift h n P]

end Polygon

theorem arcSamples_lift {S : SurfaceShape} (hs : S.stellsym = false) {dofs : List ℝ} (hl : S.numR < dofs.length) (h : ℝ)
    (nPhi nTheta tor pol : ℕ) :
    arcSamples S (S.liftDofs h dofs) nPhi nTheta tor pol = (arcSamples S dofs nPhi nTheta tor pol).map (FitPoint.lift h) := by
  simp only [arcSamples, List.map_flatMap, List.map_map]
  refine List.flatMap_congr fun i _ => List.map_congr_left fun j _ => ?_
  have e : sectionPoint S (S.liftDofs h dofs) nPhi nTheta tor pol i = fun j => lift2 h (sectionPoint S dofs nPhi nTheta tor pol i j) :=
    funext fun j => sectionPoint_lift hs hl h nPhi nTheta tor pol i j
  simp only [e, thetaArc_lift, polygonWeight_lift, Function.comp_apply, FitPoint.lift]
  rfl

/-! ## The generators -/

/-- Only the points of the grid are used. -/
theorem offsetSamples_congr {G H : PlasmaGrid} (h1 : G.nfp = H.nfp) (h2 : G.nPhi = H.nPhi) (h3 : G.nTheta = H.nTheta)
    (hg : ∀ i < H.nPhi, ∀ j < H.nTheta, G.gamma i j = H.gamma i j) (d : ℝ) (sym : Bool) :
    G.offsetSamples none d sym = H.offsetSamples none d sym := by
  simp only [PlasmaGrid.offsetSamples, PlasmaGrid.offsetRows, h2, h3]
  refine List.flatMap_congr fun i hi => List.map_congr_left fun j hj => ?_
  have hi : i < H.nPhi := by
    rw [List.mem_range] at hi
    split at hi <;> omega
  have hj := List.mem_range.1 hj
  have hk : (j + H.nTheta - 1) % H.nTheta < H.nTheta := Nat.mod_lt _ (by omega)
  have e : G.offset d i j = H.offset d i j := by
    have et : G.deltaTheta i j = H.deltaTheta i j := by
      simp only [PlasmaGrid.deltaTheta, h3, hg i hi _ hk, hg i hi j hj]
    have ep : G.deltaPhi i j = H.deltaPhi i j := by
      simp only [PlasmaGrid.deltaPhi, h1, h2, hg i hi j hj, hg 0 (by omega) j hj]
      by_cases hn : i + 1 < H.nPhi
      · rw [if_pos hn, if_pos hn, hg _ hn j hj]
      · rw [if_neg hn, if_neg hn]
    simp only [PlasmaGrid.offset, PlasmaGrid.unitnormalApprox, PlasmaGrid.normalApprox, et, ep, hg i hi j hj]
  simp only [PlasmaGrid.offsetSample, PlasmaGrid.offsetWith, e, h3]

theorem gridOf_lift (nfp : ℕ) {points : List (List V3)} (hr : ∀ r ∈ points, r.length = (points.headD []).length) (h d : ℝ) (sym : Bool) :
    (gridOf nfp (points.map fun r => r.map (liftZ h))).offsetSamples none d sym =
      ((gridOf nfp points).offsetSamples none d sym).map (FitPoint.lift h) := by
  rw [← PlasmaGrid.offsetSamples_lift]
  refine offsetSamples_congr ?_ ?_ ?_ (fun i hi j hj => ?_) d sym
  · rfl
  · exact List.length_map _
  · cases points <;> simp [gridOf, PlasmaGrid.lift]
  · have hi : i < points.length := hi
    have hj : j < points[i].length := by
      rw [hr _ (List.getElem_mem hi)]
      exact hj
    simp only [gridOf, PlasmaGrid.lift, List.getD_eq_getElem?_getD, List.getElem?_map, List.getElem?_eq_getElem hi, Option.map_some,
      Option.getD_some, List.getElem?_eq_getElem hj]

/-- The first of the two fits of a generator, without regularisation, has only one solution: the offset points determine the coefficients. -/
def OffsetResolved (points : List (List V3)) (d : ℝ) (nfp : ℕ) (sym : Bool) (mpol ntor : ℕ) : Prop :=
  ∃! x, (SurfaceShape.mk nfp sym mpol ntor).IsFit 0 ((gridOf nfp points).offsetSamples none d sym) x

section

variable {points : List (List V3)} (hr : ∀ r ∈ points, r.length = (points.headD []).length) {d : ℝ} {nfp mpol ntor : ℕ}
  (hu : OffsetResolved points d nfp false mpol ntor) (h : ℝ)

include hr hu in
/-- **C170.** The uniform offset of a plasma at another height is the uniform offset of the plasma, at that height. -/
theorem C170_offset_generator_partial : offsetGenerator (points.map fun r => r.map (liftZ h)) d nfp false mpol ntor =
    SurfaceShape.liftDofs ⟨nfp, false, mpol, ntor⟩ h (offsetGenerator points d nfp false mpol ntor) := by
  simp only [offsetGenerator]
  rw [gridOf_lift nfp hr]
  exact (congrArg List.ofFn (fitSolve_lift rfl h hu)).trans (ofFn_lift h _)

theorem offsetGenerator_length (points : List (List V3)) (d : ℝ) (nfp mpol ntor : ℕ) :
    (offsetGenerator points d nfp false mpol ntor).length = 2 * (SurfaceShape.mk nfp false mpol ntor).numR := by
  rw [offsetGenerator, List.length_ofFn]
  exact fitSize_free rfl

theorem arcGenerator_length (tor pol : ℕ) (lam : ℝ) (points : List (List V3)) (d : ℝ) (nfp mpol ntor : ℕ) :
    (arcGenerator tor pol lam points d nfp false mpol ntor).length = 2 * (SurfaceShape.mk nfp false mpol ntor).numR := by
  rw [arcGenerator, List.length_ofFn]
  exact fitSize_free rfl

theorem arcGenerator_eq (tor pol : ℕ) (lam : ℝ) (points : List (List V3)) (d : ℝ) (nfp : ℕ) (sym : Bool) (mpol ntor : ℕ) :
    arcGenerator tor pol lam points d nfp sym mpol ntor = List.ofFn ((SurfaceShape.mk nfp sym mpol ntor).fitSolve lam
      (arcSamples ⟨nfp, sym, mpol, ntor⟩ (offsetGenerator points d nfp sym mpol ntor) points.length (points.headD []).length tor pol)) := rfl

include hr hu in
/-- **C170.** The same for the generator with arc length angles. -/
theorem C170_arc_generator_partial {tor pol : ℕ} {lam : ℝ} (hl : 0 < lam) (ht : 0 < tor) (hp : 0 < pol)
    (h0 : 0 < (points.headD []).length) :
    arcGenerator tor pol lam (points.map fun r => r.map (liftZ h)) d nfp false mpol ntor =
      SurfaceShape.liftDofs ⟨nfp, false, mpol, ntor⟩ h (arcGenerator tor pol lam points d nfp false mpol ntor) := by
  have h1 : ((points.map fun r => r.map (liftZ h)).headD []).length = (points.headD []).length := by cases points <;> simp
  have hn : (SurfaceShape.mk nfp false mpol ntor).numR < (offsetGenerator points d nfp false mpol ntor).length := by
    rw [offsetGenerator_length]
    have := numR_pos ⟨nfp, false, mpol, ntor⟩
    omega
  have e := arcSamples_lift (S := ⟨nfp, false, mpol, ntor⟩) rfl hn h points.length (points.headD []).length tor pol
  have hr0 : 0 < points.length := by
    cases points with
    | nil => simp at h0
    | cons x xs => simp
  have hu2 := C171_arc_fit_unique ⟨nfp, false, mpol, ntor⟩ (offsetGenerator points d nfp false mpol ntor) hl (nPhi := points.length)
    (nTheta := (points.headD []).length) (tor := tor) (pol := pol) (Nat.mul_pos hr0 ht) (Nat.mul_pos h0 hp)
  rw [arcGenerator_eq, arcGenerator_eq, List.length_map, h1, C170_offset_generator_partial hr hu h, e, fitSolve_lift rfl h hu2, ofFn_lift]

end

/-- **C170.** A call with the default generator for a plasma at another height does the same as the call for the plasma, if no quantity with
cylindrical components is used. -/
theorem C170_default_call_partial (opt : Optimizer ℝ) (gradOp : (List ℝ → ℝ) → List ℝ → List ℝ) (others : List String) (a : CallArgs) (h : ℝ)
    (hs : a.stellsym = false) (hp : a.plasmaStellsym = false) (hl : a.plasmaDofs.length = 2 * a.plasmaShape.numR)
    (hgen : a.generator = defaultGenerator) {d : ℝ} (hd : a.plasmaCoilDistance = some d)
    (hu : OffsetResolved a.plasmaGamma d a.nfp false a.windingMpol a.windingNtor)
    (h0 : 0 < (a.plasmaGamma.headD []).length)
    (hn : ∀ n ∈ a.opts.usedNames ++ a.metrics, n ∉ cylNames) :
    quadcoilCall opt gradOp (shippedRegistry FieldProblem.fns others) (a.lifted h) =
      (quadcoilCall opt gradOp (shippedRegistry FieldProblem.fns others) a).map (Option.map (liftedOut h)) := by
  have hr : ∀ r ∈ a.plasmaGamma, r.length = (a.plasmaGamma.headD []).length := by
    have : ∀ r ∈ a.plasmaGamma, r.length = a.pTheta.length := by
      intro r hr
      obtain ⟨p, _, rfl⟩ := List.mem_map.1 hr
      exact List.length_map _
    intro r hr
    cases hg : a.plasmaGamma with
    | nil => simp [hg] at hr
    | cons x xs => rw [this r hr, List.headD_cons, this x (by simp [hg])]
  have hm : a.described.Movable := by
    have hc : a.windingData = (false, defaultGenerator a.plasmaGamma d a.nfp false a.windingMpol a.windingNtor) := by
      simp only [CallArgs.windingData, hd, hs, hp, hgen]
    refine ⟨?_, hp, ?_, hl⟩
    · rw [described_cp, hc]
    · rw [described_cp, hc]
      exact arcGenerator_length ..
  refine C170_call_partial opt gradOp others a h hm (fun e he => ?_) (.inr (.inl (by rw [hd]; rfl))) hn
  obtain rfl : d = e := by
    rw [hd] at he
    exact Option.some.inj he
  rw [hgen, hs, hp]
  exact C170_arc_generator_partial hr hu h (by norm_num) (by norm_num) (by norm_num) h0

/-! ## When the offset points determine the coefficients -/

open Matrix in
theorem fit_unique_of_determined (S : SurfaceShape) (pts : List FitPoint)
    (hd : ∀ v : Fin S.fitSize → ℝ, (∀ p ∈ pts, S.rDash (List.ofFn v) 0 0 p.phi p.theta * p.w = 0 ∧
      S.zDash (List.ofFn v) 0 0 p.phi p.theta * p.w = 0) → v = 0) : ∃! x, S.IsFit 0 pts x := by
  obtain ⟨x, hx⟩ := fit_exists_unregularised S pts
  refine ⟨x, hx, fun y hy => ?_⟩
  have hz : ((S.fitMatrix pts)ᵀ * S.fitMatrix pts) *ᵥ (y - x) = 0 := by
    rw [SurfaceShape.IsFit, SurfaceShape.fitReg, zero_smul, add_zero] at hx hy
    rw [Matrix.mulVec_sub, hx, hy, sub_self]
  have hA : S.fitMatrix pts *ᵥ (y - x) = 0 := by
    have := congrArg (fun v => (y - x) ⬝ᵥ v) hz
    simp only [dotProduct_zero] at this
    rw [← Matrix.mulVec_mulVec, Matrix.dotProduct_mulVec, Matrix.vecMul_transpose] at this
    exact dotProduct_self_eq_zero.1 this
  have hrow : ∀ r ∈ S.fitRows pts, SurfaceShape.applyRow r.1 (List.ofFn (y - x)) = 0 := by
    intro r hr
    obtain ⟨i, hi, rfl⟩ := List.mem_iff_getElem.1 hr
    have := congrFun hA ⟨i, hi⟩
    rwa [S.fitMatrix_mulVec] at this
  refine sub_eq_zero.1 (hd _ fun p hp => ?_)
  have hmem : ∀ r ∈ [((S.rOperatorPadded 0 0 p.phi p.theta).map (· * p.w), p.r * p.w),
      ((S.zOperatorPadded 0 0 p.phi p.theta).map (· * p.w), p.z * p.w)], r ∈ S.fitRows pts := by
    intro r hr
    rw [SurfaceShape.fitRows, List.mem_flatMap]
    exact ⟨p, hp, hr⟩
  have hr := hrow _ (hmem _ (List.mem_cons_self ..))
  have hz := hrow _ (hmem _ (List.mem_cons_of_mem _ (List.mem_cons_self ..)))
  rw [SurfaceShape.applyRow_scaled] at hr hz
  exact ⟨hr, hz⟩

/-- Two modes in the poloidal direction are determined by an even number of poloidal points, four at least. -/
theorem offsetResolved_torus {points : List (List V3)} {m : ℕ} (hm : 2 ≤ m) (hp : points ≠ []) (hl : (points.headD []).length = 2 * m) (d : ℝ)
    (nfp : ℕ) : OffsetResolved points d nfp false 1 0 := by
  have hp0 : 0 < points.length := List.length_pos_iff.2 hp
  have hT : (gridOf nfp points).nTheta = 2 * m := hl
  have hP : (gridOf nfp points).nPhi = points.length := rfl
  refine fit_unique_of_determined _ _ fun v hv => ?_
  have hs : ∀ j < 2 * m, ∃ p ∈ (gridOf nfp points).offsetSamples none d false, p.theta = (j : ℝ) * (1 / (2 * m : ℕ)) + 1 ∧ p.w = 1 := by
    intro j hj
    refine ⟨(gridOf nfp points).offsetSample none d 0 j, ?_, by simp only [PlasmaGrid.offsetSample, hT], rfl⟩
    refine List.mem_flatMap.2 ⟨0, List.mem_range.2 hp0, List.mem_map.2 ⟨j, List.mem_range.2 (by rw [hT]; exact hj), rfl⟩⟩
  have hlen : (List.ofFn v).length = 6 := by
    rw [List.length_ofFn, fitSize_free rfl]
    rfl
  have hm' : (m : ℝ) ≠ 0 := by
    have : m ≠ 0 := by omega
    exact_mod_cast this
  generalize hlv : List.ofFn v = l at hv hlen
  obtain ⟨a, b, c, e, f, g, rfl⟩ : ∃ a b c e f g, l = [a, b, c, e, f, g] := by
    rcases l with _ | ⟨a, _ | ⟨b, _ | ⟨c, _ | ⟨e, _ | ⟨f, _ | ⟨g, _ | ⟨i, l⟩⟩⟩⟩⟩⟩⟩ <;> simp at hlen
    exact ⟨a, b, c, e, f, g, rfl⟩
  have hv : ∀ j < 2 * m, a + (b * cos (2 * π * (j * (1 / (2 * m : ℕ)))) + c * sin (2 * π * (j * (1 / (2 * m : ℕ))))) = 0 ∧
      e + (f * cos (2 * π * (j * (1 / (2 * m : ℕ)))) + g * sin (2 * π * (j * (1 / (2 * m : ℕ))))) = 0 := by
    intro j hj
    obtain ⟨p, hp, ht, hw⟩ := hs j hj
    have := hv p hp
    rw [hw, ht, mul_one, mul_one] at this
    generalize ((j : ℝ) * (1 / (2 * m : ℕ))) = u at this ⊢
    have c0 : cEntry nfp 0 0 p.phi (u + 1) 0 0 = 1 := by rw [cEntry_zeroMode, if_pos ⟨rfl, rfl⟩]
    have c1 : cEntry nfp 0 0 p.phi (u + 1) 1 0 = cos (2 * π * u) := by
      simp [cEntry, modeAngle, derivFactor, mul_add]
      rw [mul_comm π 2, cos_add_two_pi]
    have s1 : sEntry nfp 0 0 p.phi (u + 1) 1 0 = sin (2 * π * u) := by
      simp [sEntry, modeAngle, derivFactor, mul_add]
      rw [mul_comm π 2, sin_add_two_pi]
    simp [SurfaceShape.rDash, SurfaceShape.zDash, SurfaceShape.rOperatorPadded, SurfaceShape.zOperatorPadded,
      SurfaceShape.rOperator, SurfaceShape.zOperator, SurfaceShape.cmn, SurfaceShape.smn, surfMc, surfNc, surfMs, surfNs, repeatEach, tile, arange,
      SurfaceShape.applyRow, c0, c1, s1] at this
    exact ⟨by linarith [this.1], by linarith [this.2]⟩
  obtain ⟨h1, h2⟩ := hv 0 (by omega)
  obtain ⟨h3, h4⟩ := hv m (by omega)
  obtain ⟨h5, h6⟩ := hv 1 (by omega)
  have e3 : 2 * π * ((m : ℝ) * (1 / (2 * m : ℕ))) = π := by
    push_cast
    field_simp
  have e5 : 2 * π * (((1 : ℕ) : ℝ) * (1 / (2 * m : ℕ))) = π / m := by
    push_cast
    field_simp
  rw [e3, cos_pi, sin_pi] at h3 h4
  rw [e5] at h5 h6
  simp only [Nat.cast_zero, zero_mul, mul_zero, cos_zero, sin_zero, mul_one, add_zero] at h1 h2 h3 h4
  have hsin : sin (π / m) ≠ 0 := by
    have hm2 : (2 : ℝ) ≤ m := by exact_mod_cast hm
    refine (sin_pos_of_pos_of_lt_pi (by positivity) ?_).ne'
    rw [div_lt_iff₀ (by positivity)]
    nlinarith [pi_pos]
  have ha : a = 0 := by linarith
  have hb : b = 0 := by linarith
  have he : e = 0 := by linarith
  have hf : f = 0 := by linarith
  rw [ha, hb, zero_mul, zero_add, zero_add] at h5
  rw [he, hf, zero_mul, zero_add, zero_add] at h6
  have hc := (mul_eq_zero.1 h5).resolve_right hsin
  have hg := (mul_eq_zero.1 h6).resolve_right hsin
  subst ha hb hc he hf hg
  funext k
  have hk : (List.ofFn v)[(k : ℕ)]? = some (v k) := by simp
  rw [hlv] at hk
  have h0 := List.mem_of_getElem? hk
  simpa using h0

/-! ## Example -/

/-- A torus without stellarator symmetry and a generated winding surface. -/
example (opt : Optimizer ℝ) (others : List String) (h : ℝ) :
    let a : CallArgs := { nfp := 1, stellsym := false, plasmaMpol := 1, plasmaNtor := 0, plasmaDofs := [2, 1 / 2, 0, 0, 0, 1 / 2], netPoloidal := 5,
                          plasmaStellsym := false, generator := defaultGenerator, plasmaCoilDistance := some (1 / 4), windingMpol := 1,
                          windingNtor := 0 }
    quadcoilCall opt realGrad (shippedRegistry FieldProblem.fns others) (a.lifted h) =
      (quadcoilCall opt realGrad (shippedRegistry FieldProblem.fns others) a).map (Option.map (liftedOut h)) := by
  intro a
  refine C170_default_call_partial opt realGrad others a h rfl rfl rfl rfl rfl (offsetResolved_torus (m := 17) (by norm_num) ?_ ?_ _ _) ?_
    (by simp [a, QuadcoilArgs.usedNames, OneOrMany.names, defaultArgs, CallArgs.metrics, cylNames])
  · refine List.ne_nil_of_length_pos ?_
    simp [a, CallArgs.plasmaGamma, CallArgs.pPhi, defaultPlasmaPhi, linspace0]
  · rfl
  · show 0 < 34
    norm_num

end Verif
