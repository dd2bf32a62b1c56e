import Verif.Spec.Lifted
import Verif.Lemmas.MirrorImage
import Mathlib.Data.List.GetD

/-!
# The fields of a device at another height
-/

namespace Verif

open Real CpParams

/-! ## Surfaces -/

theorem applyRow_modify (row d : List ℝ) (i : ℕ) (h : ℝ) (hi : i < d.length) :
    SurfaceShape.applyRow row (d.modify i fun z => z + h) = SurfaceShape.applyRow row d + row.getD i 0 * h := by
  unfold SurfaceShape.applyRow
  induction d generalizing row i with
  | nil => simp at hi
  | cons y d ih =>
    cases row with
    | nil => simp
    | cons x row =>
      cases i with
      | zero =>
        simp only [List.modify_zero_cons, List.zipWith_cons_cons, List.sum_cons, List.getD_cons_zero]
        ring
      | succ i =>
        simp only [List.modify_succ_cons, List.zipWith_cons_cons, List.sum_cons, List.getD_cons_succ]
        rw [ih row i (by simpa using hi)]
        ring

theorem cEntry_zeroMode (nfp a b : ℕ) (p t : ℝ) : cEntry nfp a b p t 0 0 = if a = 0 ∧ b = 0 then 1 else 0 := by
  have h : derivFactor nfp a b 0 0 = if a = 0 ∧ b = 0 then 1 else 0 := by
    unfold derivFactor
    by_cases ha : a = 0
    · by_cases hb : b = 0
      · simp [ha, hb]
      · simp [ha, hb]
    · simp [ha]
  unfold cEntry
  rw [h]
  have h0 : modeAngle nfp p t 0 0 = 0 := by simp [modeAngle]
  rw [h0]
  by_cases hab : a = 0 ∧ b = 0
  · simp [hab]
  · simp [hab]

section

variable {S : SurfaceShape} (hs : S.stellsym = false) {dofs : List ℝ} (hl : S.numR < dofs.length) (h : ℝ)

include hl in
theorem rDash_lift (a b : ℕ) (p t : ℝ) : S.rDash (S.liftDofs h dofs) a b p t = S.rDash dofs a b p t := by
  rw [SurfaceShape.rDash, SurfaceShape.liftDofs, applyRow_modify _ _ _ _ hl, SurfaceShape.rDash, SurfaceShape.rOperatorPadded]
  have : ∀ (A : List ℝ) (B : List ℝ), (A ++ B.map fun _ => (0 : ℝ)).getD A.length 0 = 0 := by
    intro A B
    rw [List.getD_append_right _ _ _ _ le_rfl, Nat.sub_self]
    cases B <;> simp
  rw [← rOperator_length S a b p t, this]
  ring

include hl hs in
theorem zDash_lift (a b : ℕ) (p t : ℝ) :
    S.zDash (S.liftDofs h dofs) a b p t = S.zDash dofs a b p t + if a = 0 ∧ b = 0 then h else 0 := by
  rw [SurfaceShape.zDash, SurfaceShape.liftDofs, applyRow_modify _ _ _ _ hl, SurfaceShape.zDash, SurfaceShape.zOperatorPadded]
  have hl : ((S.rOperator a b p t).map fun _ => (0 : ℝ)).length = S.numR := by rw [List.length_map, rOperator_length]
  rw [← hl, List.getD_append_right _ _ _ _ le_rfl, Nat.sub_self, SurfaceShape.zOperator, hs]
  simp only [Bool.false_eq_true, if_false, SurfaceShape.cmn, surfMc, surfNc, List.zipWith_cons_cons, List.cons_append, List.getD_cons_zero,
    cEntry_zeroMode, ite_mul, one_mul, zero_mul]

include hl hs in
/-- The points of the surface move up, and no derivative changes. -/
theorem gammadash_lift (a b : ℕ) (p t : ℝ) :
    S.gammadash (S.liftDofs h dofs) a b p t = liftZ (if a = 0 ∧ b = 0 then h else 0) (S.gammadash dofs a b p t) := by
  have hx : S.xTerm (S.liftDofs h dofs) a b p t = S.xTerm dofs a b p t := by
    funext k
    simp only [SurfaceShape.xTerm, rDash_lift hl]
  have hy : S.yTerm (S.liftDofs h dofs) a b p t = S.yTerm dofs a b p t := by
    funext k
    simp only [SurfaceShape.yTerm, rDash_lift hl]
  simp only [SurfaceShape.gammadash, liftZ, zDash_lift hs hl, hx, hy]

include hl hs in
theorem gamma_lift (p t : ℝ) : S.gamma (S.liftDofs h dofs) p t = liftZ h (S.gamma dofs p t) := by
  rw [SurfaceShape.gamma, gammadash_lift hs hl, SurfaceShape.gamma]
  simp

include hl hs in
theorem gammadash_lift_pos {a b : ℕ} (hab : ¬(a = 0 ∧ b = 0)) (p t : ℝ) : S.gammadash (S.liftDofs h dofs) a b p t = S.gammadash dofs a b p t := by
  rw [gammadash_lift hs hl, if_neg hab]
  ext <;> simp [liftZ]

include hl hs in
theorem normal_lift (p t : ℝ) : S.normal (S.liftDofs h dofs) p t = S.normal dofs p t := by
  rw [SurfaceShape.normal, gammadash_lift_pos hs hl h (by simp), gammadash_lift_pos hs hl h (by simp), SurfaceShape.normal]

include hl hs in
theorem unitnormal_lift (p t : ℝ) : S.unitnormal (S.liftDofs h dofs) p t = S.unitnormal dofs p t := by
  rw [SurfaceShape.unitnormal, normal_lift hs hl, SurfaceShape.unitnormal]

end

theorem liftZ_sub (h : ℝ) (v w : V3) : liftZ h v - liftZ h w = v - w := by ext <;> simp [liftZ]

theorem liftDofs_length (S : SurfaceShape) (h : ℝ) (d : List ℝ) : (S.liftDofs h d).length = d.length := by simp [SurfaceShape.liftDofs]

theorem numR_pos (S : SurfaceShape) : 0 < S.numR := by
  unfold SurfaceShape.numR
  split <;> omega

/-! ## Currents with the same derivatives of the surface -/

/-- Two descriptions of currents that differ in the coefficients of the winding surface only, with the same derivatives. -/
structure CpParams.SameDerivatives (P' P : CpParams) : Prop where
  rest : P' = { P with wdofs := P'.wdofs }
  derivs : ∀ a b, ¬(a = 0 ∧ b = 0) → P'.surf.gammadash P'.wdofs a b = P.surf.gammadash P.wdofs a b

namespace CpParams.SameDerivatives

variable {P' P : CpParams} (H : P'.SameDerivatives P)

include H

theorem dg1 : P'.dg1 = P.dg1 := H.derivs 1 0 (by simp)
theorem dg2 : P'.dg2 = P.dg2 := H.derivs 0 1 (by simp)
theorem dg11 : P'.dg11 = P.dg11 := H.derivs 2 0 (by simp)
theorem dg12 : P'.dg12 = P.dg12 := H.derivs 1 1 (by simp)
theorem dg22 : P'.dg22 = P.dg22 := H.derivs 0 2 (by simp)

theorem N : P'.N = P.N := by
  funext p t
  rw [CpParams.N, H.dg1, H.dg2, CpParams.N]

theorem invN : P'.invN = P.invN := by
  funext p t
  rw [CpParams.invN, H.N, CpParams.invN]

theorem normaldash1 : P'.normaldash1 = P.normaldash1 := by
  funext p t
  rw [CpParams.normaldash1, H.dg1, H.dg2, H.dg11, H.dg12, CpParams.normaldash1]

theorem normaldash2 : P'.normaldash2 = P.normaldash2 := by
  funext p t
  rw [CpParams.normaldash2, H.dg1, H.dg2, H.dg22, H.dg12, CpParams.normaldash2]

theorem invNdash1 : P'.invNdash1 = P.invNdash1 := by
  funext p t
  rw [CpParams.invNdash1, H.N, H.normaldash1, CpParams.invNdash1]

theorem invNdash2 : P'.invNdash2 = P.invNdash2 := by
  funext p t
  rw [CpParams.invNdash2, H.N, H.normaldash2, CpParams.invNdash2]

theorem opPhi : P'.opPhi = P.opPhi := by rw [H.rest]; rfl
theorem opTheta : P'.opTheta = P.opTheta := by rw [H.rest]; rfl
theorem opPhiPhi : P'.opPhiPhi = P.opPhiPhi := by rw [H.rest]; rfl
theorem opPhiTheta : P'.opPhiTheta = P.opPhiTheta := by rw [H.rest]; rfl
theorem opThetaTheta : P'.opThetaTheta = P.opThetaTheta := by rw [H.rest]; rfl
theorem G : P'.G = P.G := by rw [H.rest]
theorem I : P'.I = P.I := by rw [H.rest]
theorem Phi : P'.Phi = P.Phi := by rw [H.rest]; rfl
theorem PhiNet : P'.PhiNet = P.PhiNet := by rw [H.rest]; rfl
theorem KTheta : P'.KTheta = P.KTheta := by rw [H.rest]; rfl

theorem K : P'.K = P.K := by
  funext c p t
  simp only [K_eq, H.invN, H.dg1, H.dg2, H.opPhi, H.opTheta, H.G, H.I]

theorem K2 : P'.K2 = P.K2 := by
  funext c p t
  rw [CpParams.K2, H.K, CpParams.K2]

theorem Kdash1 : P'.Kdash1 = P.Kdash1 := by
  funext c p t
  simp only [Kdash1_eq, dg1InvNdash1, dg2InvNdash1, H.invN, H.invNdash1, H.dg1, H.dg2, H.dg11, H.dg12, H.opPhi, H.opTheta, H.opPhiPhi,
    H.opPhiTheta, H.G, H.I]

theorem Kdash2 : P'.Kdash2 = P.Kdash2 := by
  funext c p t
  simp only [Kdash2_eq, dg1InvNdash2, dg2InvNdash2, H.invN, H.invNdash2, H.dg1, H.dg2, H.dg12, H.dg22, H.opPhi, H.opTheta, H.opThetaTheta,
    H.opPhiTheta, H.G, H.I]

theorem KdotGradK : P'.KdotGradK = P.KdotGradK := by
  funext c p t
  simp only [CpParams.KdotGradK, H.invN, H.Kdash1, H.Kdash2, H.opPhi, H.opTheta, H.G, H.I]

end CpParams.SameDerivatives

theorem FieldProblem.Movable.windingIn {Q : FieldProblem} (hm : Q.Movable) : Q.cp.surf.numR < Q.cp.wdofs.length := by
  have := numR_pos Q.cp.surf
  rw [hm.windingSize]
  omega

theorem FieldProblem.Movable.plasmaIn {Q : FieldProblem} (hm : Q.Movable) : Q.plasma.shape.numR < Q.plasma.dofs.length := by
  have := numR_pos Q.plasma.shape
  rw [hm.plasmaSize]
  omega

theorem lifted_derivatives {Q : FieldProblem} (hm : Q.Movable) (h : ℝ) : (Q.lifted h).cp.SameDerivatives Q.cp :=
  ⟨rfl, fun a b hab => by
    funext p t
    exact gammadash_lift_pos hm.winding hm.windingIn h hab p t⟩

end Verif
