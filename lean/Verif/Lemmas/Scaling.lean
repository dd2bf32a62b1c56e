import Verif.Spec.Rescale
import Verif.Lemmas.Current

/-! # How the fields depend on the size of the problem -/

namespace Verif

open Real

namespace V3

theorem cross_smul_smul (a b : ℝ) (u v : V3) : cross (a • u) (b • v) = (a * b) • cross u v := by
  ext <;> simp only [cross, smul_x, smul_y, smul_z] <;> ring

theorem dot_smul_smul (a b : ℝ) (u v : V3) : dot (a • u) (b • v) = a * b * dot u v := by
  simp only [dot, smul_x, smul_y, smul_z]
  ring

theorem dot_smul_right (b : ℝ) (u v : V3) : dot u (b • v) = b * dot u v := by
  simp only [dot, smul_x, smul_y, smul_z]
  ring

theorem normSq_smul (a : ℝ) (u : V3) : (a • u).normSq = a ^ 2 * u.normSq := by
  simp only [normSq, smul_x, smul_y, smul_z]
  ring

theorem norm_smul_pos (a : ℝ) (ha : 0 < a) (u : V3) : (a • u).norm = a * u.norm := by
  rw [norm, normSq_smul, Real.sqrt_mul (sq_nonneg a), Real.sqrt_sq ha.le, norm]

theorem smul_smul' (a b : ℝ) (u : V3) : a • b • u = (a * b) • u := by
  ext <;> simp only [smul_x, smul_y, smul_z] <;> ring

theorem smul_add' (a : ℝ) (u v : V3) : a • (u + v) = a • u + a • v := by
  ext <;> simp only [smul_x, smul_y, smul_z, add_x, add_y, add_z] <;> ring

theorem smul_sub' (a : ℝ) (u v : V3) : a • (u - v) = a • u - a • v := by
  ext <;> simp only [smul_x, smul_y, smul_z, sub_x, sub_y, sub_z] <;> ring

theorem neg_smul' (a : ℝ) (u : V3) : -(a • u) = a • -u := by
  ext <;> simp only [smul_x, smul_y, smul_z, neg_x, neg_y, neg_z] <;> ring

end V3

theorem app_scale (row c : List ℝ) (mu : ℝ) : CpParams.app row (c.map (mu * ·)) = mu * CpParams.app row c := by
  unfold CpParams.app
  induction row generalizing c with
  | nil => simp
  | cons a row ih =>
    cases c with
    | nil => simp
    | cons b c =>
      simp only [List.map_cons, List.zipWith_cons_cons, List.sum_cons, ih]
      ring

theorem applyRow_scale (row c : List ℝ) (l : ℝ) :
    SurfaceShape.applyRow row (c.map (l * ·)) = l * SurfaceShape.applyRow row c := app_scale row c l

theorem sum_map_scale {β : Type} (L : List β) (f g : β → ℝ) (a : ℝ) (h : ∀ x ∈ L, f x = a * g x) :
    (L.map f).sum = a * (L.map g).sum := by
  induction L with
  | nil => simp
  | cons x L ih =>
    simp only [List.map_cons, List.sum_cons]
    rw [h x (List.mem_cons_self ..), ih fun y hy => h y (List.mem_cons_of_mem _ hy)]
    ring

theorem gammadash_scale (S : SurfaceShape) (dofs : List ℝ) (a b : ℕ) (phi theta l : ℝ) :
    S.gammadash (dofs.map (l * ·)) a b phi theta = l • S.gammadash dofs a b phi theta := by
  ext
  · simp only [SurfaceShape.gammadash, V3.smul_x]
    refine sum_map_scale _ _ _ _ fun k _ => ?_
    simp only [SurfaceShape.xTerm, SurfaceShape.rDash, applyRow_scale]
    split_ifs <;> ring
  · simp only [SurfaceShape.gammadash, V3.smul_y]
    refine sum_map_scale _ _ _ _ fun k _ => ?_
    simp only [SurfaceShape.yTerm, SurfaceShape.rDash, applyRow_scale]
    split_ifs <;> ring
  · simp only [SurfaceShape.gammadash, V3.smul_z, SurfaceShape.zDash, applyRow_scale]

theorem gamma_scale (S : SurfaceShape) (dofs : List ℝ) (phi theta l : ℝ) :
    S.gamma (dofs.map (l * ·)) phi theta = l • S.gamma dofs phi theta := gammadash_scale ..

theorem normal_scale (S : SurfaceShape) (dofs : List ℝ) (phi theta l : ℝ) :
    S.normal (dofs.map (l * ·)) phi theta = l ^ 2 • S.normal dofs phi theta := by
  rw [SurfaceShape.normal, gammadash_scale, gammadash_scale, V3.cross_smul_smul, SurfaceShape.normal, sq]

theorem unitnormal_scale (S : SurfaceShape) (dofs : List ℝ) (phi theta l : ℝ) (hl : 0 < l) :
    S.unitnormal (dofs.map (l * ·)) phi theta = S.unitnormal dofs phi theta := by
  rw [SurfaceShape.unitnormal, normal_scale, V3.norm_smul_pos _ (by positivity), V3.smul_smul', SurfaceShape.unitnormal]
  congr 1
  rw [one_div, one_div, mul_inv]
  have : l ^ 2 ≠ 0 := by positivity
  field_simp

namespace CpParams

variable (P : CpParams) (l mu : ℝ)

theorem rescale_dg1 (phi theta : ℝ) : (P.rescale l mu).dg1 phi theta = l • P.dg1 phi theta := gammadash_scale ..
theorem rescale_dg2 (phi theta : ℝ) : (P.rescale l mu).dg2 phi theta = l • P.dg2 phi theta := gammadash_scale ..
theorem rescale_dg11 (phi theta : ℝ) : (P.rescale l mu).dg11 phi theta = l • P.dg11 phi theta := gammadash_scale ..
theorem rescale_dg12 (phi theta : ℝ) : (P.rescale l mu).dg12 phi theta = l • P.dg12 phi theta := gammadash_scale ..
theorem rescale_dg22 (phi theta : ℝ) : (P.rescale l mu).dg22 phi theta = l • P.dg22 phi theta := gammadash_scale ..

theorem rescale_N (phi theta : ℝ) : (P.rescale l mu).N phi theta = l ^ 2 • P.N phi theta := by
  rw [N, rescale_dg1, rescale_dg2, V3.cross_smul_smul, N, sq]

theorem rescale_opPhi (phi theta : ℝ) : (P.rescale l mu).opPhi phi theta = P.opPhi phi theta := rfl
theorem rescale_opTheta (phi theta : ℝ) : (P.rescale l mu).opTheta phi theta = P.opTheta phi theta := rfl
theorem rescale_opPhiPhi (phi theta : ℝ) : (P.rescale l mu).opPhiPhi phi theta = P.opPhiPhi phi theta := rfl
theorem rescale_opPhiTheta (phi theta : ℝ) : (P.rescale l mu).opPhiTheta phi theta = P.opPhiTheta phi theta := rfl
theorem rescale_opThetaTheta (phi theta : ℝ) : (P.rescale l mu).opThetaTheta phi theta = P.opThetaTheta phi theta := rfl

variable (hl : 0 < l)
include hl

theorem rescale_invN (phi theta : ℝ) : (P.rescale l mu).invN phi theta = (l ^ 2)⁻¹ * P.invN phi theta := by
  rw [invN, rescale_N, V3.norm_smul_pos _ (by positivity), invN, one_div, one_div, mul_inv]

theorem rescale_grad1 (phi theta : ℝ) : (P.rescale l mu).grad1 phi theta = l⁻¹ • P.grad1 phi theta := by
  rw [grad1, rescale_N, rescale_dg2, V3.cross_smul_smul, V3.normSq_smul, V3.smul_smul', grad1, V3.smul_smul']
  congr 1
  rw [one_div, mul_inv, one_div]
  field_simp

theorem rescale_grad2 (phi theta : ℝ) : (P.rescale l mu).grad2 phi theta = l⁻¹ • P.grad2 phi theta := by
  rw [grad2, rescale_N, rescale_dg1, V3.neg_smul', V3.cross_smul_smul, V3.normSq_smul, V3.smul_smul', grad2, V3.smul_smul']
  congr 1
  rw [one_div, mul_inv, one_div]
  field_simp

omit hl in
theorem rescale_normaldash1 (phi theta : ℝ) : (P.rescale l mu).normaldash1 phi theta = l ^ 2 • P.normaldash1 phi theta := by
  rw [normaldash1, rescale_dg11, rescale_dg2, rescale_dg1, rescale_dg12, V3.cross_smul_smul, V3.cross_smul_smul, ← V3.smul_add',
    normaldash1, sq]

omit hl in
theorem rescale_normaldash2 (phi theta : ℝ) : (P.rescale l mu).normaldash2 phi theta = l ^ 2 • P.normaldash2 phi theta := by
  rw [normaldash2, rescale_dg12, rescale_dg2, rescale_dg1, rescale_dg22, V3.cross_smul_smul, V3.cross_smul_smul, ← V3.smul_add',
    normaldash2, sq]

omit hl in
theorem rpow_scale (hl : 0 < l) (x : ℝ) (hx : 0 ≤ x) : ((l ^ 2) ^ 2 * x) ^ (1.5 : ℝ) = l ^ 6 * x ^ (1.5 : ℝ) := by
  rw [Real.mul_rpow (by positivity) hx]
  congr 1
  rw [← pow_mul, ← Real.rpow_natCast, ← Real.rpow_mul hl.le, ← Real.rpow_natCast]
  congr 1
  norm_num

theorem rescale_invNdash1 (phi theta : ℝ) : (P.rescale l mu).invNdash1 phi theta = (l ^ 2)⁻¹ * P.invNdash1 phi theta := by
  rw [invNdash1, rescale_N, rescale_normaldash1, V3.dot_smul_smul, V3.normSq_smul, rpow_scale l hl _ (V3.normSq_nonneg _), invNdash1,
    div_eq_mul_inv, mul_inv, div_eq_mul_inv]
  field_simp

theorem rescale_invNdash2 (phi theta : ℝ) : (P.rescale l mu).invNdash2 phi theta = (l ^ 2)⁻¹ * P.invNdash2 phi theta := by
  rw [invNdash2, rescale_N, rescale_normaldash2, V3.dot_smul_smul, V3.normSq_smul, rpow_scale l hl _ (V3.normSq_nonneg _), invNdash2,
    div_eq_mul_inv, mul_inv, div_eq_mul_inv]
  field_simp

omit hl in
theorem inv_sq_mul (hl : 0 < l) : (l ^ 2)⁻¹ * l = l⁻¹ := by
  field_simp

theorem rescale_dg1InvNdash1 (phi theta : ℝ) : (P.rescale l mu).dg1InvNdash1 phi theta = l⁻¹ • P.dg1InvNdash1 phi theta := by
  rw [dg1InvNdash1, rescale_invN _ _ _ hl, rescale_invNdash1 _ _ _ hl, rescale_dg11, rescale_dg1, dg1InvNdash1, ← inv_sq_mul l hl]
  ext <;> simp only [V3.smul_x, V3.smul_y, V3.smul_z, V3.add_x, V3.add_y, V3.add_z] <;> ring
theorem rescale_dg1InvNdash2 (phi theta : ℝ) : (P.rescale l mu).dg1InvNdash2 phi theta = l⁻¹ • P.dg1InvNdash2 phi theta := by
  rw [dg1InvNdash2, rescale_invN _ _ _ hl, rescale_invNdash2 _ _ _ hl, rescale_dg12, rescale_dg1, dg1InvNdash2, ← inv_sq_mul l hl]
  ext <;> simp only [V3.smul_x, V3.smul_y, V3.smul_z, V3.add_x, V3.add_y, V3.add_z] <;> ring
theorem rescale_dg2InvNdash1 (phi theta : ℝ) : (P.rescale l mu).dg2InvNdash1 phi theta = l⁻¹ • P.dg2InvNdash1 phi theta := by
  rw [dg2InvNdash1, rescale_invN _ _ _ hl, rescale_invNdash1 _ _ _ hl, rescale_dg12, rescale_dg2, dg2InvNdash1, ← inv_sq_mul l hl]
  ext <;> simp only [V3.smul_x, V3.smul_y, V3.smul_z, V3.add_x, V3.add_y, V3.add_z] <;> ring
theorem rescale_dg2InvNdash2 (phi theta : ℝ) : (P.rescale l mu).dg2InvNdash2 phi theta = l⁻¹ • P.dg2InvNdash2 phi theta := by
  rw [dg2InvNdash2, rescale_invN _ _ _ hl, rescale_invNdash2 _ _ _ hl, rescale_dg22, rescale_dg2, dg2InvNdash2, ← inv_sq_mul l hl]
  ext <;> simp only [V3.smul_x, V3.smul_y, V3.smul_z, V3.add_x, V3.add_y, V3.add_z] <;> ring

theorem rescale_unitN (phi theta : ℝ) : (P.rescale l mu).unitN phi theta = P.unitN phi theta := unitnormal_scale _ _ _ _ _ hl

theorem rescale_unitNdash1 (phi theta : ℝ) : (P.rescale l mu).unitNdash1 phi theta = P.unitNdash1 phi theta := by
  rw [unitNdash1, rescale_dg1InvNdash1 _ _ _ hl, rescale_dg2, rescale_invN _ _ _ hl, rescale_dg1, rescale_dg12, V3.smul_smul',
    V3.cross_smul_smul, V3.cross_smul_smul, unitNdash1]
  have e1 : l⁻¹ * l = 1 := inv_mul_cancel₀ hl.ne'
  have e2 : (l ^ 2)⁻¹ * P.invN phi theta * l * l = P.invN phi theta := by field_simp
  rw [e1, e2]
  ext <;> simp only [V3.smul_x, V3.smul_y, V3.smul_z, V3.add_x, V3.add_y, V3.add_z, V3.cross] <;> ring

theorem rescale_unitNdash2 (phi theta : ℝ) : (P.rescale l mu).unitNdash2 phi theta = P.unitNdash2 phi theta := by
  rw [unitNdash2, rescale_dg1InvNdash2 _ _ _ hl, rescale_dg2, rescale_invN _ _ _ hl, rescale_dg1, rescale_dg22, V3.smul_smul',
    V3.cross_smul_smul, V3.cross_smul_smul, unitNdash2]
  have e1 : l⁻¹ * l = 1 := inv_mul_cancel₀ hl.ne'
  have e2 : (l ^ 2)⁻¹ * P.invN phi theta * l * l = P.invN phi theta := by field_simp
  rw [e1, e2]
  ext <;> simp only [V3.smul_x, V3.smul_y, V3.smul_z, V3.add_x, V3.add_y, V3.add_z, V3.cross] <;> ring

theorem rescale_K (c : List ℝ) (phi theta : ℝ) :
    (P.rescale l mu).K (c.map (mu * ·)) phi theta = (mu / l) • P.K c phi theta := by
  rw [K_eq, rescale_invN _ _ _ hl, rescale_dg1, rescale_dg2, rescale_opPhi, rescale_opTheta, app_scale, app_scale, K_eq, div_eq_mul_inv,
    ← inv_sq_mul l hl]
  ext <;> simp only [V3.smul_x, V3.smul_y, V3.smul_z, V3.sub_x, V3.sub_y, V3.sub_z, rescale] <;> ring

theorem rescale_Kdash1 (c : List ℝ) (phi theta : ℝ) :
    (P.rescale l mu).Kdash1 (c.map (mu * ·)) phi theta = (mu / l) • P.Kdash1 c phi theta := by
  rw [Kdash1_eq, rescale_invN _ _ _ hl, rescale_dg1, rescale_dg2, rescale_opPhi, rescale_opTheta, rescale_opPhiPhi, rescale_opPhiTheta,
    rescale_dg2InvNdash1 _ _ _ hl, rescale_dg1InvNdash1 _ _ _ hl, app_scale, app_scale, app_scale, app_scale, Kdash1_eq, div_eq_mul_inv,
    ← inv_sq_mul l hl]
  ext <;> simp only [V3.smul_x, V3.smul_y, V3.smul_z, V3.sub_x, V3.sub_y, V3.sub_z, V3.add_x, V3.add_y, V3.add_z, rescale] <;> ring

theorem rescale_Kdash2 (c : List ℝ) (phi theta : ℝ) :
    (P.rescale l mu).Kdash2 (c.map (mu * ·)) phi theta = (mu / l) • P.Kdash2 c phi theta := by
  rw [Kdash2_eq, rescale_invN _ _ _ hl, rescale_dg1, rescale_dg2, rescale_opPhi, rescale_opTheta, rescale_opThetaTheta,
    rescale_opPhiTheta, rescale_dg2InvNdash2 _ _ _ hl, rescale_dg1InvNdash2 _ _ _ hl, app_scale, app_scale, app_scale, app_scale,
    Kdash2_eq, div_eq_mul_inv, ← inv_sq_mul l hl]
  ext <;> simp only [V3.smul_x, V3.smul_y, V3.smul_z, V3.sub_x, V3.sub_y, V3.sub_z, V3.add_x, V3.add_y, V3.add_z, rescale] <;> ring

theorem rescale_KdotGradK (c : List ℝ) (phi theta : ℝ) :
    (P.rescale l mu).KdotGradK (c.map (mu * ·)) phi theta = ((mu / l) ^ 2 / l) • P.KdotGradK c phi theta := by
  simp only [KdotGradK]
  rw [rescale_invN _ _ _ hl, rescale_Kdash1 _ _ _ hl, rescale_Kdash2 _ _ _ hl, rescale_opPhi, rescale_opTheta, app_scale, app_scale]
  have e : (mu / l) ^ 2 / l = (l ^ 2)⁻¹ * mu * (mu / l) := by field_simp
  rw [e]
  ext <;> simp only [V3.smul_x, V3.smul_y, V3.smul_z, V3.sub_x, V3.sub_y, V3.sub_z, rescale] <;> ring

omit hl in
theorem rescale_Phi (c : List ℝ) (phi theta : ℝ) :
    (P.rescale l mu).Phi (c.map (mu * ·)) phi theta = mu * P.Phi c phi theta := app_scale ..

omit hl in
theorem rescale_PhiNet (c : List ℝ) (phi theta : ℝ) :
    (P.rescale l mu).PhiNet (c.map (mu * ·)) phi theta = mu * P.PhiNet c phi theta := by
  rw [PhiNet, rescale_Phi, PhiNet]
  simp only [rescale]
  ring

theorem rescale_K2 (c : List ℝ) (phi theta : ℝ) :
    (P.rescale l mu).K2 (c.map (mu * ·)) phi theta = (mu / l) ^ 2 * P.K2 c phi theta := by
  rw [K2, rescale_K _ _ _ hl, V3.normSq_smul, K2]

omit hl in
theorem rescale_KTheta (c : List ℝ) (phi theta : ℝ) :
    okOr0 ((P.rescale l mu).KTheta (c.map (mu * ·)) phi theta) = mu * okOr0 (P.KTheta c phi theta) := by
  simp only [KTheta]
  rw [show (P.rescale l mu).stellsym = P.stellsym from rfl]
  split_ifs
  · simp only [okOr0, rescale_opPhi, app_scale]
    simp only [rescale]
    ring
  · simp [okOr0]

/-! Force -/

theorem rescale_divN (phi theta : ℝ) : (P.rescale l mu).divN phi theta = l⁻¹ * P.divN phi theta := by
  rw [divN, rescale_grad1 _ _ _ hl, rescale_grad2 _ _ _ hl, rescale_unitNdash1 _ _ _ hl, rescale_unitNdash2 _ _ _ hl, divN]
  simp only [V3.dot, V3.smul_x, V3.smul_y, V3.smul_z]
  ring

theorem rescale_nDotGradN (phi theta : ℝ) : (P.rescale l mu).nDotGradN phi theta = l⁻¹ • P.nDotGradN phi theta := by
  rw [nDotGradN, rescale_grad1 _ _ _ hl, rescale_grad2 _ _ _ hl, rescale_unitNdash1 _ _ _ hl, rescale_unitNdash2 _ _ _ hl,
    rescale_unitN _ _ _ hl, V3.dot_smul_right, V3.dot_smul_right, nDotGradN]
  ext <;> simp only [V3.smul_x, V3.smul_y, V3.smul_z, V3.add_x, V3.add_y, V3.add_z] <;> ring

theorem rescale_divPi (phi theta : ℝ) : (P.rescale l mu).divPi phi theta = l⁻¹ • P.divPi phi theta := by
  rw [divPi, rescale_divN _ _ _ hl, rescale_nDotGradN _ _ _ hl, rescale_unitN _ _ _ hl, divPi]
  ext <;> simp only [V3.smul_x, V3.smul_y, V3.smul_z, V3.add_x, V3.add_y, V3.add_z, V3.neg_x, V3.neg_y, V3.neg_z] <;> ring

omit hl in
@[ext] theorem M3_ext {S T : M3} (h1 : S.r1 = T.r1) (h2 : S.r2 = T.r2) (h3 : S.r3 = T.r3) : S = T := by
  cases S; cases T; simp_all

theorem rescale_forceSingle (c : List ℝ) (phi theta : ℝ) :
    (P.rescale l mu).forceSingle (c.map (mu * ·)) phi theta = M3.scale (mu / l ^ 2) (P.forceSingle c phi theta) := by
  have e : mu / l ^ 2 = l⁻¹ * (mu / l) := by field_simp
  simp only [forceSingle]
  rw [rescale_divN _ _ _ hl, rescale_unitN _ _ _ hl, rescale_K _ _ _ hl, rescale_grad1 _ _ _ hl, rescale_grad2 _ _ _ hl,
    rescale_Kdash1 _ _ _ hl, rescale_Kdash2 _ _ _ hl, rescale_divPi _ _ _ hl, e]
  apply M3_ext <;> ext <;>
    simp only [M3.scale, M3.add, M3.sub, M3.outer, V3.smul_x, V3.smul_y, V3.smul_z, V3.add_x, V3.add_y, V3.add_z, V3.sub_x, V3.sub_y,
      V3.sub_z] <;> ring

theorem rescale_forceDouble (c : List ℝ) (phi theta : ℝ) :
    (P.rescale l mu).forceDouble (c.map (mu * ·)) phi theta = M3.scale (mu / l) (P.forceDouble c phi theta) := by
  simp only [forceDouble]
  rw [rescale_unitN _ _ _ hl, rescale_K _ _ _ hl]
  apply M3_ext <;> ext <;>
    simp only [M3.scale, M3.sub, M3.outer, V3.smul_x, V3.smul_y, V3.smul_z, V3.sub_x, V3.sub_y, V3.sub_z] <;> ring

end CpParams

end Verif
