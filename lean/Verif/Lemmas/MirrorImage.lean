import Verif.Spec.MirrorImage
import Verif.Lemmas.OriginForce
import Verif.Props.Surface

/-!
# The fields of the mirror image
-/

namespace Verif

open Real CpParams

/-! ## Vectors -/

theorem mirrorZ_mirrorZ (a : V3) : mirrorZ (mirrorZ a) = a := by ext <;> simp [mirrorZ]

theorem mirrorZ_add (a b : V3) : mirrorZ (a + b) = mirrorZ a + mirrorZ b := by ext <;> simp [mirrorZ] <;> ring

theorem mirrorZ_sub (a b : V3) : mirrorZ (a - b) = mirrorZ a - mirrorZ b := by ext <;> simp [mirrorZ] <;> ring

theorem mirrorZ_neg (a : V3) : mirrorZ (-a) = -mirrorZ a := by ext <;> simp [mirrorZ]

theorem mirrorZ_smul (s : ℝ) (a : V3) : mirrorZ (s • a) = s • mirrorZ a := by ext <;> simp [mirrorZ]

/-- The reflection reverses the orientation. -/
theorem mirrorZ_cross (a b : V3) : V3.cross (mirrorZ a) (mirrorZ b) = -mirrorZ (V3.cross a b) := by
  ext <;> simp [mirrorZ, V3.cross] <;> ring

theorem mirrorZ_dot (a b : V3) : V3.dot (mirrorZ a) (mirrorZ b) = V3.dot a b := by simp [mirrorZ, V3.dot]

theorem mirrorZ_normSq (a : V3) : (mirrorZ a).normSq = a.normSq := by simp [mirrorZ, V3.normSq]

theorem mirrorZ_norm (a : V3) : (mirrorZ a).norm = a.norm := by rw [V3.norm, mirrorZ_normSq, V3.norm]

theorem v3_neg_normSq (a : V3) : (-a).normSq = a.normSq := by simp [V3.normSq]

theorem v3_neg_norm (a : V3) : (-a).norm = a.norm := by rw [V3.norm, v3_neg_normSq, V3.norm]

theorem v3_cross_neg (a b : V3) : V3.cross a (-b) = -V3.cross a b := by ext <;> simp [V3.cross] <;> ring

theorem v3_neg_cross (a b : V3) : V3.cross (-a) b = -V3.cross a b := by ext <;> simp [V3.cross] <;> ring

theorem v3_dot_neg (a b : V3) : V3.dot a (-b) = -V3.dot a b := by simp [V3.dot]; ring

theorem v3_neg_dot (a b : V3) : V3.dot (-a) b = -V3.dot a b := by simp [V3.dot]; ring

theorem v3_neg_neg (a : V3) : -(-a) = a := by ext <;> simp

theorem v3_smul_neg (s : ℝ) (a : V3) : s • (-a) = -(s • a) := by ext <;> simp

theorem v3_neg_smul (s : ℝ) (a : V3) : (-s) • a = -(s • a) := by ext <;> simp

theorem v3_neg_add (a b : V3) : -a + -b = -(a + b) := by ext <;> simp <;> ring

theorem mirrorZ_vsum {β : Type} (l : List β) (f : β → V3) : vsum (l.map fun q => mirrorZ (f q)) = mirrorZ (vsum (l.map f)) := by
  have h : ∀ l : List β, (l.map fun q => -(f q).z).sum = -(l.map fun q => (f q).z).sum := by
    intro l
    induction l with
    | nil => simp
    | cons q l ih =>
      simp only [List.map_cons, List.sum_cons, ih]
      ring
  ext <;> simp [vsum, mirrorZ, List.map_map, Function.comp_def, h]

theorem neg_vsum {β : Type} (l : List β) (f : β → V3) : vsum (l.map fun q => -f q) = -vsum (l.map f) := by
  have h : ∀ (g : β → ℝ) (l : List β), (l.map fun q => -g q).sum = -(l.map g).sum := by
    intro g l
    induction l with
    | nil => simp
    | cons q l ih =>
      simp only [List.map_cons, List.sum_cons, ih]
      ring
  ext <;> simp [vsum, List.map_map, Function.comp_def, h]

/-! ## Surfaces -/

theorem rOperator_length (S : SurfaceShape) (a b : ℕ) (p t : ℝ) : (S.rOperator a b p t).length = S.numR := by
  rw [S.rOperator_eq, List.length_map, SurfaceShape.rRows, SurfaceShape.numR]
  split_ifs <;> simp only [List.length_append, S.cRows_length, S.sRows_length] <;> ring

theorem applyRow_split (A B d : List ℝ) :
    SurfaceShape.applyRow (A ++ B) d = SurfaceShape.applyRow A d + SurfaceShape.applyRow B (d.drop A.length) := by
  unfold SurfaceShape.applyRow
  induction A generalizing d with
  | nil => simp
  | cons x A ih =>
    cases d with
    | nil => simp
    | cons y d =>
      simp only [List.cons_append, List.zipWith_cons_cons, List.sum_cons, List.length_cons, List.drop_succ_cons, ih]
      ring

theorem applyRow_neg (B d : List ℝ) : SurfaceShape.applyRow B (d.map fun x => -x) = -SurfaceShape.applyRow B d := by
  unfold SurfaceShape.applyRow
  induction B generalizing d with
  | nil => simp
  | cons x B ih =>
    cases d with
    | nil => simp
    | cons y d =>
      simp only [List.map_cons, List.zipWith_cons_cons, List.sum_cons, ih]
      ring

theorem applyRow_mirror (A B d : List ℝ) :
    SurfaceShape.applyRow (A ++ B) (d.take A.length ++ (d.drop A.length).map fun x => -x) =
      SurfaceShape.applyRow A d - SurfaceShape.applyRow B (d.drop A.length) := by
  rw [sub_eq_add_neg, ← applyRow_neg]
  unfold SurfaceShape.applyRow
  induction A generalizing d with
  | nil => simp
  | cons x A ih =>
    cases d with
    | nil => simp
    | cons y d =>
      simp only [List.cons_append, List.zipWith_cons_cons, List.sum_cons, List.length_cons, List.drop_succ_cons, List.take_succ_cons, ih]
      ring

theorem applyRow_zeros {β : Type} (l : List β) (d : List ℝ) : SurfaceShape.applyRow (l.map fun _ => 0) d = 0 := by
  unfold SurfaceShape.applyRow
  induction l generalizing d with
  | nil => simp
  | cons x l ih =>
    cases d with
    | nil => simp
    | cons y d => simp only [List.map_cons, List.zipWith_cons_cons, List.sum_cons, zero_mul, zero_add, ih]

theorem rDash_mirror (S : SurfaceShape) (dofs : List ℝ) (a b : ℕ) (p t : ℝ) : S.rDash (S.mirrorDofs dofs) a b p t = S.rDash dofs a b p t := by
  rw [SurfaceShape.rDash, SurfaceShape.rDash, SurfaceShape.rOperatorPadded, SurfaceShape.mirrorDofs, ← rOperator_length S a b p t, applyRow_mirror,
    applyRow_split, applyRow_zeros]
  ring

theorem zDash_mirror (S : SurfaceShape) (dofs : List ℝ) (a b : ℕ) (p t : ℝ) : S.zDash (S.mirrorDofs dofs) a b p t = -S.zDash dofs a b p t := by
  have hl : ((S.rOperator a b p t).map fun _ => (0 : ℝ)).length = S.numR := by rw [List.length_map, rOperator_length]
  rw [SurfaceShape.zDash, SurfaceShape.zDash, SurfaceShape.zOperatorPadded, SurfaceShape.mirrorDofs, ← hl, applyRow_mirror,
    applyRow_split, applyRow_zeros]
  ring

/-- All derivatives of the surface are reflected. -/
theorem gammadash_mirror (S : SurfaceShape) (dofs : List ℝ) (a b : ℕ) (p t : ℝ) :
    S.gammadash (S.mirrorDofs dofs) a b p t = mirrorZ (S.gammadash dofs a b p t) := by
  simp only [SurfaceShape.gammadash, mirrorZ, zDash_mirror]
  have hx : S.xTerm (S.mirrorDofs dofs) a b p t = S.xTerm dofs a b p t := by
    funext k
    simp only [SurfaceShape.xTerm, rDash_mirror]
  have hy : S.yTerm (S.mirrorDofs dofs) a b p t = S.yTerm dofs a b p t := by
    funext k
    simp only [SurfaceShape.yTerm, rDash_mirror]
  rw [hx, hy]

theorem gamma_mirror (S : SurfaceShape) (dofs : List ℝ) (p t : ℝ) : S.gamma (S.mirrorDofs dofs) p t = mirrorZ (S.gamma dofs p t) :=
  gammadash_mirror ..

theorem normal_mirror (S : SurfaceShape) (dofs : List ℝ) (p t : ℝ) : S.normal (S.mirrorDofs dofs) p t = -mirrorZ (S.normal dofs p t) := by
  rw [SurfaceShape.normal, gammadash_mirror, gammadash_mirror, mirrorZ_cross, SurfaceShape.normal]

theorem unitnormal_mirror (S : SurfaceShape) (dofs : List ℝ) (p t : ℝ) :
    S.unitnormal (S.mirrorDofs dofs) p t = -mirrorZ (S.unitnormal dofs p t) := by
  rw [SurfaceShape.unitnormal, normal_mirror, v3_neg_norm, mirrorZ_norm, v3_smul_neg, ← mirrorZ_smul, SurfaceShape.unitnormal]

/-! ## The winding surface -/

/-- The winding surface is mirrored, and the currents are the same. -/
def CpParams.mirrored (P : CpParams) : CpParams := { P with wdofs := P.surf.mirrorDofs P.wdofs }

namespace CpParams

variable (P : CpParams)

theorem mirrored_dg1 (p x : ℝ) : P.mirrored.dg1 p x = mirrorZ (P.dg1 p x) := gammadash_mirror ..
theorem mirrored_dg2 (p x : ℝ) : P.mirrored.dg2 p x = mirrorZ (P.dg2 p x) := gammadash_mirror ..
theorem mirrored_dg11 (p x : ℝ) : P.mirrored.dg11 p x = mirrorZ (P.dg11 p x) := gammadash_mirror ..
theorem mirrored_dg12 (p x : ℝ) : P.mirrored.dg12 p x = mirrorZ (P.dg12 p x) := gammadash_mirror ..
theorem mirrored_dg22 (p x : ℝ) : P.mirrored.dg22 p x = mirrorZ (P.dg22 p x) := gammadash_mirror ..

theorem mirrored_N (p x : ℝ) : P.mirrored.N p x = -mirrorZ (P.N p x) := by
  rw [N, mirrored_dg1, mirrored_dg2, mirrorZ_cross, N]

theorem mirrored_invN (p x : ℝ) : P.mirrored.invN p x = P.invN p x := by
  rw [invN, mirrored_N, v3_neg_norm, mirrorZ_norm, invN]

theorem mirrored_unitN (p x : ℝ) : P.mirrored.unitN p x = -mirrorZ (P.unitN p x) := by
  rw [unitN, mirrored_N, v3_neg_norm, mirrorZ_norm, v3_smul_neg, ← mirrorZ_smul, unitN]

theorem mirrored_grad1 (p x : ℝ) : P.mirrored.grad1 p x = mirrorZ (P.grad1 p x) := by
  rw [grad1, mirrored_N, mirrored_dg2, v3_neg_normSq, mirrorZ_normSq, v3_cross_neg, mirrorZ_cross, v3_neg_neg, ← mirrorZ_smul, grad1]

theorem mirrored_grad2 (p x : ℝ) : P.mirrored.grad2 p x = mirrorZ (P.grad2 p x) := by
  rw [grad2, mirrored_N, mirrored_dg1, v3_neg_normSq, mirrorZ_normSq, v3_neg_neg, mirrorZ_cross, ← mirrorZ_neg, ← v3_cross_neg, ← mirrorZ_smul,
    grad2]

theorem mirrored_normaldash1 (p x : ℝ) : P.mirrored.normaldash1 p x = -mirrorZ (P.normaldash1 p x) := by
  rw [normaldash1, mirrored_dg11, mirrored_dg2, mirrored_dg1, mirrored_dg12, mirrorZ_cross, mirrorZ_cross, v3_neg_add, ← mirrorZ_add, normaldash1]

theorem mirrored_normaldash2 (p x : ℝ) : P.mirrored.normaldash2 p x = -mirrorZ (P.normaldash2 p x) := by
  rw [normaldash2, mirrored_dg22, mirrored_dg2, mirrored_dg1, mirrored_dg12, mirrorZ_cross, mirrorZ_cross, v3_neg_add, ← mirrorZ_add, normaldash2]

theorem mirrored_invNdash1 (p x : ℝ) : P.mirrored.invNdash1 p x = P.invNdash1 p x := by
  rw [invNdash1, mirrored_N, mirrored_normaldash1, v3_dot_neg, v3_neg_dot, neg_neg, mirrorZ_dot, v3_neg_normSq, mirrorZ_normSq, invNdash1]

theorem mirrored_invNdash2 (p x : ℝ) : P.mirrored.invNdash2 p x = P.invNdash2 p x := by
  rw [invNdash2, mirrored_N, mirrored_normaldash2, v3_dot_neg, v3_neg_dot, neg_neg, mirrorZ_dot, v3_neg_normSq, mirrorZ_normSq, invNdash2]

theorem mirrored_dg1InvNdash1 (p x : ℝ) : P.mirrored.dg1InvNdash1 p x = mirrorZ (P.dg1InvNdash1 p x) := by
  simp only [dg1InvNdash1, mirrored_invN, mirrored_invNdash1, mirrored_dg11, mirrored_dg1, mirrorZ_add, mirrorZ_smul]

theorem mirrored_dg1InvNdash2 (p x : ℝ) : P.mirrored.dg1InvNdash2 p x = mirrorZ (P.dg1InvNdash2 p x) := by
  simp only [dg1InvNdash2, mirrored_invN, mirrored_invNdash2, mirrored_dg12, mirrored_dg1, mirrorZ_add, mirrorZ_smul]

theorem mirrored_dg2InvNdash1 (p x : ℝ) : P.mirrored.dg2InvNdash1 p x = mirrorZ (P.dg2InvNdash1 p x) := by
  simp only [dg2InvNdash1, mirrored_invN, mirrored_invNdash1, mirrored_dg12, mirrored_dg2, mirrorZ_add, mirrorZ_smul]

theorem mirrored_dg2InvNdash2 (p x : ℝ) : P.mirrored.dg2InvNdash2 p x = mirrorZ (P.dg2InvNdash2 p x) := by
  simp only [dg2InvNdash2, mirrored_invN, mirrored_invNdash2, mirrored_dg22, mirrored_dg2, mirrorZ_add, mirrorZ_smul]

theorem mirrored_unitNdash1 (p x : ℝ) : P.mirrored.unitNdash1 p x = -mirrorZ (P.unitNdash1 p x) := by
  simp only [unitNdash1, mirrored_dg1InvNdash1, mirrored_dg2, mirrored_invN, mirrored_dg1, mirrored_dg12, ← mirrorZ_smul, mirrorZ_cross, v3_neg_add,
    ← mirrorZ_add]

theorem mirrored_unitNdash2 (p x : ℝ) : P.mirrored.unitNdash2 p x = -mirrorZ (P.unitNdash2 p x) := by
  simp only [unitNdash2, mirrored_dg1InvNdash2, mirrored_dg2, mirrored_invN, mirrored_dg1, mirrored_dg22, ← mirrorZ_smul, mirrorZ_cross, v3_neg_add,
    ← mirrorZ_add]

theorem mirrored_divN (p x : ℝ) : P.mirrored.divN p x = -P.divN p x := by
  rw [divN, mirrored_grad1, mirrored_grad2, mirrored_unitNdash1, mirrored_unitNdash2, divN]
  simp only [v3_dot_neg, mirrorZ_dot]
  ring

theorem mirrored_opPhi (p x : ℝ) : P.mirrored.opPhi p x = P.opPhi p x := rfl
theorem mirrored_opTheta (p x : ℝ) : P.mirrored.opTheta p x = P.opTheta p x := rfl
theorem mirrored_opPhiPhi (p x : ℝ) : P.mirrored.opPhiPhi p x = P.opPhiPhi p x := rfl
theorem mirrored_opPhiTheta (p x : ℝ) : P.mirrored.opPhiTheta p x = P.opPhiTheta p x := rfl
theorem mirrored_opThetaTheta (p x : ℝ) : P.mirrored.opThetaTheta p x = P.opThetaTheta p x := rfl
theorem mirrored_G : P.mirrored.G = P.G := rfl
theorem mirrored_I : P.mirrored.I = P.I := rfl

/-- The current is reflected. -/
theorem mirrored_K (c : List ℝ) (p x : ℝ) : P.mirrored.K c p x = mirrorZ (P.K c p x) := by
  simp only [K_eq, mirrored_invN, mirrored_dg1, mirrored_dg2, mirrored_opPhi, mirrored_opTheta, mirrored_G, mirrored_I, mirrorZ_smul, mirrorZ_sub]

theorem mirrored_Kdash1 (c : List ℝ) (p x : ℝ) : P.mirrored.Kdash1 c p x = mirrorZ (P.Kdash1 c p x) := by
  simp only [Kdash1_eq, mirrored_invN, mirrored_dg1, mirrored_dg2, mirrored_dg2InvNdash1, mirrored_dg1InvNdash1, mirrored_opPhi, mirrored_opTheta,
    mirrored_opPhiPhi, mirrored_opPhiTheta, mirrored_G, mirrored_I, mirrorZ_smul, mirrorZ_sub, mirrorZ_add]

theorem mirrored_Kdash2 (c : List ℝ) (p x : ℝ) : P.mirrored.Kdash2 c p x = mirrorZ (P.Kdash2 c p x) := by
  simp only [Kdash2_eq, mirrored_invN, mirrored_dg1, mirrored_dg2, mirrored_dg2InvNdash2, mirrored_dg1InvNdash2, mirrored_opPhi, mirrored_opTheta,
    mirrored_opThetaTheta, mirrored_opPhiTheta, mirrored_G, mirrored_I, mirrorZ_smul, mirrorZ_sub, mirrorZ_add]

theorem mirrored_KdotGradK (c : List ℝ) (p x : ℝ) : P.mirrored.KdotGradK c p x = mirrorZ (P.KdotGradK c p x) := by
  simp only [KdotGradK, mirrored_invN, mirrored_Kdash1, mirrored_Kdash2, mirrored_opPhi, mirrored_opTheta, mirrored_G, mirrored_I, mirrorZ_smul,
    mirrorZ_sub]

theorem mirrored_forceTensors (c : List ℝ) (p x : ℝ) (v : V3) :
    M3.act (mirrorZ v) (P.mirrored.forceSingle c p x) = mirrorZ (M3.act v (P.forceSingle c p x)) ∧
    M3.act (mirrorZ v) (P.mirrored.forceDouble c p x) = -mirrorZ (M3.act v (P.forceDouble c p x)) := by
  constructor
  · rw [forceSingle_cross, forceSingle_cross, mirrored_divN, mirrored_K, mirrored_unitN, mirrored_grad1, mirrored_grad2, mirrored_Kdash1,
      mirrored_Kdash2]
    ext <;> simp [mirrorZ, V3.cross] <;> ring
  · rw [forceDouble_cross, forceDouble_cross, mirrored_K, mirrored_unitN]
    ext <;> simp [mirrorZ, V3.cross] <;> ring

end CpParams

/-! ## The force -/

theorem rUnit_mirror (g : V3) : rUnit (mirrorZ g) = rUnit g := by
  rw [rUnit, mirrorZ_norm]
  rfl

theorem phiUnit_mirror (g : V3) : phiUnit (mirrorZ g) = phiUnit g := by rw [phiUnit, rUnit_mirror, phiUnit]

/-- The vertical component changes sign. -/
theorem projectCylindrical_mirror (g v : V3) : projectCylindrical (mirrorZ g) (mirrorZ v) = mirrorZ (projectCylindrical g v) := by
  simp only [projectCylindrical, rUnit_mirror, phiUnit_mirror]
  ext <;> simp [projectCoord, V3.dot, mirrorZ, rUnit, phiUnit, zUnit, V3.cross]

theorem projectCylindrical_smul (s : ℝ) (g v : V3) : projectCylindrical g (s • v) = s • projectCylindrical g v := by
  ext <;> simp [projectCylindrical, projectCoord, V3.dot] <;> ring

/-- The projection of a reflected tensor. -/
theorem projectTensor_mirror (s : ℝ) (g : V3) {A B : M3} (h : ∀ v, M3.act (mirrorZ v) A = s • mirrorZ (M3.act v B)) :
    (projectTensor (mirrorZ g) A).r1 = s • mirrorZ (projectTensor g B).r1 ∧
    (projectTensor (mirrorZ g) A).r2 = s • mirrorZ (projectTensor g B).r2 ∧
    (projectTensor (mirrorZ g) A).r3 = (-s) • mirrorZ (projectTensor g B).r3 := by
  have hr : mirrorZ (rUnit g) = rUnit g := by ext <;> simp [mirrorZ, rUnit]
  have hp : mirrorZ (phiUnit g) = phiUnit g := by ext <;> simp [mirrorZ, phiUnit, zUnit, V3.cross, rUnit]
  have h1 := h (rUnit g)
  have h2 := h (phiUnit g)
  have h3 : M3.act zUnit A = (-s) • mirrorZ (M3.act zUnit B) := by
    have h0 := h zUnit
    have e : ∀ T : M3, M3.act (mirrorZ zUnit) T = -M3.act zUnit T := by
      intro T
      ext <;> simp [M3.act, mirrorZ, zUnit]
    rw [e] at h0
    rw [← v3_neg_neg (M3.act zUnit A), h0, v3_neg_smul]
  rw [hr] at h1
  rw [hp] at h2
  simp only [projectTensor, rUnit_mirror, phiUnit_mirror, h1, h2, h3, projectCylindrical_smul, projectCylindrical_mirror, true_and]

theorem contract_mirror {A B : ForceArrays} {ker ker' : ℕ → ℕ → ℕ → ℝ} {T T' : ℕ → ℕ → M3} {K : V3} {comp : V3 → ℝ} {s σ : ℝ}
    (hs : s * s = 1) (hn : B.nfp = A.nfp) (hp : B.nPhiX = A.nPhiX) (ht : B.nThetaX = A.nThetaX)
    (hc : ∀ (r : ℝ) (v : V3), comp (r • mirrorZ v) = r * (σ * comp v)) (hk : ∀ fp p t, ker' fp p t = s * ker fp p t)
    (hT : ∀ p t, (T' p t).r1 = s • mirrorZ (T p t).r1 ∧ (T' p t).r2 = s • mirrorZ (T p t).r2 ∧ (T' p t).r3 = (-s) • mirrorZ (T p t).r3) :
    B.contract ker' T' (mirrorZ K) comp = σ * A.contract ker T K comp := by
  have h1 : ∀ x y : ℝ, s * x * (s * (σ * y)) = σ * (x * y) := fun x y => by linear_combination (σ * x * y) * hs
  have h2 : ∀ x y : ℝ, s * x * (-s * (σ * y)) = -(σ * (x * y)) := fun x y => by linear_combination (-σ * x * y) * hs
  rw [ForceArrays.contract, ForceArrays.contract, hn, hp, ht, Finset.mul_sum]
  refine Finset.sum_congr rfl fun fp _ => ?_
  have e1 : ∀ p t, ker' fp p t * comp (T' p t).r1 = σ * (ker fp p t * comp (T p t).r1) := fun p t => by rw [hk, (hT p t).1, hc, h1]
  have e2 : ∀ p t, ker' fp p t * comp (T' p t).r2 = σ * (ker fp p t * comp (T p t).r2) := fun p t => by rw [hk, (hT p t).2.1, hc, h1]
  have e3 : ∀ p t, ker' fp p t * comp (T' p t).r3 = -σ * (ker fp p t * comp (T p t).r3) := fun p t => by
    rw [hk, (hT p t).2.2, hc, h2]
    ring
  simp only [e1, e2, e3, ← Finset.mul_sum, mirrorZ]
  ring

theorem forceAt_mirror (Q : FieldProblem) (c : List ℝ) (i j : ℕ) : Q.mirrored.forceAt c i j = mirrorZ (Q.forceAt c i j) := by
  have hcp : Q.mirrored.cp = Q.cp.mirrored := rfl
  have hda : Q.mirrored.windingDa = Q.windingDa := by
    funext p t
    have : ∀ p t, Q.mirrored.cp.surf.normal Q.mirrored.cp.wdofs p t = -mirrorZ (Q.cp.surf.normal Q.cp.wdofs p t) := fun p t => normal_mirror ..
    rw [FieldProblem.windingDa, this, v3_neg_norm, mirrorZ_norm]
    rfl
  have key : ∀ (comp : V3 → ℝ) (σ : ℝ), (∀ (r : ℝ) (v : V3), comp (r • mirrorZ v) = r * (σ * comp v)) →
      forceCylOf Q.mirrored.cp c (fun p => Q.wPhis.getD p 0) (fun t => Q.wThetas.getD t 0) (fun p => Q.ePhis.getD p 0)
        (fun t => Q.eThetas.getD t 0) Q.wPhis.length Q.wThetas.length Q.mirrored.windingDa i j comp =
      σ * forceCylOf Q.cp c (fun p => Q.wPhis.getD p 0) (fun t => Q.wThetas.getD t 0) (fun p => Q.ePhis.getD p 0)
        (fun t => Q.eThetas.getD t 0) Q.wPhis.length Q.wThetas.length Q.windingDa i j comp := by
    intro comp σ hc
    have hg : ∀ p t, Q.mirrored.cp.surf.gamma Q.mirrored.cp.wdofs p t = mirrorZ (Q.cp.surf.gamma Q.cp.wdofs p t) := fun p t => gamma_mirror ..
    have hK : ∀ p t, Q.mirrored.cp.K c p t = mirrorZ (Q.cp.K c p t) := Q.cp.mirrored_K c
    have hN : ∀ p t, Q.mirrored.cp.unitN p t = -mirrorZ (Q.cp.unitN p t) := Q.cp.mirrored_unitN
    rw [hda, forceCylOf, forceCylOf, forceCyl, forceCyl, ForceArrays.integrateForce, ForceArrays.integrateForce, mul_add]
    have hKc : ∀ p t, projectCylindrical (Q.mirrored.cp.surf.gamma Q.mirrored.cp.wdofs p t) (Q.mirrored.cp.K c p t) =
        mirrorZ (projectCylindrical (Q.cp.surf.gamma Q.cp.wdofs p t) (Q.cp.K c p t)) := fun p t => by
      rw [hg, hK, projectCylindrical_mirror]
    simp only [forceArrays, hKc]
    congr 1
    · refine contract_mirror (s := 1) (one_mul 1) rfl rfl rfl hc (fun fp p t => ?_) fun p t => ?_
      · rw [one_mul]
        simp only [ForceArrays.singleKernel, ForceArrays.dist, ForceArrays.diff, hg, ← mirrorZ_sub, mirrorZ_normSq]
        rfl
      · rw [hg]
        refine projectTensor_mirror 1 _ fun v => ?_
        rw [hcp, (Q.cp.mirrored_forceTensors c _ _ v).1]
        ext <;> simp
    · refine contract_mirror (s := -1) (by norm_num) rfl rfl rfl hc (fun fp p t => ?_) fun p t => ?_
      · simp only [ForceArrays.doubleKernel, ForceArrays.dist, ForceArrays.denom, ForceArrays.diff, hg, hN, ← mirrorZ_sub, mirrorZ_normSq,
          v3_dot_neg, mirrorZ_dot]
        split_ifs
        · simp
        · have : Q.mirrored.cp.nfp = Q.cp.nfp := rfl
          rw [this]
          ring
      · rw [hg]
        refine projectTensor_mirror (-1) _ fun v => ?_
        rw [hcp, (Q.cp.mirrored_forceTensors c _ _ v).2]
        ext <;> simp
  have hx := key V3.x 1 (fun r v => by simp [mirrorZ])
  have hy := key V3.y 1 (fun r v => by simp [mirrorZ])
  have hz := key V3.z (-1) (fun r v => by simp [mirrorZ])
  rw [one_mul] at hx hy
  rw [neg_one_mul] at hz
  ext
  · exact hx
  · exact hy
  · exact hz

end Verif
