import Verif.Lemmas.Scaling

/-! # How the fields and integrals of a problem depend on its size -/

namespace Verif

open Finset

/-! ## Integrals -/

theorem gridSurface_da_scale (S : GridSurface) (l : ℝ) (hl : 0 < l) :
    ({ S with dofs := S.dofs.map (l * ·) } : GridSurface).da = S.da.map (l ^ 2 * ·) := by
  simp only [GridSurface.da, List.map_map]
  refine List.map_congr_left fun q _ => ?_
  simp only [Function.comp_apply]
  rw [normal_scale, V3.norm_smul_pos _ (by positivity)]
  ring

theorem zipWith_mul_scale (f g : List ℝ) (a b : ℝ) :
    (List.zipWith (· * ·) (f.map (a * ·)) (g.map (b * ·))).sum = a * b * (List.zipWith (· * ·) f g).sum := by
  induction f generalizing g with
  | nil => simp
  | cons x f ih =>
    cases g with
    | nil => simp
    | cons y g =>
      simp only [List.map_cons, List.zipWith_cons_cons, List.sum_cons, ih]
      ring

theorem integrate_scale (S : GridSurface) (l a : ℝ) (hl : 0 < l) (f : List ℝ) :
    ({ S with dofs := S.dofs.map (l * ·) } : GridSurface).integrate (f.map (a * ·)) = a * l ^ 2 * S.integrate f := by
  rw [GridSurface.integrate, gridSurface_da_scale S l hl, zipWith_mul_scale, GridSurface.integrate]

theorem vsum_smul (L : List V3) (a : ℝ) : vsum (L.map (a • ·)) = a • vsum L := by
  have h : ∀ c : V3 → ℝ, (∀ v, c (a • v) = a * c v) → ((L.map (a • ·)).map c).sum = a * (L.map c).sum := by
    intro c hc
    rw [List.map_map]
    exact sum_map_scale L _ _ a fun v _ => by simpa using hc v
  ext
  · exact h _ fun _ => rfl
  · exact h _ fun _ => rfl
  · exact h _ fun _ => rfl

/-! ## Cylindrical components -/

theorem rUnit_scale (l : ℝ) (hl : 0 < l) (g : V3) : rUnit (l • g) = rUnit g := by
  ext
  · simp only [rUnit, V3.norm_smul_pos l hl, V3.smul_x]
    rw [mul_div_mul_left _ _ hl.ne']
  · simp only [rUnit, V3.norm_smul_pos l hl, V3.smul_y]
    rw [mul_div_mul_left _ _ hl.ne']
  · rfl

theorem phiUnit_scale (l : ℝ) (hl : 0 < l) (g : V3) : phiUnit (l • g) = phiUnit g := by
  rw [phiUnit, rUnit_scale l hl, phiUnit]

theorem projectCylindrical_scale (l : ℝ) (hl : 0 < l) (a : ℝ) (g v : V3) :
    projectCylindrical (l • g) (a • v) = a • projectCylindrical g v := by
  simp only [projectCylindrical, rUnit_scale l hl, phiUnit_scale l hl, projectCoord, V3.dot_smul_right]
  rfl

theorem act_scale_right (a : ℝ) (u : V3) (T : M3) : M3.act u (M3.scale a T) = a • M3.act u T := by
  ext <;> simp only [M3.act, M3.scale, V3.smul_x, V3.smul_y, V3.smul_z, V3.add_x, V3.add_y, V3.add_z] <;> ring

theorem projectTensor_scale (l : ℝ) (hl : 0 < l) (a : ℝ) (g : V3) (T : M3) :
    projectTensor (l • g) (M3.scale a T) = M3.scale a (projectTensor g T) := by
  simp only [projectTensor, rUnit_scale l hl, phiUnit_scale l hl, act_scale_right, projectCylindrical_scale l hl]
  rfl

/-! ## Force -/

theorem contract_scale (A B : ForceArrays) (h1 : A.nfp = B.nfp) (h2 : A.nPhiX = B.nPhiX) (h3 : A.nThetaX = B.nThetaX)
    (ker ker' : ℕ → ℕ → ℕ → ℝ) (T T' : ℕ → ℕ → M3) (K : V3) (comp : V3 → ℝ) (hcomp : ∀ (a : ℝ) v, comp (a • v) = a * comp v)
    (k t b : ℝ) (hker : ∀ fp p t, ker' fp p t = k * ker fp p t) (hT : ∀ p q, T' p q = M3.scale t (T p q)) :
    A.contract ker' T' (b • K) comp = k * t * b * B.contract ker T K comp := by
  simp only [ForceArrays.contract, h1, h2, h3, hker, hT, M3.scale, hcomp, V3.smul_x, V3.smul_y, V3.smul_z, Finset.mul_sum, mul_add]
  refine Finset.sum_congr rfl fun fp _ => ?_
  refine congrArg₂ _ (congrArg₂ _ ?_ ?_) ?_ <;>
    exact Finset.sum_congr rfl fun p _ => Finset.sum_congr rfl fun q _ => by ring

namespace FieldProblem

variable (Q : FieldProblem) (l mu : ℝ)

theorem rescale_windingDa (hl : 0 < l) (p t : ℕ) : (Q.rescale l mu).windingDa p t = l ^ 2 * Q.windingDa p t := by
  simp only [windingDa, rescale, CpParams.rescale]
  rw [normal_scale, V3.norm_smul_pos _ (by positivity)]
  ring

theorem rescale_forceCyl (hl : 0 < l) (c : List ℝ) (i j : ℕ) (comp : V3 → ℝ) (hcomp : ∀ (a : ℝ) v, comp (a • v) = a * comp v)
    (qphi qtheta ephi etheta : ℕ → ℝ) (nPhi nTheta : ℕ) (da da' : ℕ → ℕ → ℝ) (hda : ∀ p t, da' p t = l ^ 2 * da p t) (P : CpParams) :
    forceCylOf (P.rescale l mu) (c.map (mu * ·)) qphi qtheta ephi etheta nPhi nTheta da' i j comp =
      (mu / l) ^ 2 * forceCylOf P c qphi qtheta ephi etheta nPhi nTheta da i j comp := by
  have hg : ∀ x y, (P.rescale l mu).surf.gamma (P.rescale l mu).wdofs x y = l • P.surf.gamma P.wdofs x y :=
    fun x y => gamma_scale P.surf P.wdofs x y l
  simp only [forceCylOf, forceCyl, ForceArrays.integrateForce]
  have hdiff : ∀ fp p t, (forceArrays (P.rescale l mu) (c.map (mu * ·)) qphi qtheta ephi etheta nPhi nTheta da').diff i j fp p t =
      l • (forceArrays P c qphi qtheta ephi etheta nPhi nTheta da).diff i j fp p t := by
    intro fp p t
    simp only [ForceArrays.diff, forceArrays, hg, V3.smul_sub']
    rfl
  have hdist : ∀ fp p t, ¬ ForceArrays.selfMask i j fp p t →
      (forceArrays (P.rescale l mu) (c.map (mu * ·)) qphi qtheta ephi etheta nPhi nTheta da').dist i j fp p t =
        l * (forceArrays P c qphi qtheta ephi etheta nPhi nTheta da).dist i j fp p t := by
    intro fp p t hs
    simp only [ForceArrays.dist, hs, if_false, mul_zero, add_zero, hdiff, V3.normSq_smul]
    rw [Real.sqrt_mul (sq_nonneg l), Real.sqrt_sq hl.le]
  have hK : ∀ x y, projectCylindrical ((P.rescale l mu).surf.gamma (P.rescale l mu).wdofs x y)
      ((P.rescale l mu).K (c.map (mu * ·)) x y) = (mu / l) • projectCylindrical (P.surf.gamma P.wdofs x y) (P.K c x y) := by
    intro x y
    rw [hg, CpParams.rescale_K _ _ _ hl, projectCylindrical_scale l hl]
  rw [mul_add]
  congr 1
  · rw [show (mu / l) ^ 2 = l * (mu / l ^ 2) * (mu / l) by field_simp]
    simp only [forceArrays] at *
    rw [hK]
    refine contract_scale _ _ rfl rfl rfl _ _ _ _ _ comp hcomp l (mu / l ^ 2) (mu / l) ?_ ?_
    · intro fp p t
      simp only [ForceArrays.singleKernel]
      split_ifs with hs
      · simp
      · have := hdist fp p t hs
        simp only [ForceArrays.dist, ForceArrays.diff] at this ⊢
        rw [this, hda]
        by_cases h0 : √((P.surf.gamma P.wdofs (ephi i) (etheta j) - P.surf.gamma P.wdofs (qphi (fp * (nPhi / P.nfp) + p)) (qtheta t)).normSq
          + 1e-10 * if ForceArrays.selfMask i j fp p t then 1 else 0) = 0
        · rw [h0]; simp
        · field_simp
    · intro p q
      rw [hg, CpParams.rescale_forceSingle _ _ _ hl, projectTensor_scale l hl]
  · rw [show (mu / l) ^ 2 = 1 * (mu / l) * (mu / l) by ring]
    simp only [forceArrays] at *
    rw [hK]
    refine contract_scale _ _ rfl rfl rfl _ _ _ _ _ comp hcomp 1 (mu / l) (mu / l) ?_ ?_
    · intro fp p t
      simp only [ForceArrays.doubleKernel]
      split_ifs with hs
      · simp
      · have h1 := hdist fp p t hs
        have h2 := hdiff fp p t
        simp only [ForceArrays.dist, ForceArrays.diff, ForceArrays.denom] at h1 h2 ⊢
        rw [h1, hda, h2, CpParams.rescale_unitN _ _ _ hl]
        simp only [V3.dot, V3.smul_x, V3.smul_y, V3.smul_z, one_mul, show (P.rescale l mu).nfp = P.nfp from rfl]
        generalize √_ = d
        by_cases h0 : d = 0
        · rw [h0]; simp
        · field_simp
    · intro p q
      rw [hg, CpParams.rescale_forceDouble _ _ _ hl, projectTensor_scale l hl]

theorem rescale_forceAt (hl : 0 < l) (c : List ℝ) (i j : ℕ) :
    (Q.rescale l mu).forceAt (c.map (mu * ·)) i j = (mu / l) ^ 2 • Q.forceAt c i j := by
  ext
  · exact rescale_forceCyl l mu hl c i j V3.x (fun _ _ => rfl) _ _ _ _ _ _ _ _ (Q.rescale_windingDa l mu hl) Q.cp
  · exact rescale_forceCyl l mu hl c i j V3.y (fun _ _ => rfl) _ _ _ _ _ _ _ _ (Q.rescale_windingDa l mu hl) Q.cp
  · exact rescale_forceCyl l mu hl c i j V3.z (fun _ _ => rfl) _ _ _ _ _ _ _ _ (Q.rescale_windingDa l mu hl) Q.cp

/-! ## Magnetic field -/

theorem rescale_bTerm (hl : 0 < l) (c : List ℝ) (point : V3) (q : ℝ × ℝ) :
    (Q.rescale l mu).bTerm (c.map (mu * ·)) (l • point) q = (mu / l) • Q.bTerm c point q := by
  simp only [bTerm]
  have hg : (Q.rescale l mu).cp.surf.gamma (Q.rescale l mu).cp.wdofs q.1 q.2 = l • Q.cp.surf.gamma Q.cp.wdofs q.1 q.2 :=
    gamma_scale ..
  have hn : (Q.rescale l mu).cp.surf.normal (Q.rescale l mu).cp.wdofs q.1 q.2 = l ^ 2 • Q.cp.surf.normal Q.cp.wdofs q.1 q.2 :=
    normal_scale ..
  have hk : (Q.rescale l mu).cp.K (c.map (mu * ·)) q.1 q.2 = (mu / l) • Q.cp.K c q.1 q.2 := CpParams.rescale_K Q.cp l mu hl c q.1 q.2
  rw [hg, hn, hk, ← V3.smul_sub', V3.normSq_smul, Real.sqrt_mul (sq_nonneg l), Real.sqrt_sq hl.le, V3.norm_smul_pos _ (by positivity),
    V3.cross_smul_smul, V3.smul_smul', V3.smul_smul', V3.smul_smul', V3.smul_smul', one_div, mul_inv, one_div]
  congr 1
  field_simp

theorem rescale_windingB (hl : 0 < l) (c : List ℝ) (point : V3) :
    (Q.rescale l mu).windingB (c.map (mu * ·)) (l • point) = (mu / l) • Q.windingB c point := by
  have : (Q.rescale l mu).computeB (c.map (mu * ·)) (l • point) = (mu / l) • Q.computeB c point := by
    rw [computeB, computeB, ← vsum_smul, List.map_map]
    congr 1
    exact List.map_congr_left fun q _ => Q.rescale_bTerm l mu hl c point q
  rw [windingB, this, windingB, V3.smul_smul', V3.smul_smul']
  congr 1
  simp only [rescale]
  ring

theorem rescale_bnWinding (hl : 0 < l) (c : List ℝ) (q : ℝ × ℝ) :
    (Q.rescale l mu).bnWinding (c.map (mu * ·)) q = mu / l * Q.bnWinding c q := by
  simp only [bnWinding]
  have hg : (Q.rescale l mu).plasma.shape.gamma (Q.rescale l mu).plasma.dofs q.1 q.2 =
      l • Q.plasma.shape.gamma Q.plasma.dofs q.1 q.2 := gamma_scale ..
  have hn : (Q.rescale l mu).plasma.shape.unitnormal (Q.rescale l mu).plasma.dofs q.1 q.2 =
      Q.plasma.shape.unitnormal Q.plasma.dofs q.1 q.2 := unitnormal_scale _ _ _ _ _ hl
  rw [hg, hn, rescale_windingB _ _ _ hl, V3.dot_smul_right]

theorem rescale_bnormal (hl : 0 < l) (c : List ℝ) :
    (Q.rescale l mu).bnormal (c.map (mu * ·)) = (Q.bnormal c).map (mu / l * ·) := by
  simp only [bnormal]
  rw [show (Q.rescale l mu).bPlasma = Q.bPlasma.map (mu / l * ·) from rfl,
    show (Q.rescale l mu).plasma.phis = Q.plasma.phis from rfl, show (Q.rescale l mu).plasma.thetas = Q.plasma.thetas from rfl,
    List.zip_map_right, List.map_map, List.map_map]
  refine List.map_congr_left fun q _ => ?_
  simp only [Function.comp_apply, Prod.map_fst, Prod.map_snd, id_eq, rescale_bnWinding _ _ _ hl]
  ring

theorem rescale_fB (hl : 0 < l) (c : List ℝ) :
    (Q.rescale l mu).fB (c.map (mu * ·)) = (mu / l) ^ 2 * l ^ 2 * Q.fB c := by
  have h : ((Q.bnormal c).map (mu / l * ·)).map (fun b => b ^ 2 / 2) = ((Q.bnormal c).map fun b => b ^ 2 / 2).map ((mu / l) ^ 2 * ·) := by
    rw [List.map_map, List.map_map]
    refine List.map_congr_left fun b _ => ?_
    simp only [Function.comp_apply]
    ring
  rw [fB, rescale_bnormal _ _ _ hl, h]
  rw [show (Q.rescale l mu).plasma = { Q.plasma with dofs := Q.plasma.dofs.map (l * ·) } from rfl, integrate_scale _ _ _ hl, fB,
    show (Q.rescale l mu).cp.nfp = Q.cp.nfp from rfl]
  ring

theorem rescale_fBnormalized (hl : 0 < l) (hmu : 0 < mu) (c : List ℝ) :
    (Q.rescale l mu).fBnormalized (c.map (mu * ·)) = Q.fBnormalized c := by
  have h0 : List.replicate (cpNdofs Q.cp.stellsym Q.cp.mpol Q.cp.ntor).1 (0 : ℝ) =
      (List.replicate (cpNdofs Q.cp.stellsym Q.cp.mpol Q.cp.ntor).1 (0 : ℝ)).map (mu * ·) := by simp
  rw [fBnormalized, rescale_fB _ _ _ hl]
  rw [show (cpNdofs (Q.rescale l mu).cp.stellsym (Q.rescale l mu).cp.mpol (Q.rescale l mu).cp.ntor).1 =
    (cpNdofs Q.cp.stellsym Q.cp.mpol Q.cp.ntor).1 from rfl, h0, rescale_fB _ _ _ hl, fBnormalized, mul_div_mul_left]
  have : mu / l ≠ 0 := (div_pos hmu hl).ne'
  have := hl.ne'
  positivity

/-! ## Integrals over the winding surface -/

theorem rescale_evalIntegrate (hl : 0 < l) (f : List ℝ) (a : ℝ) :
    (Q.rescale l mu).evalSurface.integrate (f.map (a * ·)) = a * l ^ 2 * Q.evalSurface.integrate f :=
  integrate_scale Q.evalSurface l a hl f

theorem rescale_evalDa (hl : 0 < l) : (Q.rescale l mu).evalSurface.da = Q.evalSurface.da.map (l ^ 2 * ·) :=
  gridSurface_da_scale Q.evalSurface l hl

theorem rescale_fK (hl : 0 < l) (c : List ℝ) : (Q.rescale l mu).fK (c.map (mu * ·)) = (mu / l) ^ 2 * l ^ 2 * Q.fK c := by
  rw [fK, fK, show (Q.rescale l mu).cp.nfp = Q.cp.nfp from rfl, ← mul_assoc, ← rescale_evalIntegrate Q l mu hl, List.map_map]
  congr 2
  refine List.map_congr_left fun q _ => ?_
  have := CpParams.rescale_K2 Q.cp l mu hl c q.1 q.2
  simp only [Function.comp_apply]
  rw [show (Q.rescale l mu).cp = Q.cp.rescale l mu from rfl, this]
  ring

end FieldProblem

end Verif
