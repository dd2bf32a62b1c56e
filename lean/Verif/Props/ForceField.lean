import Verif.Props.Force
import Verif.Props.Current
import Verif.Props.Field
import Verif.Lemmas.SmoothC1
import Verif.Spec.TorusIntegral

/-!
# Properties C86, C87: the coil force is the Lorentz force

The integrands of the self-force are those of Robin and Volpe: the field at the evaluation point is written with kernels that
are less singular than that of Biot and Savart.
-/

namespace Verif

open CpParams

/-! ## C86 -/

theorem act_outer (k u v : V3) : M3.act k (M3.outer u v) = V3.dot k u • v := by
  ext <;> simp only [M3.act, M3.outer, V3.dot, V3.add_x, V3.add_y, V3.add_z, V3.smul_x, V3.smul_y, V3.smul_z] <;> ring

theorem act_add (k : V3) (S T : M3) : M3.act k (M3.add S T) = M3.act k S + M3.act k T := by
  ext <;> simp only [M3.act, M3.add, V3.add_x, V3.add_y, V3.add_z, V3.smul_x, V3.smul_y, V3.smul_z] <;> ring

theorem act_sub (k : V3) (S T : M3) : M3.act k (M3.sub S T) = M3.act k S - M3.act k T := by
  ext <;> simp only [M3.act, M3.sub, V3.add_x, V3.add_y, V3.add_z, V3.smul_x, V3.smul_y, V3.smul_z, V3.sub_x, V3.sub_y,
    V3.sub_z] <;> ring

theorem act_scale (k : V3) (s : ℝ) (T : M3) : M3.act k (M3.scale s T) = s • M3.act k T := by
  ext <;> simp only [M3.act, M3.scale, V3.add_x, V3.add_y, V3.add_z, V3.smul_x, V3.smul_y, V3.smul_z] <;> ring

theorem nDotGradN_zero (P : CpParams) (phi theta : ℝ) : P.nDotGradN phi theta = 0 := by
  have h1 : V3.dot (P.unitN phi theta) (P.grad1 phi theta) = 0 := by
    simp only [unitN, grad1, V3.dot, V3.cross, V3.smul_x, V3.smul_y, V3.smul_z]
    ring
  have h2 : V3.dot (P.unitN phi theta) (P.grad2 phi theta) = 0 := by
    simp only [unitN, grad2, V3.dot, V3.cross, V3.smul_x, V3.smul_y, V3.smul_z, V3.neg_x, V3.neg_y, V3.neg_z]
    ring
  rw [nDotGradN, h1, h2]
  ext <;> simp

/-- The single layer tensor acts as the cross product with a vector. -/
theorem forceSingle_cross (P : CpParams) (c : List ℝ) (phi theta : ℝ) (k : V3) :
    M3.act k (P.forceSingle c phi theta) = V3.cross k ((1e-7 : ℝ) •
      (P.divN phi theta • V3.cross (P.K c phi theta) (P.unitN phi theta) +
        V3.cross (P.grad1 phi theta) (P.Kdash1 c phi theta) + V3.cross (P.grad2 phi theta) (P.Kdash2 c phi theta))) := by
  simp only [forceSingle, act_scale, act_add, act_sub, act_outer, divPi, nDotGradN_zero]
  generalize P.K c phi theta = K
  generalize P.unitN phi theta = n
  generalize P.grad1 phi theta = g1
  generalize P.grad2 phi theta = g2
  generalize P.Kdash1 c phi theta = K1
  generalize P.Kdash2 c phi theta = K2
  ext <;> simp only [V3.dot, V3.cross, V3.add_x, V3.add_y, V3.add_z, V3.smul_x, V3.smul_y, V3.smul_z, V3.sub_x, V3.sub_y,
    V3.sub_z, V3.neg_x, V3.neg_y, V3.neg_z, V3.zero_x, V3.zero_y, V3.zero_z] <;> ring

/-- The double layer tensor acts as the cross product with a vector. -/
theorem forceDouble_cross (P : CpParams) (c : List ℝ) (phi theta : ℝ) (k : V3) :
    M3.act k (P.forceDouble c phi theta) =
      V3.cross k ((1e-7 : ℝ) • V3.cross (P.K c phi theta) (P.unitN phi theta)) := by
  simp only [forceDouble, act_scale, act_sub, act_outer]
  ext <;> simp only [V3.dot, V3.cross, V3.smul_x, V3.smul_y, V3.smul_z, V3.sub_x, V3.sub_y, V3.sub_z] <;> ring

/-- A tensor that contracted twice with the same vector gives 0. -/
def Alternating (T : M3) : Prop := ∀ v, V3.dot v (M3.act v T) = 0

theorem alternating_of_cross {T : M3} {b : V3} (h : ∀ k, M3.act k T = V3.cross k b) : Alternating T := by
  intro v
  rw [h]
  simp only [V3.dot, V3.cross]
  ring

theorem alternating_project (g : V3) (T : M3) (h : Alternating T) : Alternating (projectTensor g T) := by
  intro v
  -- the projected tensor contracted with `v` twice is `T` contracted twice with the combination of the frame vectors
  have := h (v.x • rUnit g + v.y • phiUnit g + v.z • zUnit)
  rw [← this]
  simp only [projectTensor, projectCylindrical, projectCoord, M3.act, V3.dot, V3.add_x, V3.add_y, V3.add_z, V3.smul_x,
    V3.smul_y, V3.smul_z]
  ring

/-- **C86.** The force components at every evaluation point are orthogonal to the components of the current there, for every
surface, all coefficients and all grids. -/
theorem C86_force_perpendicular (P : CpParams) (c : List ℝ) (qphi qtheta ephi etheta : ℕ → ℝ) (nPhi nTheta : ℕ)
    (da : ℕ → ℕ → ℝ) (i j : ℕ) :
    let F := forceCylOf P c qphi qtheta ephi etheta nPhi nTheta da i j
    V3.dot (projectCylindrical (P.surf.gamma P.wdofs (ephi i) (etheta j)) (P.K c (ephi i) (etheta j)))
      ⟨F V3.x, F V3.y, F V3.z⟩ = 0 := by
  intro F
  have gen : ∀ (B : ForceArrays), (∀ p t, Alternating (B.singleT p t)) → (∀ p t, Alternating (B.doubleT p t)) →
      V3.dot (B.KCyl i j) ⟨B.integrateForce i j V3.x, B.integrateForce i j V3.y, B.integrateForce i j V3.z⟩ = 0 := by
    intro B hS hD
    simp only [V3.dot, ForceArrays.integrateForce, B.contract_eq]
    simp only [← Finset.sum_add_distrib, Finset.mul_sum]
    refine Finset.sum_eq_zero fun s _ => ?_
    have h1 := hS s.2.1 s.2.2 (B.KCyl i j)
    have h2 := hD s.2.1 s.2.2 (B.KCyl i j)
    simp only [V3.dot, M3.act, V3.add_x, V3.add_y, V3.add_z, V3.smul_x, V3.smul_y, V3.smul_z] at h1 h2
    linear_combination B.singleKernel i j s.1 s.2.1 s.2.2 * h1 + B.doubleKernel i j s.1 s.2.1 s.2.2 * h2
  let A := forceArrays P c qphi qtheta ephi etheta nPhi nTheta da
  refine gen { A with
    KCyl := fun i j => projectCylindrical (A.gammaY i j) (P.K c (ephi i) (etheta j))
    singleT := fun p t => projectTensor (A.gammaX p t) (A.singleT p t)
    doubleT := fun p t => projectTensor (A.gammaX p t) (A.doubleT p t) } (fun p t => ?_) (fun p t => ?_)
  · exact alternating_project _ _ (alternating_of_cross fun k => forceSingle_cross P c _ _ k)
  · exact alternating_project _ _ (alternating_of_cross fun k => forceDouble_cross P c _ _ k)


/-! ## C87 -/

theorem unitNdash_eq (P : CpParams) (phi theta : ℝ) :
    P.unitNdash1 phi theta = P.invN phi theta • P.normaldash1 phi theta + P.invNdash1 phi theta • P.N phi theta ∧
    P.unitNdash2 phi theta = P.invN phi theta • P.normaldash2 phi theta + P.invNdash2 phi theta • P.N phi theta := by
  constructor <;> ext <;> simp only [unitNdash1, unitNdash2, dg1InvNdash1, dg1InvNdash2, normaldash1, normaldash2, N,
    V3.cross, V3.add_x, V3.add_y, V3.add_z, V3.smul_x, V3.smul_y, V3.smul_z] <;> ring

/-- The derivatives of the unit normal are tangential. -/
theorem unitNdash_tangential (P : CpParams) (phi theta : ℝ) (h : P.N phi theta ≠ 0) :
    V3.dot (P.N phi theta) (P.unitNdash1 phi theta) = 0 ∧ V3.dot (P.N phi theta) (P.unitNdash2 phi theta) = 0 := by
  have hn := ((V3.norm_pos_iff _).2 h).ne'
  have hs := V3.norm_sq (P.N phi theta)
  have hd : ∀ (a b : ℝ) (u v w : V3), V3.dot w (a • u + b • v) = a * V3.dot w u + b * V3.dot w v := by
    intro a b u v w
    simp only [V3.dot, V3.add_x, V3.add_y, V3.add_z, V3.smul_x, V3.smul_y, V3.smul_z]
    ring
  have hNN : V3.dot (P.N phi theta) (P.N phi theta) = (P.N phi theta).norm ^ 2 := by
    rw [hs]
    simp only [V3.dot, V3.normSq]
    ring
  constructor
  · rw [(unitNdash_eq P phi theta).1, hd, hNN, invNdash1, normSq_rpow _ h, invN]
    field_simp
    ring
  · rw [(unitNdash_eq P phi theta).2, hd, hNN, invNdash2, normSq_rpow _ h, invN]
    field_simp
    ring

/-- `gamma2 x n = |N| grad1`, `n x gamma1 = |N| grad2`. -/
theorem cross_unitN (P : CpParams) (phi theta : ℝ) (h : P.N phi theta ≠ 0) :
    V3.cross (P.dg2 phi theta) (P.unitN phi theta) = (P.N phi theta).norm • P.grad1 phi theta ∧
    V3.cross (P.unitN phi theta) (P.dg1 phi theta) = (P.N phi theta).norm • P.grad2 phi theta := by
  have hn := ((V3.norm_pos_iff _).2 h).ne'
  have e : (P.N phi theta).norm * (1 / (P.N phi theta).normSq) = 1 / (P.N phi theta).norm := by
    rw [← V3.norm_sq]
    field_simp
  constructor
  · have : (P.N phi theta).norm • P.grad1 phi theta =
        ((P.N phi theta).norm * (1 / (P.N phi theta).normSq)) • V3.cross (P.dg2 phi theta) (P.N phi theta) := by
      ext <;> simp only [grad1, V3.smul_x, V3.smul_y, V3.smul_z] <;> ring
    rw [this, e, unitN]
    ext <;> simp only [V3.cross, V3.smul_x, V3.smul_y, V3.smul_z] <;> ring
  · have : (P.N phi theta).norm • P.grad2 phi theta =
        ((P.N phi theta).norm * (1 / (P.N phi theta).normSq)) • V3.cross (P.dg1 phi theta) (-P.N phi theta) := by
      ext <;> simp only [grad2, V3.smul_x, V3.smul_y, V3.smul_z] <;> ring
    rw [this, e, unitN]
    ext <;> simp only [V3.cross, V3.smul_x, V3.smul_y, V3.smul_z, V3.neg_x, V3.neg_y, V3.neg_z] <;> ring

/-- The derivative of `gamma2 x n` and `n x gamma1` gives the divergence of the normal. -/
theorem cross_unitNdash (P : CpParams) (phi theta : ℝ) (h : P.N phi theta ≠ 0) :
    V3.cross (P.dg2 phi theta) (P.unitNdash1 phi theta) + V3.cross (P.unitNdash2 phi theta) (P.dg1 phi theta) =
      (-(P.N phi theta).norm * P.divN phi theta) • P.unitN phi theta := by
  obtain ⟨t1, t2⟩ := unitNdash_tangential P phi theta h
  obtain ⟨c1, c2⟩ := cross_unitN P phi theta h
  have hu := C42_unit_normal P phi theta h
  have hn := ((V3.norm_pos_iff _).2 h).ne'
  refine V3.eq_of_dots _ _ (P.dg1 phi theta) (P.dg2 phi theta) h ?_ ?_ ?_
  · have : V3.dot ((-(P.N phi theta).norm * P.divN phi theta) • P.unitN phi theta) (P.dg1 phi theta) =
        (-(P.N phi theta).norm * P.divN phi theta) * V3.dot (P.unitN phi theta) (P.dg1 phi theta) := by
      simp only [V3.dot, V3.smul_x, V3.smul_y, V3.smul_z]; ring
    rw [this, hu.2.1, mul_zero, ← t1, N]
    simp only [V3.dot, V3.cross, V3.add_x, V3.add_y, V3.add_z]
    ring
  · have : V3.dot ((-(P.N phi theta).norm * P.divN phi theta) • P.unitN phi theta) (P.dg2 phi theta) =
        (-(P.N phi theta).norm * P.divN phi theta) * V3.dot (P.unitN phi theta) (P.dg2 phi theta) := by
      simp only [V3.dot, V3.smul_x, V3.smul_y, V3.smul_z]; ring
    rw [this, hu.2.2.1, mul_zero, ← t2, N]
    simp only [V3.dot, V3.cross, V3.add_x, V3.add_y, V3.add_z]
    ring
  · have : V3.dot ((-(P.N phi theta).norm * P.divN phi theta) • P.unitN phi theta)
        (V3.cross (P.dg1 phi theta) (P.dg2 phi theta)) =
        (-(P.N phi theta).norm * P.divN phi theta) *
          V3.dot (P.unitN phi theta) (V3.cross (P.dg1 phi theta) (P.dg2 phi theta)) := by
      simp only [V3.dot, V3.smul_x, V3.smul_y, V3.smul_z]; ring
    rw [this, hu.2.2.2, ← N, divN]
    have e : V3.dot (V3.cross (P.dg2 phi theta) (P.unitNdash1 phi theta) +
        V3.cross (P.unitNdash2 phi theta) (P.dg1 phi theta)) (P.N phi theta) =
        -(V3.dot (V3.cross (P.dg2 phi theta) (P.N phi theta)) (P.unitNdash1 phi theta) +
          V3.dot (V3.cross (P.dg1 phi theta) (-P.N phi theta)) (P.unitNdash2 phi theta)) := by
      simp only [V3.dot, V3.cross, V3.add_x, V3.add_y, V3.add_z, V3.neg_x, V3.neg_y, V3.neg_z]
      ring
    have g1 : V3.dot (P.grad1 phi theta) (P.unitNdash1 phi theta) =
        1 / (P.N phi theta).normSq * V3.dot (V3.cross (P.dg2 phi theta) (P.N phi theta)) (P.unitNdash1 phi theta) := by
      simp only [grad1, V3.dot, V3.smul_x, V3.smul_y, V3.smul_z]; ring
    have g2 : V3.dot (P.grad2 phi theta) (P.unitNdash2 phi theta) =
        1 / (P.N phi theta).normSq * V3.dot (V3.cross (P.dg1 phi theta) (-P.N phi theta)) (P.unitNdash2 phi theta) := by
      simp only [grad2, V3.dot, V3.smul_x, V3.smul_y, V3.smul_z]; ring
    rw [e, g1, g2, ← V3.norm_sq]
    field_simp

/-- Decomposition of a vector in the frame of the surface. -/
theorem frame_decomposition (P : CpParams) (phi theta : ℝ) (h : P.N phi theta ≠ 0) (d : V3) :
    d = V3.dot d (P.unitN phi theta) • P.unitN phi theta + V3.dot d (P.dg1 phi theta) • P.grad1 phi theta +
      V3.dot d (P.dg2 phi theta) • P.grad2 phi theta := by
  have hr := C42_reciprocal_basis P phi theta h
  have hu := C42_unit_normal P phi theta h
  have hd : ∀ (a b s : ℝ) (u v w x : V3), V3.dot (a • u + b • v + s • w) x =
      a * V3.dot u x + b * V3.dot v x + s * V3.dot w x := by
    intro a b s u v w x
    simp only [V3.dot, V3.add_x, V3.add_y, V3.add_z, V3.smul_x, V3.smul_y, V3.smul_z]
    ring
  refine V3.eq_of_dots _ _ (P.dg1 phi theta) (P.dg2 phi theta) h ?_ ?_ ?_
  · rw [hd, hu.2.1, hr.r11, hr.r21]; ring
  · rw [hd, hu.2.2.1, hr.r12, hr.r22]; ring
  · rw [hd, hu.2.2.2, hr.tangent1, hr.tangent2, ← N]
    have hn := ((V3.norm_pos_iff _).2 h).ne'
    have : V3.dot d (P.unitN phi theta) = 1 / (P.N phi theta).norm * V3.dot d (P.N phi theta) := by
      simp only [unitN, V3.dot, V3.smul_x, V3.smul_y, V3.smul_z]; ring
    rw [this]
    field_simp
    ring

/-- What is integrated over the surface: the kernels of `_integrate_force` times the tensors contracted with `k`; `d` is the
vector from the source point to the evaluation point `y`. -/
noncomputable def forceIntegrand (P : CpParams) (c : List ℝ) (y k : V3) (phi theta : ℝ) : V3 :=
  let d := y - P.surf.gamma P.wdofs phi theta
  (1 / d.norm) • M3.act k (P.forceSingle c phi theta) +
    (V3.dot d (P.unitN phi theta) / d.norm ^ 3) • M3.act k (P.forceDouble c phi theta)

/-- First component of the vector field whose divergence is the difference. -/
noncomputable def fluxPhi (P : CpParams) (c : List ℝ) (y : V3) (phi theta : ℝ) : V3 :=
  V3.cross (V3.cross (P.dg2 phi theta) (P.unitN phi theta))
    ((1 / (y - P.surf.gamma P.wdofs phi theta).norm) • P.K c phi theta)

/-- Second component of the vector field whose divergence is the difference. -/
noncomputable def fluxTheta (P : CpParams) (c : List ℝ) (y : V3) (phi theta : ℝ) : V3 :=
  V3.cross (V3.cross (P.unitN phi theta) (P.dg1 phi theta))
    ((1 / (y - P.surf.gamma P.wdofs phi theta).norm) • P.K c phi theta)

theorem HasDerivV3.const_sub {f : ℝ → V3} {f' : V3} {t : ℝ} (y : V3) (hf : HasDerivV3 f f' t) :
    HasDerivV3 (fun s => y - f s) (-f') t :=
  ⟨hf.1.const_sub y.x, hf.2.1.const_sub y.y, hf.2.2.const_sub y.z⟩

theorem flux_algebra (k K K1 K2 n n1 n2 e1 e2 e12 g1 g2 d : V3) (m div r : ℝ)
    (c1 : V3.cross e2 n = m • g1) (c2 : V3.cross n e1 = m • g2)
    (c3 : V3.cross e2 n1 + V3.cross n2 e1 = (-m * div) • n)
    (hd : d = V3.dot d n • n + V3.dot d e1 • g1 + V3.dot d e2 • g2) :
    m • ((1 / r) • V3.cross k ((1e-7 : ℝ) • (div • V3.cross K n + V3.cross g1 K1 + V3.cross g2 K2)) +
        (V3.dot d n / r ^ 3) • V3.cross k ((1e-7 : ℝ) • V3.cross K n)) =
      m • V3.cross k ((1e-7 / r ^ 3) • V3.cross K d) + (1e-7 : ℝ) • V3.cross k
        ((V3.cross (V3.cross e12 n + V3.cross e2 n1) ((1 / r) • K) +
            V3.cross (V3.cross e2 n) ((-V3.dot d (-e1) / r ^ 3) • K + (1 / r) • K1)) +
          (V3.cross (V3.cross n2 e1 + V3.cross n e12) ((1 / r) • K) +
            V3.cross (V3.cross n e1) ((-V3.dot d (-e2) / r ^ 3) • K + (1 / r) • K2))) := by
  have hsum : (V3.cross (V3.cross e12 n + V3.cross e2 n1) ((1 / r) • K) +
            V3.cross (V3.cross e2 n) ((-V3.dot d (-e1) / r ^ 3) • K + (1 / r) • K1)) +
          (V3.cross (V3.cross n2 e1 + V3.cross n e12) ((1 / r) • K) +
            V3.cross (V3.cross n e1) ((-V3.dot d (-e2) / r ^ 3) • K + (1 / r) • K2)) =
      V3.cross (V3.cross e2 n1 + V3.cross n2 e1) ((1 / r) • K) +
        V3.cross (V3.cross e2 n) ((V3.dot d e1 / r ^ 3) • K + (1 / r) • K1) +
        V3.cross (V3.cross n e1) ((V3.dot d e2 / r ^ 3) • K + (1 / r) • K2) := by
    ext <;> simp only [V3.dot, V3.cross, V3.add_x, V3.add_y, V3.add_z, V3.smul_x, V3.smul_y, V3.smul_z, V3.neg_x, V3.neg_y,
      V3.neg_z] <;> ring
  rw [hsum, c1, c2, c3]
  have hK : V3.cross K d = V3.dot d n • V3.cross K n + V3.dot d e1 • V3.cross K g1 + V3.dot d e2 • V3.cross K g2 := by
    generalize V3.dot d n = a at hd ⊢
    generalize V3.dot d e1 = b at hd ⊢
    generalize V3.dot d e2 = e at hd ⊢
    rw [hd]
    ext <;> simp only [V3.cross, V3.add_x, V3.add_y, V3.add_z, V3.smul_x, V3.smul_y, V3.smul_z] <;> ring
  rw [hK]
  generalize V3.dot d n = a
  generalize V3.dot d e1 = b
  generalize V3.dot d e2 = e
  ext <;> simp only [V3.cross, V3.add_x, V3.add_y, V3.add_z, V3.smul_x, V3.smul_y, V3.smul_z] <;> ring

/-- **C87 (at every point).** The integrand of the force is the Lorentz force on `k` in the field of Biot and Savart, up to
a divergence. -/
theorem C87_pointwise (P : CpParams) (c : List ℝ) (y k : V3) (phi theta : ℝ) (h : P.N phi theta ≠ 0)
    (hy : y - P.surf.gamma P.wdofs phi theta ≠ 0) :
    ∃ p q : V3, HasDerivV3 (fun s => fluxPhi P c y s theta) p phi ∧ HasDerivV3 (fun s => fluxTheta P c y phi s) q theta ∧
      (P.N phi theta).norm • forceIntegrand P c y k phi theta =
        (P.N phi theta).norm • V3.cross k (biotSavart y (P.surf.gamma P.wdofs phi theta) (P.K c phi theta)) +
          (1e-7 : ℝ) • V3.cross k (p + q) := by
  have hg1 : HasDerivV3 (fun s => P.surf.gamma P.wdofs s theta) (P.dg1 phi theta) phi := C38_gammadash_phi ..
  have hg2 : HasDerivV3 (fun s => P.surf.gamma P.wdofs phi s) (P.dg2 phi theta) theta := C38_gammadash_theta ..
  have hf1 := (hg1.const_sub y).invNorm hy
  have hf2 := (hg2.const_sub y).invNorm hy
  obtain ⟨-, -, -, -, hn1, hn2⟩ := C43_helpers_exact P phi theta h
  obtain ⟨hK1, hK2⟩ := C43_K_derivatives P c phi theta h
  refine ⟨_, _, ((P.dg2_phi phi theta).cross hn1).cross (HasDerivV3.smul hf1 hK1),
    (hn2.cross (P.dg1_theta phi theta)).cross (HasDerivV3.smul hf2 hK2), ?_⟩
  have hdec := frame_decomposition P phi theta h (y - P.surf.gamma P.wdofs phi theta)
  obtain ⟨c1, c2⟩ := cross_unitN P phi theta h
  have c3 := cross_unitNdash P phi theta h
  simp only [normSq_rpow _ hy, forceIntegrand, biotSavart, forceSingle_cross, forceDouble_cross]
  exact flux_algebra k _ _ _ _ _ _ _ _ _ _ _ _ _ _ _ c1 c2 c3 hdec


theorem periodic_theta (P : CpParams) (c : List ℝ) (p t : ℝ) :
    (∀ a b, P.surf.gammadash P.wdofs a b p (t + 1) = P.surf.gammadash P.wdofs a b p t) ∧ P.K c p (t + 1) = P.K c p t := by
  have g := fun a b => C39_theta_periodic P.surf P.wdofs a b p t 1
  simp only [Int.cast_one] at g
  have hrow : P.opPhi p (t + 1) = P.opPhi p t ∧ P.opTheta p (t + 1) = P.opTheta p t := by
    have h : ∀ r : ℤ × ℤ × ℤ, P.angle p (t + 1) r = P.angle p t r + ((r.1 : ℤ) : ℝ) * (2 * Real.pi) := by
      intro r
      simp only [angle]
      ring
    rw [opPhi_eq, opPhi_eq, opTheta_eq, opTheta_eq]
    exact ⟨List.map_congr_left fun r _ => by simp only [rPhi, h, sinOrCos_periodic],
      List.map_congr_left fun r _ => by simp only [rTheta, h, sinOrCos_periodic]⟩
  refine ⟨g, ?_⟩
  rw [K_eq, K_eq, hrow.1, hrow.2, invN, N, dg1, dg2, g, g]
  rfl

theorem periodic_phi (P : CpParams) (hn : P.surf.nfp ≠ 0) (c : List ℝ) (p t : ℝ) :
    (∀ a b, P.surf.gammadash P.wdofs a b (p + 1) t = P.surf.gammadash P.wdofs a b p t) ∧ P.K c (p + 1) t = P.K c p t := by
  have hn' : (P.surf.nfp : ℝ) ≠ 0 := by exact_mod_cast hn
  have e : p + 1 = p + ((P.surf.nfp : ℤ) : ℝ) / P.surf.nfp := by
    push_cast
    field_simp
  refine ⟨fun a b => ?_, ?_⟩
  · rw [e, C39_field_period _ hn, rotZ_full _ hn]
  · rw [e, P.K_field_period hn, rotZ_full _ hn]

theorem crossConst {f : ℝ → V3} {f' : V3} {t : ℝ} (k : V3) (hf : HasDerivV3 f f' t) :
    HasDerivV3 (fun s => (1e-7 : ℝ) • V3.cross k (f s)) ((1e-7 : ℝ) • V3.cross k f') t := by
  refine ⟨?_, ?_, ?_⟩
  · exact (((hf.2.2.const_mul k.y).sub (hf.2.1.const_mul k.z)).const_mul _)
  · exact (((hf.1.const_mul k.z).sub (hf.2.2.const_mul k.x)).const_mul _)
  · exact (((hf.2.1.const_mul k.x).sub (hf.1.const_mul k.y)).const_mul _)

theorem integral2_add {f g : ℝ × ℝ → ℝ} (hf : Continuous f) (hg : Continuous g) :
    ∫ p in (0 : ℝ)..1, ∫ t in (0 : ℝ)..1, (f (p, t) + g (p, t)) =
      (∫ p in (0 : ℝ)..1, ∫ t in (0 : ℝ)..1, f (p, t)) + ∫ p in (0 : ℝ)..1, ∫ t in (0 : ℝ)..1, g (p, t) := by
  have hf' : Continuous (Function.uncurry fun p t => f (p, t)) := hf
  have hg' : Continuous (Function.uncurry fun p t => g (p, t)) := hg
  have i1 : ∀ p, IntervalIntegrable (fun t => f (p, t)) MeasureTheory.volume 0 1 := fun p =>
    (hf.comp (Continuous.prodMk_right p)).intervalIntegrable _ _
  have i2 : ∀ p, IntervalIntegrable (fun t => g (p, t)) MeasureTheory.volume 0 1 := fun p =>
    (hg.comp (Continuous.prodMk_right p)).intervalIntegrable _ _
  have j1 := (intervalIntegral.continuous_parametric_intervalIntegral_of_continuous' (μ := MeasureTheory.volume) hf' 0 1).intervalIntegrable
    (μ := MeasureTheory.volume) 0 1
  have j2 := (intervalIntegral.continuous_parametric_intervalIntegral_of_continuous' (μ := MeasureTheory.volume) hg' 0 1).intervalIntegrable
    (μ := MeasureTheory.volume) 0 1
  rw [← intervalIntegral.integral_add j1 j2]
  exact intervalIntegral.integral_congr fun p _ => intervalIntegral.integral_add (i1 p) (i2 p)

theorem integral2_comb {f g : ℝ × ℝ → ℝ} (a b : ℝ) (hf : Continuous f) (hg : Continuous g) :
    ∫ p in (0 : ℝ)..1, ∫ t in (0 : ℝ)..1, (a * f (p, t) - b * g (p, t)) =
      a * (∫ p in (0 : ℝ)..1, ∫ t in (0 : ℝ)..1, f (p, t)) - b * ∫ p in (0 : ℝ)..1, ∫ t in (0 : ℝ)..1, g (p, t) := by
  have := integral2_add (f := fun x => a * f x) (g := fun x => -b * g x) (by fun_prop) (by fun_prop)
  simp only [intervalIntegral.integral_const_mul, neg_mul, ← sub_eq_add_neg, intervalIntegral.integral_neg] at this
  exact this

/-- **C87.** For every evaluation point `y` off the winding surface and every current `k` there, the integral over the whole
torus of the regularised integrand is the Lorentz force `k x B(y)`, where `B` is the field of Biot and Savart. -/
theorem C87_lorentz_force (P : CpParams) (hn : P.surf.nfp ≠ 0) (c : List ℝ) (y k : V3) (h : ∀ p t, P.N p t ≠ 0)
    (hy : ∀ p t, P.surf.gamma P.wdofs p t ≠ y) :
    torusIntegral (fun p t => (P.N p t).norm • forceIntegrand P c y k p t) =
      V3.cross k (torusIntegral fun p t => (P.N p t).norm • biotSavart y (P.surf.gamma P.wdofs p t) (P.K c p t)) := by
  have hy' : ∀ p t, y - P.surf.gamma P.wdofs p t ≠ 0 := by
    intro p t h0
    apply hy p t
    have hx := congrArg V3.x h0
    have hyy := congrArg V3.y h0
    have hz := congrArg V3.z h0
    simp only [V3.sub_x, V3.sub_y, V3.sub_z, V3.zero_x, V3.zero_y, V3.zero_z] at hx hyy hz
    ext <;> linarith
  -- smoothness
  have sd : C1 (fun p t => y - P.surf.gamma P.wdofs p t) := (C1.const y).sub (P.gammadash_C1 0 0)
  have sK := P.K_C1 c h
  have su : C1 P.unitN := C1.smul (s := fun p t => 1 / (P.N p t).norm) (P.N_C1.invNorm h) P.N_C1
  have sV := C1.smul (s := fun p t => 1 / (y - P.surf.gamma P.wdofs p t).norm) (sd.invNorm hy') sK
  have s1 : C1 (fluxPhi P c y) := ((P.gammadash_C1 0 1).cross su).cross sV
  have s2 : C1 (fluxTheta P c y) := (su.cross (P.gammadash_C1 1 0)).cross sV
  have t1 : C1 (fun p t => (1e-7 : ℝ) • V3.cross k (fluxPhi P c y p t)) :=
    C1.smul (s := fun _ _ => (1e-7 : ℝ)) contDiff_const ((C1.const k).cross s1)
  have t2 : C1 (fun p t => (1e-7 : ℝ) • V3.cross k (fluxTheta P c y p t)) :=
    C1.smul (s := fun _ _ => (1e-7 : ℝ)) contDiff_const ((C1.const k).cross s2)
  have sB : C1 (fun p t => (P.N p t).norm • biotSavart y (P.surf.gamma P.wdofs p t) (P.K c p t)) := by
    refine C1.smul (s := fun p t => (P.N p t).norm) (P.N_C1.norm h) ?_
    refine C1.smul (s := fun p t => 1e-7 / (y - P.surf.gamma P.wdofs p t).norm ^ 3) ?_ (sK.cross sd)
    exact contDiff_const.div ((sd.norm hy').pow 3) fun x => pow_ne_zero _ ((V3.norm_pos_iff _).2 (hy' x.1 x.2)).ne'
  -- periodicity
  have q1 : ∀ t, fluxPhi P c y 1 t = fluxPhi P c y 0 t := by
    intro t
    obtain ⟨g, hK⟩ := periodic_phi P hn c 0 t
    rw [zero_add] at g hK
    simp only [fluxPhi, unitN, N, dg1, dg2, SurfaceShape.gamma, g, hK]
  have q2 : ∀ p, fluxTheta P c y p 1 = fluxTheta P c y p 0 := by
    intro p
    obtain ⟨g, hK⟩ := periodic_theta P c p 0
    rw [zero_add] at g hK
    simp only [fluxTheta, unitN, N, dg1, dg2, SurfaceShape.gamma, g, hK]
  -- the difference of the integrands
  choose u v hu hv huv using fun p t => C87_pointwise P c y k p t (h p t) (hy' p t)
  have D : ∀ p t, HasDerivV3 (fun s => (1e-7 : ℝ) • V3.cross k (fluxPhi P c y s t)) ((1e-7 : ℝ) • V3.cross k (u p t)) p ∧
      HasDerivV3 (fun s => (1e-7 : ℝ) • V3.cross k (fluxTheta P c y p s)) ((1e-7 : ℝ) • V3.cross k (v p t)) t := fun p t =>
    ⟨crossConst k (hu p t), crossConst k (hv p t)⟩
  have ex := integral_divergence_periodic (fun x => ((1e-7 : ℝ) • V3.cross k (fluxPhi P c y x.1 x.2)).x)
    (fun x => ((1e-7 : ℝ) • V3.cross k (fluxTheta P c y x.1 x.2)).x) t1.1 t2.1 (fun t => by rw [q1]) (fun p => by rw [q2])
    (fun x => ((1e-7 : ℝ) • V3.cross k (u x.1 x.2)).x + ((1e-7 : ℝ) • V3.cross k (v x.1 x.2)).x)
    (fun p t => ⟨_, _, (D p t).1.1, (D p t).2.1, rfl⟩)
  have ey := integral_divergence_periodic (fun x => ((1e-7 : ℝ) • V3.cross k (fluxPhi P c y x.1 x.2)).y)
    (fun x => ((1e-7 : ℝ) • V3.cross k (fluxTheta P c y x.1 x.2)).y) t1.2.1 t2.2.1 (fun t => by rw [q1]) (fun p => by rw [q2])
    (fun x => ((1e-7 : ℝ) • V3.cross k (u x.1 x.2)).y + ((1e-7 : ℝ) • V3.cross k (v x.1 x.2)).y)
    (fun p t => ⟨_, _, (D p t).1.2.1, (D p t).2.2.1, rfl⟩)
  have ez := integral_divergence_periodic (fun x => ((1e-7 : ℝ) • V3.cross k (fluxPhi P c y x.1 x.2)).z)
    (fun x => ((1e-7 : ℝ) • V3.cross k (fluxTheta P c y x.1 x.2)).z) t1.2.2 t2.2.2 (fun t => by rw [q1]) (fun p => by rw [q2])
    (fun x => ((1e-7 : ℝ) • V3.cross k (u x.1 x.2)).z + ((1e-7 : ℝ) • V3.cross k (v x.1 x.2)).z)
    (fun p t => ⟨_, _, (D p t).1.2.2, (D p t).2.2.2, rfl⟩)
  have hsplit : ∀ p t, (P.N p t).norm • forceIntegrand P c y k p t =
      V3.cross k ((P.N p t).norm • biotSavart y (P.surf.gamma P.wdofs p t) (P.K c p t)) +
        ((1e-7 : ℝ) • V3.cross k (u p t) + (1e-7 : ℝ) • V3.cross k (v p t)) := by
    intro p t
    rw [huv]
    ext <;> simp only [V3.cross, V3.add_x, V3.add_y, V3.add_z, V3.smul_x, V3.smul_y, V3.smul_z] <;> ring
  have bx := sB.1.continuous
  have by' := sB.2.1.continuous
  have bz := sB.2.2.continuous
  simp only [torusIntegral, hsplit]
  generalize hb : (fun p t => (P.N p t).norm • biotSavart y (P.surf.gamma P.wdofs p t) (P.K c p t)) = b at bx by' bz ⊢
  have hb' : ∀ p t, (P.N p t).norm • biotSavart y (P.surf.gamma P.wdofs p t) (P.K c p t) = b p t := fun p t => by rw [← hb]
  simp only [hb']
  ext
  · simp only [V3.add_x]
    have e1 := integral2_add (f := fun x => (V3.cross k (b x.1 x.2)).x) (by simp only [V3.cross]; fun_prop) ex.1
    have e2 := integral2_comb k.y k.z bz by'
    simp only [ex.2, add_zero] at e1
    rw [e1]
    exact e2
  · simp only [V3.add_y]
    have e1 := integral2_add (f := fun x => (V3.cross k (b x.1 x.2)).y) (by simp only [V3.cross]; fun_prop) ey.1
    have e2 := integral2_comb k.z k.x bx bz
    simp only [ey.2, add_zero] at e1
    rw [e1]
    exact e2
  · simp only [V3.add_z]
    have e1 := integral2_add (f := fun x => (V3.cross k (b x.1 x.2)).z) (by simp only [V3.cross]; fun_prop) ez.1
    have e2 := integral2_comb k.x k.y by' bx
    simp only [ez.2, add_zero] at e1
    rw [e1]
    exact e2

/-- The summand of `_integrate_force` (see C59) for a source point of the first field period, with Cartesian arrays, is the
integrand of C87 times the area element. -/
theorem C87_summand (P : CpParams) (c : List ℝ) (qphi qtheta ephi etheta : ℕ → ℝ) (nPhi nTheta : ℕ) (da : ℕ → ℕ → ℝ)
    (i j p t : ℕ) :
    (forceArrays P c qphi qtheta ephi etheta nPhi nTheta da).summand i j (0, p, t) =
      da p t • forceIntegrand P c (P.surf.gamma P.wdofs (ephi i) (etheta j)) (P.K c (ephi i) (etheta j)) (qphi p) (qtheta t) := by
  simp only [ForceArrays.summand, forceArrays, forceIntegrand, zero_mul, zero_add]
  ext <;> simp only [V3.add_x, V3.add_y, V3.add_z, V3.smul_x, V3.smul_y, V3.smul_z] <;> ring

theorem circularTorus_tangents (p t : ℝ) :
    circularTorus.dg1 p t = ⟨-(2 * Real.pi) * (2 + Real.cos (2 * Real.pi * t)) * Real.sin (2 * Real.pi * p),
      2 * Real.pi * (2 + Real.cos (2 * Real.pi * t)) * Real.cos (2 * Real.pi * p), 0⟩ ∧
    circularTorus.dg2 p t = ⟨-(2 * Real.pi) * Real.sin (2 * Real.pi * t) * Real.cos (2 * Real.pi * p),
      -(2 * Real.pi) * Real.sin (2 * Real.pi * t) * Real.sin (2 * Real.pi * p), 2 * Real.pi * Real.cos (2 * Real.pi * t)⟩ := by
  have e1 : p * Real.pi * 2 = 2 * Real.pi * p := by ring
  constructor
  · rw [dg1, SurfaceShape.gammadash_eq]
    simp only [circularTorus, SurfaceShape.leibniz, Finset.Nat.antidiagonal_succ, Finset.Nat.antidiagonal_zero]
    simp [SurfaceShape.rDash, SurfaceShape.zDash, SurfaceShape.rOperatorPadded, SurfaceShape.zOperatorPadded,
      SurfaceShape.rOperator, SurfaceShape.zOperator, SurfaceShape.cmn, SurfaceShape.smn, surfMc, surfNc, surfMs, surfNs,
      repeatEach, tile, arange, SurfaceShape.applyRow, cEntry, sEntry, derivFactor, modeAngle, cosD, sinD, e1]
    constructor <;> ring_nf
  · rw [dg2, SurfaceShape.gammadash_eq]
    simp only [circularTorus, SurfaceShape.leibniz, Finset.Nat.antidiagonal_zero]
    simp [SurfaceShape.rDash, SurfaceShape.zDash, SurfaceShape.rOperatorPadded, SurfaceShape.zOperatorPadded,
      SurfaceShape.rOperator, SurfaceShape.zOperator, SurfaceShape.cmn, SurfaceShape.smn, surfMc, surfNc, surfMs, surfNs,
      repeatEach, tile, arange, SurfaceShape.applyRow, cEntry, sEntry, derivFactor, modeAngle, cosD, sinD, e1]
    refine ⟨?_, ?_, ?_⟩ <;> ring_nf <;> simp

/-- The normal of the circular torus vanishes nowhere, and the origin is not on it. -/
theorem circularTorus_regular (p t : ℝ) : circularTorus.N p t ≠ 0 ∧ circularTorus.surf.gamma circularTorus.wdofs p t ≠ 0 := by
  have hR : 0 < 2 + Real.cos (2 * Real.pi * t) := by linarith [Real.neg_one_le_cos (2 * Real.pi * t)]
  have hp := Real.sin_sq_add_cos_sq (2 * Real.pi * p)
  have ht := Real.sin_sq_add_cos_sq (2 * Real.pi * t)
  obtain ⟨e1, e2⟩ := circularTorus_tangents p t
  constructor
  · have : (circularTorus.N p t).normSq = ((2 * Real.pi) ^ 2 * (2 + Real.cos (2 * Real.pi * t))) ^ 2 := by
      rw [N, e1, e2]
      simp only [V3.normSq, V3.cross]
      generalize Real.sin (2 * Real.pi * p) = sp at *
      generalize Real.cos (2 * Real.pi * p) = cp at *
      generalize Real.sin (2 * Real.pi * t) = st at *
      generalize Real.cos (2 * Real.pi * t) = ct at *
      linear_combination ((2 * Real.pi) ^ 4 * (2 + ct) ^ 2 * (ct ^ 2 + st ^ 2 * (sp ^ 2 + cp ^ 2 + 1))) * hp +
        ((2 * Real.pi) ^ 4 * (2 + ct) ^ 2) * ht
    intro h0
    rw [h0] at this
    have h2 : 0 < ((2 * Real.pi) ^ 2 * (2 + Real.cos (2 * Real.pi * t))) ^ 2 := by positivity
    rw [← this] at h2
    simp [V3.normSq] at h2
  · intro h0
    have hr : circularTorus.surf.rDash circularTorus.wdofs 0 0 p t = 2 + Real.cos (2 * Real.pi * t) := by
      simp [circularTorus, SurfaceShape.rDash, SurfaceShape.rOperatorPadded, SurfaceShape.zOperator,
        SurfaceShape.rOperator, SurfaceShape.cmn, SurfaceShape.smn, surfMc, surfNc, surfMs, surfNs,
        repeatEach, tile, arange, SurfaceShape.applyRow, cEntry, derivFactor, modeAngle]
      ring_nf
    rw [gamma_rz, hr] at h0
    have hx := congrArg V3.x h0
    have hy := congrArg V3.y h0
    simp only [V3.zero_x, V3.zero_y, mul_eq_zero, hR.ne', false_or] at hx hy
    rw [hx, hy] at hp
    norm_num at hp

/-- The hypotheses of C87 hold for the circular torus and the origin. -/
example (k : V3) :
    torusIntegral (fun p t => (circularTorus.N p t).norm • forceIntegrand circularTorus [0] 0 k p t) =
      V3.cross k (torusIntegral fun p t => (circularTorus.N p t).norm •
        biotSavart 0 (circularTorus.surf.gamma circularTorus.wdofs p t) (circularTorus.K [0] p t)) :=
  C87_lorentz_force circularTorus (by decide) [0] 0 k (fun p t => (circularTorus_regular p t).1)
    fun p t => (circularTorus_regular p t).2

end Verif
