import Verif.Lemmas.Smooth
import Verif.Spec.SurfaceGradient

/-!
# Properties C40, C41, C42, C43, C44, C66: current potential and surface current
-/

namespace Verif

open Real

open CpParams

/-! ## A concrete circular torus for the examples -/

/-- Circular torus with major radius 2, minor radius 1, one field period; current potential with one poloidal mode. -/
def circularTorus : CpParams where
  surf := { nfp := 1, stellsym := true, mpol := 1, ntor := 0 }
  wdofs := [2, 1, 1]
  G := 5
  I := 7
  mpol := 1
  ntor := 0
  stellsym := true

theorem circularTorus_dg1 : circularTorus.dg1 0 0 = ⟨0, 6 * π, 0⟩ := by
  rw [dg1, SurfaceShape.gammadash_eq]
  simp only [circularTorus, SurfaceShape.leibniz, Finset.Nat.antidiagonal_succ, Finset.Nat.antidiagonal_zero]
  simp [SurfaceShape.rDash, SurfaceShape.zDash, SurfaceShape.rOperatorPadded, SurfaceShape.zOperatorPadded,
    SurfaceShape.rOperator, SurfaceShape.zOperator, SurfaceShape.cmn, SurfaceShape.smn, surfMc, surfNc, surfMs, surfNs,
    repeatEach, tile, arange, SurfaceShape.applyRow, cEntry, sEntry, derivFactor, modeAngle, cosD, sinD]
  ring

theorem circularTorus_dg2 : circularTorus.dg2 0 0 = ⟨0, 0, 2 * π⟩ := by
  rw [dg2, SurfaceShape.gammadash_eq]
  simp only [circularTorus, SurfaceShape.leibniz, Finset.Nat.antidiagonal_zero]
  simp [SurfaceShape.rDash, SurfaceShape.zDash, SurfaceShape.rOperatorPadded, SurfaceShape.zOperatorPadded,
    SurfaceShape.rOperator, SurfaceShape.zOperator, SurfaceShape.cmn, SurfaceShape.smn, surfMc, surfNc, surfMs, surfNs,
    repeatEach, tile, arange, SurfaceShape.applyRow, cEntry, sEntry, derivFactor, modeAngle, cosD, sinD]
  ring

theorem circularTorus_N : circularTorus.N 0 0 = ⟨12 * π ^ 2, 0, 0⟩ := by
  rw [N, circularTorus_dg1, circularTorus_dg2]
  simp only [V3.cross]
  ext <;> simp
  ring

/-- The hypothesis of the theorems below holds at a point of the circular torus. -/
theorem circularTorus_N_ne : circularTorus.N 0 0 ≠ 0 := by
  rw [circularTorus_N]
  intro h
  have := congrArg V3.x h
  simp [Real.pi_ne_zero] at this

/-! ## C40 -/

theorem app_rows_series (nfp : ℕ) (T : List (ℤ × ℤ)) (ch : ℤ) (hc : ch = 1 ∨ ch = -1) (c : List ℝ) (phi theta : ℝ)
    (P : CpParams) (hP : P.nfp = nfp) :
    app (T.map fun t => sinOrCos (P.angle phi theta (t.1, t.2, ch)) ch) c =
      if ch = 1 then sinSeries nfp T c phi theta else cosSeries nfp T c phi theta := by
  have hang : ∀ t : ℤ × ℤ, P.angle phi theta (t.1, t.2, ch) = 2 * π * (t.1 * theta - nfp * t.2 * phi) := by
    intro t
    simp only [angle, hP]
    ring
  rcases hc with rfl | rfl
  · simp only [if_true, sinSeries, sinOrCos, hang, app]
    induction T generalizing c with
    | nil => simp
    | cons t T ih =>
      cases c with
      | nil => simp
      | cons d c =>
        simp only [List.map_cons, List.zipWith_cons_cons, List.sum_cons, List.zip_cons_cons, ih c]
        ring
  · have h1 : ¬ ((-1 : ℤ) = 1) := by norm_num
    simp only [if_neg h1, cosSeries, sinOrCos, hang, app]
    induction T generalizing c with
    | nil => simp
    | cons t T ih =>
      cases c with
      | nil => simp
      | cons d c =>
        simp only [List.map_cons, List.zipWith_cons_cons, List.sum_cons, List.zip_cons_cons, ih c]
        ring

theorem zip_replicate_right (T : List (ℤ × ℤ)) (ch : ℤ) :
    (T.map Prod.fst).zip ((T.map Prod.snd).zip (List.replicate T.length ch)) = T.map fun t => (t.1, t.2, ch) := by
  induction T with
  | nil => simp
  | cons t T ih => simp [List.replicate_succ, ih]

theorem rows_stellsym (P : CpParams) (h : P.stellsym = true) :
    P.rows = (modePairs (makeMn P.mpol P.ntor true)).map fun t => (t.1, t.2, 1) := by
  have hl := makeMn_lengths P.mpol P.ntor true
  rw [← zip_replicate_right, rows, h]
  simp only [trigChoice, if_true, modePairs]
  rw [List.map_fst_zip (by rw [hl.1, hl.2]), List.map_snd_zip (by rw [hl.1, hl.2]), List.length_zip, hl.1, hl.2, min_self]

theorem rows_general (P : CpParams) (h : P.stellsym = false) :
    P.rows = ((modePairs (makeMn P.mpol P.ntor true)).map fun t => (t.1, t.2, 1)) ++
      (0, 0, -1) :: (modePairs (makeMn P.mpol P.ntor true)).map fun t => (t.1, t.2, -1) := by
  have hl := makeMn_lengths P.mpol P.ntor false
  obtain ⟨hT, hk⟩ := C36_nonsymmetric_layout P.mpol P.ntor
  have hfst : (makeMn P.mpol P.ntor false).1 = (modePairs (makeMn P.mpol P.ntor false)).map Prod.fst := by
    rw [modePairs, List.map_fst_zip (by rw [hl.1, hl.2])]
  have hsnd : (makeMn P.mpol P.ntor false).2 = (modePairs (makeMn P.mpol P.ntor false)).map Prod.snd := by
    rw [modePairs, List.map_snd_zip (by rw [hl.1, hl.2])]
  rw [rows, h]
  simp only [trigChoice, Bool.false_eq_true, if_false, hl.1]
  rw [hfst, hsnd, hT]
  generalize hTT : modePairs (makeMn P.mpol P.ntor true) = T at hk ⊢
  have e1 : (cpNdofs false P.mpol P.ntor).1 / 2 = T.length := by
    rw [hk]
    simp only [cpNdofs, Bool.false_eq_true, if_false]
    omega
  rw [e1, List.append_assoc, List.map_append, List.map_append, List.zip_append (by simp), List.zip_append (by simp),
    zip_replicate_right]
  congr 1
  rw [show List.replicate T.length (-1 : ℤ) ++ [-1] = -1 :: List.replicate T.length (-1) by
    rw [← List.replicate_succ, List.replicate_succ', ]]
  simp only [List.map_cons, List.zip_cons_cons, zip_replicate_right]

/-- **C40 (the potential).** With stellarator symmetry the potential is the sine series of the coefficients. -/
theorem C40_potential_stellsym (P : CpParams) (h : P.stellsym = true) (c : List ℝ) (phi theta : ℝ) :
    P.Phi c phi theta = sinSeries P.surf.nfp (modePairs (makeMn P.mpol P.ntor true)) c phi theta := by
  rw [Phi, trig, rows_stellsym P h, List.map_map]
  exact (app_rows_series P.surf.nfp _ 1 (Or.inl rfl) c phi theta P rfl).trans (if_pos rfl)

/-- **C40 (the potential).** Without stellarator symmetry the coefficients are the sine coefficients, the constant and the
cosine coefficients, and the potential is the sum of the three. -/
theorem C40_potential_general (P : CpParams) (h : P.stellsym = false) (s : List ℝ) (d : ℝ) (c : List ℝ)
    (hs : s.length = (modePairs (makeMn P.mpol P.ntor true)).length) (phi theta : ℝ) :
    P.Phi (s ++ d :: c) phi theta = sinSeries P.surf.nfp (modePairs (makeMn P.mpol P.ntor true)) s phi theta + d +
      cosSeries P.surf.nfp (modePairs (makeMn P.mpol P.ntor true)) c phi theta := by
  have h1 := (app_rows_series P.surf.nfp (modePairs (makeMn P.mpol P.ntor true)) 1 (Or.inl rfl) s phi theta P rfl).trans
    (if_pos rfl)
  have h2 := (app_rows_series P.surf.nfp (modePairs (makeMn P.mpol P.ntor true)) (-1) (Or.inr rfl) c phi theta P rfl).trans
    (if_neg (by norm_num))
  rw [Phi, trig, rows_general P h, List.map_append, List.map_map, List.map_cons, List.map_map, app,
    List.zipWith_append (by simp [hs]), List.sum_append, List.zipWith_cons_cons, List.sum_cons, ← h1, ← h2, app, app]
  have : sinOrCos (P.angle phi theta (0, 0, -1)) (-1) = 1 := by simp [sinOrCos, angle]
  simp only [this, one_mul, Function.comp_def]
  ring

/-- **C40.** The operators for the first and second derivatives give the partial derivatives of the potential, for every
coefficient vector and both symmetry settings. -/
theorem C40_operators_exact (P : CpParams) (c : List ℝ) (phi theta : ℝ) :
    HasDerivAt (fun p => P.Phi c p theta) (app (P.opPhi phi theta) c) phi ∧
    HasDerivAt (fun t => P.Phi c phi t) (app (P.opTheta phi theta) c) theta ∧
    HasDerivAt (fun p => deriv (fun q => P.Phi c q theta) p) (app (P.opPhiPhi phi theta) c) phi ∧
    HasDerivAt (fun t => deriv (fun q => P.Phi c q t) phi) (app (P.opPhiTheta phi theta) c) theta ∧
    HasDerivAt (fun p => deriv (fun q => P.Phi c p q) theta) (app (P.opPhiTheta phi theta) c) phi ∧
    HasDerivAt (fun t => deriv (fun q => P.Phi c phi q) t) (app (P.opThetaTheta phi theta) c) theta := by
  have e1 : ∀ p t, deriv (fun q => P.Phi c q t) p = app (P.opPhi p t) c := fun p t => (P.Phi_phi c p t).deriv
  have e2 : ∀ p t, deriv (fun q => P.Phi c p q) t = app (P.opTheta p t) c := fun p t => (P.Phi_theta c p t).deriv
  simp only [e1, e2]
  exact ⟨P.Phi_phi c phi theta, P.Phi_theta c phi theta, P.opPhi_phi c phi theta, P.opPhi_theta c phi theta,
    P.opTheta_phi c phi theta, P.opTheta_theta c phi theta⟩

/-- The one mode of the circular torus: `Phi = c sin (2 pi theta)`. -/
example (c phi theta : ℝ) : circularTorus.Phi [c] phi theta = c * sin (2 * π * theta) := by
  rw [C40_potential_stellsym circularTorus rfl]
  have : modePairs (makeMn circularTorus.mpol circularTorus.ntor true) = [(1, 0)] := rfl
  simp [this, sinSeries]

/-! ## C42 -/

/-- **C42.** The two gradient vectors are reciprocal to the tangent vectors and tangent to the surface. -/
theorem C42_reciprocal_basis (P : CpParams) (phi theta : ℝ) (h : P.N phi theta ≠ 0) :
    IsReciprocal (P.dg1 phi theta) (P.dg2 phi theta) (P.grad1 phi theta) (P.grad2 phi theta) := by
  have hp := (V3.normSq_pos _ h).ne'
  have hs : ∀ (s : ℝ) (a w : V3), V3.dot (s • a) w = s * V3.dot a w := by
    intro s a w
    simp only [V3.dot, V3.smul_x, V3.smul_y, V3.smul_z]
    ring
  constructor
  · rw [grad1, hs, show V3.dot (V3.cross (P.dg2 phi theta) (P.N phi theta)) (P.dg1 phi theta) = (P.N phi theta).normSq by
      simp only [N, V3.dot, V3.cross, V3.normSq]; ring]
    exact one_div_mul_cancel hp
  · rw [grad1, hs, show V3.dot (V3.cross (P.dg2 phi theta) (P.N phi theta)) (P.dg2 phi theta) = 0 by
      simp only [V3.dot, V3.cross]; ring, mul_zero]
  · rw [grad2, hs, show V3.dot (V3.cross (P.dg1 phi theta) (-P.N phi theta)) (P.dg1 phi theta) = 0 by
      simp only [V3.dot, V3.cross]; ring, mul_zero]
  · rw [grad2, hs, show V3.dot (V3.cross (P.dg1 phi theta) (-P.N phi theta)) (P.dg2 phi theta) = (P.N phi theta).normSq by
      simp only [N, V3.dot, V3.cross, V3.normSq, V3.neg_x, V3.neg_y, V3.neg_z]; ring]
    exact one_div_mul_cancel hp
  · rw [grad1, hs, ← N, show V3.dot (V3.cross (P.dg2 phi theta) (P.N phi theta)) (P.N phi theta) = 0 by
      simp only [V3.dot, V3.cross]; ring, mul_zero]
  · rw [grad2, hs, ← N, show V3.dot (V3.cross (P.dg1 phi theta) (-P.N phi theta)) (P.N phi theta) = 0 by
      simp only [V3.dot, V3.cross, V3.neg_x, V3.neg_y, V3.neg_z]; ring, mul_zero]

/-- **C42.** The unit normal has length one, is orthogonal to the surface and points in the direction of the normal. -/
theorem C42_unit_normal (P : CpParams) (phi theta : ℝ) (h : P.N phi theta ≠ 0) :
    V3.dot (P.unitN phi theta) (P.unitN phi theta) = 1 ∧ V3.dot (P.unitN phi theta) (P.dg1 phi theta) = 0 ∧
    V3.dot (P.unitN phi theta) (P.dg2 phi theta) = 0 ∧
    V3.dot (P.unitN phi theta) (V3.cross (P.dg1 phi theta) (P.dg2 phi theta)) =
      (V3.cross (P.dg1 phi theta) (P.dg2 phi theta)).norm := by
  have hn := ((V3.norm_pos_iff _).2 h).ne'
  have hs := V3.norm_sq (P.N phi theta)
  refine ⟨?_, ?_, ?_, ?_⟩
  · have : V3.dot (P.unitN phi theta) (P.unitN phi theta) = (P.N phi theta).normSq / (P.N phi theta).norm ^ 2 := by
      simp only [unitN, V3.dot, V3.normSq, V3.smul_x, V3.smul_y, V3.smul_z]
      field_simp
    rw [this, hs, div_self (V3.normSq_pos _ h).ne']
  · simp only [unitN, V3.dot, N, V3.cross, V3.smul_x, V3.smul_y, V3.smul_z]
    ring
  · simp only [unitN, V3.dot, N, V3.cross, V3.smul_x, V3.smul_y, V3.smul_z]
    ring
  · have : V3.dot (P.unitN phi theta) (V3.cross (P.dg1 phi theta) (P.dg2 phi theta)) =
        (P.N phi theta).normSq / (P.N phi theta).norm := by
      rw [← N]
      simp only [unitN, V3.dot, V3.normSq, V3.smul_x, V3.smul_y, V3.smul_z]
      field_simp
    rw [this, ← hs, ← N]
    field_simp

example : IsReciprocal (circularTorus.dg1 0 0) (circularTorus.dg2 0 0) (circularTorus.grad1 0 0) (circularTorus.grad2 0 0) :=
  C42_reciprocal_basis _ _ _ circularTorus_N_ne

/-! ## C41 -/

theorem PhiNet_phi (P : CpParams) (c : List ℝ) (phi theta : ℝ) :
    HasDerivAt (fun p => P.PhiNet c p theta) (app (P.opPhi phi theta) c + P.G) phi := by
  refine (((P.Phi_phi c phi theta).add ((hasDerivAt_id phi).mul_const P.G)).add_const (theta * P.I)).congr_deriv ?_
  ring

theorem PhiNet_theta (P : CpParams) (c : List ℝ) (phi theta : ℝ) :
    HasDerivAt (fun t => P.PhiNet c phi t) (app (P.opTheta phi theta) c + P.I) theta := by
  refine (((P.Phi_theta c phi theta).add_const (phi * P.G)).add ((hasDerivAt_id theta).mul_const P.I)).congr_deriv ?_
  ring

/-- **C41.** `K` is the unit normal times (cross product) the surface gradient of the full potential, whichever vector
satisfies the definition of surface gradient. -/
theorem C41_current_is_normal_cross_gradient (P : CpParams) (c : List ℝ) (phi theta : ℝ) (g : V3)
    (hg : IsSurfaceGradient (P.dg1 phi theta) (P.dg2 phi theta) (P.PhiNet c) phi theta g) :
    P.K c phi theta = V3.cross (P.unitN phi theta) g := by
  have h1 := hg.along1.unique (PhiNet_phi P c phi theta)
  have h2 := hg.along2.unique (PhiNet_theta P c phi theta)
  rw [K_eq, ← h1, ← h2]
  simp only [unitN, N, invN]
  generalize P.dg1 phi theta = u
  generalize P.dg2 phi theta = v
  ext <;> simp only [V3.dot, V3.cross, V3.smul_x, V3.smul_y, V3.smul_z, V3.sub_x, V3.sub_y, V3.sub_z] <;> ring

/-- The surface gradient exists, so that the previous theorem determines `K`. -/
theorem C41_gradient_exists (P : CpParams) (c : List ℝ) (phi theta : ℝ) (h : P.N phi theta ≠ 0) :
    IsSurfaceGradient (P.dg1 phi theta) (P.dg2 phi theta) (P.PhiNet c) phi theta
      ((app (P.opPhi phi theta) c + P.G) • P.grad1 phi theta + (app (P.opTheta phi theta) c + P.I) • P.grad2 phi theta) := by
  have hr := C42_reciprocal_basis P phi theta h
  have hd : ∀ (a b : ℝ) (u v w : V3), V3.dot (a • u + b • v) w = a * V3.dot u w + b * V3.dot v w := by
    intro a b u v w
    simp only [V3.dot, V3.add_x, V3.add_y, V3.add_z, V3.smul_x, V3.smul_y, V3.smul_z]
    ring
  constructor
  · rw [hd, hr.tangent1, hr.tangent2]
    ring
  · rw [hd, hr.r11, hr.r21]
    simpa using PhiNet_phi P c phi theta
  · rw [hd, hr.r12, hr.r22]
    simpa using PhiNet_theta P c phi theta

/-- **C41.** `K` is tangential. -/
theorem C41_tangential (P : CpParams) (c : List ℝ) (phi theta : ℝ) :
    V3.dot (P.K c phi theta) (V3.cross (P.dg1 phi theta) (P.dg2 phi theta)) = 0 := by
  rw [K_eq]
  simp only [V3.dot, V3.cross, V3.smul_x, V3.smul_y, V3.smul_z, V3.sub_x, V3.sub_y, V3.sub_z]
  ring

theorem app_comb (row c d : List ℝ) (a b : ℝ) (h : c.length = d.length) :
    app row (List.zipWith (fun x y => a * x + b * y) c d) = a * app row c + b * app row d := by
  induction row generalizing c d with
  | nil => simp [app]
  | cons r row ih =>
    cases c with
    | nil => cases d with
      | nil => simp [app]
      | cons => simp at h
    | cons x c => cases d with
      | nil => simp at h
      | cons y d =>
        have := ih c d (by simpa using h)
        simp only [app, List.zipWith_cons_cons, List.sum_cons] at this ⊢
        rw [this]
        ring

/-- **C41.** `K` is affine in the coefficients: it maps affine combinations to affine combinations. -/
theorem C41_affine (P : CpParams) (c d : List ℝ) (h : c.length = d.length) (a : ℝ) (phi theta : ℝ) :
    P.K (List.zipWith (fun x y => a * x + (1 - a) * y) c d) phi theta =
      a • P.K c phi theta + (1 - a) • P.K d phi theta := by
  rw [K_eq, K_eq, K_eq, app_comb _ _ _ _ _ h, app_comb _ _ _ _ _ h]
  ext <;> simp only [V3.add_x, V3.add_y, V3.add_z, V3.smul_x, V3.smul_y, V3.smul_z, V3.sub_x, V3.sub_y, V3.sub_z] <;> ring

theorem K_phi (P : CpParams) (c : List ℝ) (phi theta : ℝ) (h : P.N phi theta ≠ 0) :
    HasDerivV3 (fun p => P.K c p theta) (P.Kdash1 c phi theta) phi := by
  simp only [K_eq, Kdash1_eq]
  have hA := (P.opPhi_phi c phi theta).add_const P.G
  have hB := (P.opTheta_phi c phi theta).add_const P.I
  refine (HasDerivV3.smul (P.invN_phi phi theta h)
    ((HasDerivV3.smul hA (P.dg2_phi phi theta)).sub (HasDerivV3.smul hB (P.dg1_phi phi theta)))).congr_deriv ?_
  ext <;> simp only [V3.add_x, V3.add_y, V3.add_z, V3.smul_x, V3.smul_y, V3.smul_z, V3.sub_x, V3.sub_y, V3.sub_z,
    dg2InvNdash1, dg1InvNdash1] <;> ring

theorem K_theta (P : CpParams) (c : List ℝ) (phi theta : ℝ) (h : P.N phi theta ≠ 0) :
    HasDerivV3 (fun t => P.K c phi t) (P.Kdash2 c phi theta) theta := by
  simp only [K_eq, Kdash2_eq]
  have hA := (P.opPhi_theta c phi theta).add_const P.G
  have hB := (P.opTheta_theta c phi theta).add_const P.I
  refine (HasDerivV3.smul (P.invN_theta phi theta h)
    ((HasDerivV3.smul hA (P.dg2_theta phi theta)).sub (HasDerivV3.smul hB (P.dg1_theta phi theta)))).congr_deriv ?_
  ext <;> simp only [V3.add_x, V3.add_y, V3.add_z, V3.smul_x, V3.smul_y, V3.smul_z, V3.sub_x, V3.sub_y, V3.sub_z,
    dg2InvNdash2, dg1InvNdash2] <;> ring

theorem normSq_rpow (a : V3) (h : a ≠ 0) : a.normSq ^ (1.5 : ℝ) = a.norm ^ 3 := by
  have hp := V3.normSq_pos _ h
  rw [show (1.5 : ℝ) = 1 + 1 / 2 by norm_num, Real.rpow_add hp, Real.rpow_one, ← Real.sqrt_eq_rpow, ← V3.norm,
    ← V3.norm_sq]
  ring

/-- **C41.** The surface divergence of `K` vanishes: with the reciprocal vectors `r1`, `r2` of the tangent vectors (which
determine it), `r1 . dK/dphi + r2 . dK/dtheta = 0`. -/
theorem C41_divergence_free (P : CpParams) (c : List ℝ) (phi theta : ℝ) (h : P.N phi theta ≠ 0) (r1 r2 K1 K2 : V3)
    (hr : IsReciprocal (P.dg1 phi theta) (P.dg2 phi theta) r1 r2)
    (h1 : HasDerivV3 (fun p => P.K c p theta) K1 phi) (h2 : HasDerivV3 (fun t => P.K c phi t) K2 theta) :
    V3.dot r1 K1 + V3.dot r2 K2 = 0 := by
  have hu : ∀ {f : ℝ → V3} {a b : V3} {t : ℝ}, HasDerivV3 f a t → HasDerivV3 f b t → a = b := by
    intro f a b t ha hb
    ext
    · exact ha.1.unique hb.1
    · exact ha.2.1.unique hb.2.1
    · exact ha.2.2.unique hb.2.2
  rw [hu h1 (K_phi P c phi theta h), hu h2 (K_theta P c phi theta h), Kdash1_eq, Kdash2_eq]
  have hn := ((V3.norm_pos_iff _).2 h).ne'
  have hd1 : ∀ (a b s t : ℝ) (u v w x r : V3), V3.dot r (a • u + b • v - s • w - t • x) =
      a * V3.dot r u + b * V3.dot r v - s * V3.dot r w - t * V3.dot r x := by
    intro a b s t u v w x r
    simp only [V3.dot, V3.add_x, V3.add_y, V3.add_z, V3.smul_x, V3.smul_y, V3.smul_z, V3.sub_x, V3.sub_y, V3.sub_z]
    ring
  have hd2 : ∀ (a b : ℝ) (u v r : V3), V3.dot r (a • u + b • v) = a * V3.dot r u + b * V3.dot r v := by
    intro a b u v r
    simp only [V3.dot, V3.add_x, V3.add_y, V3.add_z, V3.smul_x, V3.smul_y, V3.smul_z]
    ring
  rw [hd1, hd1]
  simp only [dg2InvNdash1, dg1InvNdash1, dg2InvNdash2, dg1InvNdash2, hd2]
  rw [hr.r11, hr.r12, hr.r21, hr.r22]
  -- the derivative of 1/|N| in terms of the reciprocal vectors
  have key : ∀ w z : V3, V3.dot (P.N phi theta) (V3.cross w (P.dg2 phi theta) + V3.cross (P.dg1 phi theta) z) =
      (P.N phi theta).normSq * (V3.dot r1 w + V3.dot r2 z) := by
    intro w z
    have hb := C42_reciprocal_basis P phi theta h
    have e1 : r1 = P.grad1 phi theta := by
      have a1 := hr.r11.trans hb.r11.symm
      have a2 := hr.r12.trans hb.r12.symm
      have a3 := hr.tangent1.trans hb.tangent1.symm
      exact V3.eq_of_dots _ _ _ _ h a1 a2 a3
    have e2 : r2 = P.grad2 phi theta := by
      have a1 := hr.r21.trans hb.r21.symm
      have a2 := hr.r22.trans hb.r22.symm
      have a3 := hr.tangent2.trans hb.tangent2.symm
      exact V3.eq_of_dots _ _ _ _ h a1 a2 a3
    have hp := (V3.normSq_pos _ h).ne'
    have d1 : V3.dot r1 w = V3.dot (V3.cross (P.dg2 phi theta) (P.N phi theta)) w / (P.N phi theta).normSq := by
      rw [e1]; simp only [grad1, V3.dot, V3.smul_x, V3.smul_y, V3.smul_z]; field_simp
    have d2 : V3.dot r2 z = V3.dot (V3.cross (P.dg1 phi theta) (-P.N phi theta)) z / (P.N phi theta).normSq := by
      rw [e2]; simp only [grad2, V3.dot, V3.smul_x, V3.smul_y, V3.smul_z]; field_simp
    rw [d1, d2, ← add_div, mul_div_cancel₀ _ hp]
    simp only [V3.dot, V3.cross, V3.add_x, V3.add_y, V3.add_z, V3.neg_x, V3.neg_y, V3.neg_z]
    ring
  have i1 : P.invNdash1 phi theta = -P.invN phi theta * (V3.dot r1 (P.dg11 phi theta) + V3.dot r2 (P.dg12 phi theta)) := by
    rw [invNdash1, normaldash1, key, normSq_rpow _ h, ← V3.norm_sq, invN]
    field_simp
  have i2 : P.invNdash2 phi theta = -P.invN phi theta * (V3.dot r1 (P.dg12 phi theta) + V3.dot r2 (P.dg22 phi theta)) := by
    rw [invNdash2, normaldash2, key, normSq_rpow _ h, ← V3.norm_sq, invN]
    field_simp
  rw [i1, i2]
  ring

/-- On the circular torus with `c = 0`, where `K` is not zero. -/
example : V3.dot (circularTorus.K [0] 0 0) (V3.cross (circularTorus.dg1 0 0) (circularTorus.dg2 0 0)) = 0 ∧
    circularTorus.K [0] 0 0 ≠ 0 := by
  refine ⟨C41_tangential _ _ _ _, fun h => ?_⟩
  rw [K_eq, circularTorus_dg1, circularTorus_dg2] at h
  have hz := congrArg V3.z h
  have hn := (V3.norm_pos_iff _).2 circularTorus_N_ne
  have h0 : app (circularTorus.opPhi 0 0) [0] = 0 := by
    rw [opPhi_eq]
    have : circularTorus.rows = [(1, 0, 1)] := rfl
    simp [this, app]
  have hG : circularTorus.G = 5 := rfl
  simp [h0, hG, invN, hn.ne', Real.pi_ne_zero] at hz

/-! ## C43 -/

/-- **C43.** The helper arrays are the derivatives of `dgamma/|N|` and of the unit normal. -/
theorem C43_helpers_exact (P : CpParams) (phi theta : ℝ) (h : P.N phi theta ≠ 0) :
    HasDerivV3 (fun p => (1 / (P.N p theta).norm) • P.dg1 p theta) (P.dg1InvNdash1 phi theta) phi ∧
    HasDerivV3 (fun t => (1 / (P.N phi t).norm) • P.dg1 phi t) (P.dg1InvNdash2 phi theta) theta ∧
    HasDerivV3 (fun p => (1 / (P.N p theta).norm) • P.dg2 p theta) (P.dg2InvNdash1 phi theta) phi ∧
    HasDerivV3 (fun t => (1 / (P.N phi t).norm) • P.dg2 phi t) (P.dg2InvNdash2 phi theta) theta ∧
    HasDerivV3 (fun p => P.unitN p theta) (P.unitNdash1 phi theta) phi ∧
    HasDerivV3 (fun t => P.unitN phi t) (P.unitNdash2 phi theta) theta := by
  have hc : ∀ a b : V3, a + b = b + a := by intro a b; ext <;> simp [add_comm]
  have hx : ∀ (s : ℝ) (u v : V3), s • V3.cross u v = V3.cross (s • u) v := by
    intro s u v
    ext <;> simp only [V3.cross, V3.smul_x, V3.smul_y, V3.smul_z] <;> ring
  have h11 := (HasDerivV3.smul (P.invN_phi phi theta h) (P.dg1_phi phi theta)).congr_deriv (hc _ _)
  have h12 := (HasDerivV3.smul (P.invN_theta phi theta h) (P.dg1_theta phi theta)).congr_deriv (hc _ _)
  refine ⟨h11, h12,
    (HasDerivV3.smul (P.invN_phi phi theta h) (P.dg2_phi phi theta)).congr_deriv (hc _ _),
    (HasDerivV3.smul (P.invN_theta phi theta h) (P.dg2_theta phi theta)).congr_deriv (hc _ _), ?_, ?_⟩
  · simp only [unitN, N, hx]
    exact HasDerivV3.cross h11 (P.dg2_phi phi theta)
  · simp only [unitN, N, hx]
    exact HasDerivV3.cross h12 (P.dg2_theta phi theta)

/-- **C43.** The `K`-derivative operators give the derivatives of `K`. -/
theorem C43_K_derivatives (P : CpParams) (c : List ℝ) (phi theta : ℝ) (h : P.N phi theta ≠ 0) :
    HasDerivV3 (fun p => P.K c p theta) (P.Kdash1 c phi theta) phi ∧
    HasDerivV3 (fun t => P.K c phi t) (P.Kdash2 c phi theta) theta := ⟨K_phi P c phi theta h, K_theta P c phi theta h⟩

/-- **C43.** `K_dot_grad_K` is the directional derivative of `K` along `K`: for every curve on the surface whose velocity at
a point is `K`, it is the rate of change of `K` along the curve. -/
theorem C43_K_dot_grad_K (P : CpParams) (c : List ℝ) (p q : ℝ → ℝ) (p' q' s : ℝ) (h : P.N (p s) (q s) ≠ 0)
    (hp : HasDerivAt p p' s) (hq : HasDerivAt q q' s)
    (hv : HasDerivV3 (fun u => P.surf.gamma P.wdofs (p u) (q u)) (P.K c (p s) (q s)) s) :
    HasDerivV3 (fun u => P.K c (p u) (q u)) (P.KdotGradK c (p s) (q s)) s := by
  have g1 := C38_gammadash_phi P.surf P.wdofs 0 0 (p s) (q s)
  have g2 := C38_gammadash_theta P.surf P.wdofs 0 0 (p s) (q s)
  have vx := hv.1.unique (chain2 (fun a b => (P.surf.gamma P.wdofs a b).x) p q p' q' _ _ s
    (P.surf.gammadash_x_differentiable P.wdofs 0 0 _) hp hq g1.1 g2.1)
  have vy := hv.2.1.unique (chain2 (fun a b => (P.surf.gamma P.wdofs a b).y) p q p' q' _ _ s
    (P.surf.gammadash_y_differentiable P.wdofs 0 0 _) hp hq g1.2.1 g2.2.1)
  have vz := hv.2.2.unique (chain2 (fun a b => (P.surf.gamma P.wdofs a b).z) p q p' q' _ _ s
    (P.surf.gammadash_z_differentiable P.wdofs 0 0 _) hp hq g1.2.2 g2.2.2)
  have hK : P.K c (p s) (q s) = p' • P.dg1 (p s) (q s) + q' • P.dg2 (p s) (q s) := by
    ext
    · exact vx
    · exact vy
    · exact vz
  have hr := C42_reciprocal_basis P (p s) (q s) h
  have hd2 : ∀ (a b : ℝ) (u v r : V3), V3.dot r (a • u + b • v) = a * V3.dot r u + b * V3.dot r v := by
    intro a b u v r
    simp only [V3.dot, V3.add_x, V3.add_y, V3.add_z, V3.smul_x, V3.smul_y, V3.smul_z]
    ring
  have hd3 : ∀ (i a b : ℝ) (u v r : V3), V3.dot r (i • (a • u - b • v)) = i * (a * V3.dot r u - b * V3.dot r v) := by
    intro i a b u v r
    simp only [V3.dot, V3.sub_x, V3.sub_y, V3.sub_z, V3.smul_x, V3.smul_y, V3.smul_z]
    ring
  have e1 : p' = -(P.invN (p s) (q s) * (app (P.opTheta (p s) (q s)) c + P.I)) := by
    have := congrArg (V3.dot (P.grad1 (p s) (q s))) hK
    rw [K_eq, hd2, hd3, hr.r11, hr.r12] at this
    linarith
  have e2 : q' = P.invN (p s) (q s) * (app (P.opPhi (p s) (q s)) c + P.G) := by
    have := congrArg (V3.dot (P.grad2 (p s) (q s))) hK
    rw [K_eq, hd2, hd3, hr.r21, hr.r22] at this
    linarith
  obtain ⟨dx, dy, dz⟩ := P.K_differentiableAt c (p s) (q s) h
  have k1 := K_phi P c (p s) (q s) h
  have k2 := K_theta P c (p s) (q s) h
  refine ⟨(chain2 (fun a b => (P.K c a b).x) p q p' q' _ _ s dx hp hq k1.1 k2.1).congr_deriv ?_,
    (chain2 (fun a b => (P.K c a b).y) p q p' q' _ _ s dy hp hq k1.2.1 k2.2.1).congr_deriv ?_,
    (chain2 (fun a b => (P.K c a b).z) p q p' q' _ _ s dz hp hq k1.2.2 k2.2.2).congr_deriv ?_⟩ <;>
  · rw [e1, e2]
    simp only [KdotGradK, V3.sub_x, V3.sub_y, V3.sub_z, V3.smul_x, V3.smul_y, V3.smul_z]
    ring

/-- Such a curve exists through every point with non-zero normal. -/
theorem C43_curve_exists (P : CpParams) (c : List ℝ) (phi theta : ℝ) :
    ∃ (p q : ℝ → ℝ) (p' q' : ℝ), p 0 = phi ∧ q 0 = theta ∧ HasDerivAt p p' 0 ∧ HasDerivAt q q' 0 ∧
      HasDerivV3 (fun u => P.surf.gamma P.wdofs (p u) (q u)) (P.K c phi theta) 0 := by
  have hlin : ∀ a b : ℝ, HasDerivAt (fun u : ℝ => a + b * u) b 0 := fun a b => by
    simpa using ((hasDerivAt_id (0 : ℝ)).const_mul b).const_add a
  set a := -(P.invN phi theta * (app (P.opTheta phi theta) c + P.I)) with ha
  set b := P.invN phi theta * (app (P.opPhi phi theta) c + P.G) with hb
  refine ⟨fun u => phi + a * u, fun u => theta + b * u, a, b, by simp, by simp, hlin _ _, hlin _ _, ?_⟩
  have g1 := C38_gammadash_phi P.surf P.wdofs 0 0 (phi + a * 0) (theta + b * 0)
  have g2 := C38_gammadash_theta P.surf P.wdofs 0 0 (phi + a * 0) (theta + b * 0)
  have vx := chain2 (fun a b => (P.surf.gamma P.wdofs a b).x) _ _ a b _ _ 0
    (P.surf.gammadash_x_differentiable P.wdofs 0 0 _) (hlin phi a) (hlin theta b) g1.1 g2.1
  have vy := chain2 (fun a b => (P.surf.gamma P.wdofs a b).y) _ _ a b _ _ 0
    (P.surf.gammadash_y_differentiable P.wdofs 0 0 _) (hlin phi a) (hlin theta b) g1.2.1 g2.2.1
  have vz := chain2 (fun a b => (P.surf.gamma P.wdofs a b).z) _ _ a b _ _ 0
    (P.surf.gammadash_z_differentiable P.wdofs 0 0 _) (hlin phi a) (hlin theta b) g1.2.2 g2.2.2
  rw [K_eq]
  refine ⟨vx.congr_deriv ?_, vy.congr_deriv ?_, vz.congr_deriv ?_⟩ <;>
  · simp only [mul_zero, add_zero, V3.smul_x, V3.smul_y, V3.smul_z, V3.sub_x, V3.sub_y, V3.sub_z, dg1, dg2, ha, hb]
    ring

example (c : List ℝ) : HasDerivV3 (fun p => circularTorus.K c p 0) (circularTorus.Kdash1 c 0 0) 0 :=
  (C43_K_derivatives _ c 0 0 circularTorus_N_ne).1

/-! ## C44, C66 -/

theorem sinOrCos_periodic (x : ℝ) (k : ℤ) (c : ℤ) : sinOrCos (x + (k : ℝ) * (2 * π)) c = sinOrCos x c := by
  simp only [sinOrCos]
  split_ifs
  · exact Real.sin_add_int_mul_two_pi x k
  · exact Real.cos_add_int_mul_two_pi x k

/-- **C44.** Over one field period the full potential grows by `net_poloidal_current / nfp`, over one poloidal turn by
`net_toroidal_current`, whatever the coefficients. -/
theorem C44_net_currents (P : CpParams) (hn : P.surf.nfp ≠ 0) (c : List ℝ) (phi theta : ℝ) :
    P.PhiNet c (phi + 1 / P.surf.nfp) theta = P.PhiNet c phi theta + P.G / P.surf.nfp ∧
    P.PhiNet c phi (theta + 1) = P.PhiNet c phi theta + P.I := by
  have hn' : (P.surf.nfp : ℝ) ≠ 0 := by exact_mod_cast hn
  constructor
  · have : P.Phi c (phi + 1 / P.surf.nfp) theta = P.Phi c phi theta := by
      simp only [Phi, trig]
      congr 1
      refine List.map_congr_left fun r _ => ?_
      rw [show P.angle (phi + 1 / P.surf.nfp) theta r = P.angle phi theta r + ((-r.2.1 : ℤ) : ℝ) * (2 * π) by
        simp only [angle, nfp]
        push_cast
        field_simp
        ring]
      exact sinOrCos_periodic _ _ _
    simp only [PhiNet, this]
    ring
  · have : P.Phi c phi (theta + 1) = P.Phi c phi theta := by
      simp only [Phi, trig]
      congr 1
      refine List.map_congr_left fun r _ => ?_
      rw [show P.angle phi (theta + 1) r = P.angle phi theta r + ((r.1 : ℤ) : ℝ) * (2 * π) by
        simp only [angle, nfp]
        ring]
      exact sinOrCos_periodic _ _ _
    simp only [PhiNet, this]
    ring

/-- **C44.** With stellarator symmetry `K_theta` is the `phi` derivative of the full potential. -/
theorem C44_K_theta (P : CpParams) (h : P.stellsym = true) (c : List ℝ) (phi theta : ℝ) :
    ∃ v, P.KTheta c phi theta = .ok v ∧ HasDerivAt (fun p => P.PhiNet c p theta) v phi :=
  ⟨_, by rw [KTheta, if_pos h], PhiNet_phi P c phi theta⟩

example (phi theta : ℝ) : circularTorus.PhiNet [3] phi (theta + 1) = circularTorus.PhiNet [3] phi theta + 7 :=
  (C44_net_currents circularTorus (by simp [circularTorus]) [3] phi theta).2

/-- **C66.** False of the code: without stellarator symmetry `K_theta` raises an error, for all inputs. -/
theorem C66_K_theta_fails_violated_partial (P : CpParams) (h : P.stellsym = false) (c : List ℝ) (phi theta : ℝ) :
    P.KTheta c phi theta = .error .typeError := by
  simp [KTheta, h]

/-- **C66.** With stellarator symmetry it is always available. -/
theorem C66_K_theta_available_iff_partial (P : CpParams) (c : List ℝ) (phi theta : ℝ) :
    (∃ v, P.KTheta c phi theta = .ok v) ↔ P.stellsym = true := by
  cases h : P.stellsym <;> simp [KTheta, h]

end Verif
