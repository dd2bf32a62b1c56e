import Verif.Model.Current
import Verif.Lemmas.V3
import Verif.Props.Surface

/-! # Lemmas about the current potential and the surface current -/

namespace Verif

open Real

namespace CpParams

variable (P : CpParams)

theorem choice_cases (r : ℤ × ℤ × ℤ) (hr : r ∈ P.rows) : r.2.2 = 1 ∨ r.2.2 = -1 := by
  have h1 := List.of_mem_zip (a := r.1) (b := r.2) (by simpa [rows] using hr)
  have h2 := (List.of_mem_zip (a := r.2.1) (b := r.2.2) (by simpa using h1.2)).2
  simp only [trigChoice] at h2
  split_ifs at h2 with h
  · left
    exact (List.mem_replicate.1 h2).2
  · simp only [List.mem_append, List.mem_replicate, List.mem_singleton] at h2
    omega

/-- Entry of `trig_m_i_n_i`. -/
noncomputable def rT (phi theta : ℝ) (r : ℤ × ℤ × ℤ) : ℝ := sinOrCos (P.angle phi theta r) r.2.2
/-- Entry of `trig_diff @ partial_phi`. -/
noncomputable def rPhi (phi theta : ℝ) (r : ℤ × ℤ × ℤ) : ℝ :=
  sinOrCos (P.angle phi theta r) (-r.2.2) * (-(r.2.1 : ℝ) * r.2.2 * P.nfp * 2 * π)
/-- Entry of `trig_diff @ partial_theta`. -/
noncomputable def rTheta (phi theta : ℝ) (r : ℤ × ℤ × ℤ) : ℝ :=
  sinOrCos (P.angle phi theta r) (-r.2.2) * ((r.1 : ℝ) * r.2.2 * 2 * π)
/-- Entry of `trig @ partial_phi_phi`. -/
noncomputable def rPhiPhi (phi theta : ℝ) (r : ℤ × ℤ × ℤ) : ℝ :=
  sinOrCos (P.angle phi theta r) r.2.2 * (-((r.2.1 : ℝ) * P.nfp) ^ 2 * (2 * π) ^ 2)
/-- Entry of `trig @ partial_phi_theta`. -/
noncomputable def rPhiTheta (phi theta : ℝ) (r : ℤ × ℤ × ℤ) : ℝ :=
  sinOrCos (P.angle phi theta r) r.2.2 * ((r.2.1 : ℝ) * P.nfp * r.1 * (2 * π) ^ 2)
/-- Entry of `trig @ partial_theta_theta`. -/
noncomputable def rThetaTheta (phi theta : ℝ) (r : ℤ × ℤ × ℤ) : ℝ :=
  sinOrCos (P.angle phi theta r) r.2.2 * (-(r.1 : ℝ) ^ 2 * (2 * π) ^ 2)

theorem opPhi_eq (phi theta : ℝ) : P.opPhi phi theta = P.rows.map (P.rPhi phi theta) := by
  simp only [opPhi, mulDiag, trigDiff, partialPhi, List.zipWith_map, List.zipWith_self]
  rfl
theorem opTheta_eq (phi theta : ℝ) : P.opTheta phi theta = P.rows.map (P.rTheta phi theta) := by
  simp only [opTheta, mulDiag, trigDiff, partialTheta, List.zipWith_map, List.zipWith_self]
  rfl
theorem opPhiPhi_eq (phi theta : ℝ) : P.opPhiPhi phi theta = P.rows.map (P.rPhiPhi phi theta) := by
  simp only [opPhiPhi, mulDiag, trig, partialPhiPhi, List.zipWith_map, List.zipWith_self]
  rfl
theorem opPhiTheta_eq (phi theta : ℝ) : P.opPhiTheta phi theta = P.rows.map (P.rPhiTheta phi theta) := by
  simp only [opPhiTheta, mulDiag, trig, partialPhiTheta, List.zipWith_map, List.zipWith_self]
  rfl
theorem opThetaTheta_eq (phi theta : ℝ) : P.opThetaTheta phi theta = P.rows.map (P.rThetaTheta phi theta) := by
  simp only [opThetaTheta, mulDiag, trig, partialThetaTheta, List.zipWith_map, List.zipWith_self]
  rfl
theorem trig_eq (phi theta : ℝ) : P.trig phi theta = P.rows.map (P.rT phi theta) := rfl

/-! ## Derivatives of the rows -/

theorem angle_phi (phi theta : ℝ) (r : ℤ × ℤ × ℤ) :
    HasDerivAt (fun p => P.angle p theta r) (-((r.2.1 : ℝ) * P.nfp * (π * 2))) phi := by
  unfold angle
  refine ((((hasDerivAt_id phi).const_mul (π * 2)).const_mul ((r.2.1 : ℝ) * P.nfp)).const_sub _).congr_deriv ?_
  ring

theorem angle_theta (phi theta : ℝ) (r : ℤ × ℤ × ℤ) :
    HasDerivAt (fun t => P.angle phi t r) ((r.1 : ℝ) * (π * 2)) theta := by
  unfold angle
  refine ((((hasDerivAt_id theta).const_mul (π * 2)).const_mul (r.1 : ℝ)).sub_const _).congr_deriv ?_
  ring

theorem sinOrCos_deriv (f : ℝ → ℝ) (f' t : ℝ) (hf : HasDerivAt f f' t) (c : ℤ) (hc : c = 1 ∨ c = -1) :
    HasDerivAt (fun s => sinOrCos (f s) c) (sinOrCos (f t) (-c) * c * f') t := by
  rcases hc with rfl | rfl
  · simp only [sinOrCos]
    refine hf.sin.congr_deriv ?_
    norm_num
  · simp only [sinOrCos]
    norm_num
    refine hf.cos.congr_deriv ?_
    ring

theorem rT_phi (phi theta : ℝ) (r : ℤ × ℤ × ℤ) (hr : r ∈ P.rows) :
    HasDerivAt (fun p => P.rT p theta r) (P.rPhi phi theta r) phi := by
  refine (sinOrCos_deriv _ _ _ (P.angle_phi phi theta r) _ (P.choice_cases r hr)).congr_deriv ?_
  rw [rPhi]; ring

theorem rT_theta (phi theta : ℝ) (r : ℤ × ℤ × ℤ) (hr : r ∈ P.rows) :
    HasDerivAt (fun t => P.rT phi t r) (P.rTheta phi theta r) theta := by
  refine (sinOrCos_deriv _ _ _ (P.angle_theta phi theta r) _ (P.choice_cases r hr)).congr_deriv ?_
  rw [rTheta]; ring

theorem neg_choice (c : ℤ) (h : c = 1 ∨ c = -1) : -c = 1 ∨ -c = -1 := by omega

theorem choice_sq (c : ℤ) (h : c = 1 ∨ c = -1) : (c : ℝ) * c = 1 := by rcases h with rfl | rfl <;> norm_num

theorem rPhi_phi (phi theta : ℝ) (r : ℤ × ℤ × ℤ) (hr : r ∈ P.rows) :
    HasDerivAt (fun p => P.rPhi p theta r) (P.rPhiPhi phi theta r) phi := by
  have hc := P.choice_cases r hr
  refine ((sinOrCos_deriv _ _ _ (P.angle_phi phi theta r) _ (neg_choice _ hc)).mul_const _).congr_deriv ?_
  rw [rPhiPhi, neg_neg]
  push_cast
  linear_combination (-(sinOrCos (P.angle phi theta r) r.2.2) * ((r.2.1 : ℝ) * P.nfp) ^ 2 * (2 * π) ^ 2) *
    choice_sq _ hc

theorem rPhi_theta (phi theta : ℝ) (r : ℤ × ℤ × ℤ) (hr : r ∈ P.rows) :
    HasDerivAt (fun t => P.rPhi phi t r) (P.rPhiTheta phi theta r) theta := by
  have hc := P.choice_cases r hr
  refine ((sinOrCos_deriv _ _ _ (P.angle_theta phi theta r) _ (neg_choice _ hc)).mul_const _).congr_deriv ?_
  rw [rPhiTheta, neg_neg]
  push_cast
  linear_combination ((sinOrCos (P.angle phi theta r) r.2.2) * ((r.2.1 : ℝ) * P.nfp * r.1) * (2 * π) ^ 2) *
    choice_sq _ hc

theorem rTheta_phi (phi theta : ℝ) (r : ℤ × ℤ × ℤ) (hr : r ∈ P.rows) :
    HasDerivAt (fun p => P.rTheta p theta r) (P.rPhiTheta phi theta r) phi := by
  have hc := P.choice_cases r hr
  refine ((sinOrCos_deriv _ _ _ (P.angle_phi phi theta r) _ (neg_choice _ hc)).mul_const _).congr_deriv ?_
  rw [rPhiTheta, neg_neg]
  push_cast
  linear_combination ((sinOrCos (P.angle phi theta r) r.2.2) * ((r.2.1 : ℝ) * P.nfp * r.1) * (2 * π) ^ 2) *
    choice_sq _ hc

theorem rTheta_theta (phi theta : ℝ) (r : ℤ × ℤ × ℤ) (hr : r ∈ P.rows) :
    HasDerivAt (fun t => P.rTheta phi t r) (P.rThetaTheta phi theta r) theta := by
  have hc := P.choice_cases r hr
  refine ((sinOrCos_deriv _ _ _ (P.angle_theta phi theta r) _ (neg_choice _ hc)).mul_const _).congr_deriv ?_
  rw [rThetaTheta, neg_neg]
  push_cast
  linear_combination (-(sinOrCos (P.angle phi theta r) r.2.2) * (r.1 : ℝ) ^ 2 * (2 * π) ^ 2) *
    choice_sq _ hc

theorem app_hasDerivAt {β : Type} (rows : List β) (f : β → ℝ → ℝ) (f' : β → ℝ) (t : ℝ)
    (h : ∀ r ∈ rows, HasDerivAt (f r) (f' r) t) (c : List ℝ) :
    HasDerivAt (fun s => app (rows.map fun r => f r s) c) (app (rows.map f') c) t := by
  induction rows generalizing c with
  | nil => simpa [app] using hasDerivAt_const t (0 : ℝ)
  | cons r rows ih =>
    cases c with
    | nil => simpa [app] using hasDerivAt_const t (0 : ℝ)
    | cons d c =>
      have := ih (fun r hr => h r (List.mem_cons_of_mem _ hr)) c
      simp only [app, List.map_cons, List.zipWith_cons_cons, List.sum_cons] at this ⊢
      exact ((h r (List.mem_cons_self ..)).mul_const d).add this

theorem app_lin {β : Type} (rows : List β) (f g : β → ℝ) (a b : ℝ) (c : List ℝ) :
    app (rows.map fun r => a * f r + b * g r) c = a * app (rows.map f) c + b * app (rows.map g) c := by
  induction rows generalizing c with
  | nil => simp [app]
  | cons r rows ih =>
    cases c with
    | nil => simp [app]
    | cons d c =>
      have := ih c
      simp only [app, List.map_cons, List.zipWith_cons_cons, List.sum_cons] at this ⊢
      rw [this]
      ring

/-- The four first-order combinations used by the current. -/
theorem app_lin4 {β : Type} (rows : List β) (f g h k : β → ℝ) (a b c' d : ℝ) (c : List ℝ) (F : β → ℝ)
    (hF : ∀ r, F r = a * f r + b * g r + c' * h r + d * k r) :
    app (rows.map F) c =
      a * app (rows.map f) c + b * app (rows.map g) c + c' * app (rows.map h) c + d * app (rows.map k) c := by
  have h1 := app_lin rows (fun r => a * f r + b * g r) (fun r => c' * h r + d * k r) 1 1 c
  have h2 := app_lin rows f g a b c
  have h3 := app_lin rows h k c' d c
  rw [show rows.map F = rows.map fun r => 1 * (a * f r + b * g r) + 1 * (c' * h r + d * k r) from
    List.map_congr_left fun r _ => by rw [hF]; ring]
  rw [h1, h2, h3]
  ring

/-- `K` in terms of the derivatives of the potential. -/
theorem K_eq (c : List ℝ) (phi theta : ℝ) :
    P.K c phi theta = P.invN phi theta • ((app (P.opPhi phi theta) c + P.G) • P.dg2 phi theta -
      (app (P.opTheta phi theta) c + P.I) • P.dg1 phi theta) := by
  rw [K, bK, opPhi_eq, opTheta_eq, List.zipWith_map, List.zipWith_self, cK, appV]
  ext
  all_goals
    simp only [List.map_map, Function.comp_def, V3.smul_x, V3.smul_y, V3.smul_z, V3.sub_x, V3.sub_y, V3.sub_z, V3.add_x,
      V3.add_y, V3.add_z]
  · rw [app_lin4 P.rows (P.rPhi phi theta) (P.rTheta phi theta) (P.rT phi theta) (P.rT phi theta)
      (P.invN phi theta * (P.dg2 phi theta).x) (-(P.invN phi theta * (P.dg1 phi theta).x)) 0 0 c _ (fun r => by ring)]
    ring
  · rw [app_lin4 P.rows (P.rPhi phi theta) (P.rTheta phi theta) (P.rT phi theta) (P.rT phi theta)
      (P.invN phi theta * (P.dg2 phi theta).y) (-(P.invN phi theta * (P.dg1 phi theta).y)) 0 0 c _ (fun r => by ring)]
    ring
  · rw [app_lin4 P.rows (P.rPhi phi theta) (P.rTheta phi theta) (P.rT phi theta) (P.rT phi theta)
      (P.invN phi theta * (P.dg2 phi theta).z) (-(P.invN phi theta * (P.dg1 phi theta).z)) 0 0 c _ (fun r => by ring)]
    ring

theorem Kdash1_eq (c : List ℝ) (phi theta : ℝ) :
    P.Kdash1 c phi theta = (app (P.opPhi phi theta) c + P.G) • P.dg2InvNdash1 phi theta
      + (P.invN phi theta * app (P.opPhiPhi phi theta) c) • P.dg2 phi theta
      - (app (P.opTheta phi theta) c + P.I) • P.dg1InvNdash1 phi theta
      - (P.invN phi theta * app (P.opPhiTheta phi theta) c) • P.dg1 phi theta := by
  rw [Kdash1, Kdash1Op, opPhi_eq, opTheta_eq, opPhiPhi_eq, opPhiTheta_eq, List.zip_map', List.zip_map', List.zipWith_map,
    List.zipWith_self, Kdash1Const, appV, ← invN]
  ext
  all_goals
    simp only [List.map_map, Function.comp_def, V3.smul_x, V3.smul_y, V3.smul_z, V3.sub_x, V3.sub_y, V3.sub_z, V3.add_x,
      V3.add_y, V3.add_z]
  · rw [app_lin4 P.rows (P.rPhi phi theta) (P.rPhiPhi phi theta) (P.rTheta phi theta) (P.rPhiTheta phi theta)
      (P.dg2InvNdash1 phi theta).x (P.invN phi theta * (P.dg2 phi theta).x) (-(P.dg1InvNdash1 phi theta).x)
      (-(P.invN phi theta * (P.dg1 phi theta).x)) c _ (fun r => by ring)]
    ring
  · rw [app_lin4 P.rows (P.rPhi phi theta) (P.rPhiPhi phi theta) (P.rTheta phi theta) (P.rPhiTheta phi theta)
      (P.dg2InvNdash1 phi theta).y (P.invN phi theta * (P.dg2 phi theta).y) (-(P.dg1InvNdash1 phi theta).y)
      (-(P.invN phi theta * (P.dg1 phi theta).y)) c _ (fun r => by ring)]
    ring
  · rw [app_lin4 P.rows (P.rPhi phi theta) (P.rPhiPhi phi theta) (P.rTheta phi theta) (P.rPhiTheta phi theta)
      (P.dg2InvNdash1 phi theta).z (P.invN phi theta * (P.dg2 phi theta).z) (-(P.dg1InvNdash1 phi theta).z)
      (-(P.invN phi theta * (P.dg1 phi theta).z)) c _ (fun r => by ring)]
    ring

theorem Kdash2_eq (c : List ℝ) (phi theta : ℝ) :
    P.Kdash2 c phi theta = (app (P.opPhi phi theta) c + P.G) • P.dg2InvNdash2 phi theta
      + (P.invN phi theta * app (P.opPhiTheta phi theta) c) • P.dg2 phi theta
      - (app (P.opTheta phi theta) c + P.I) • P.dg1InvNdash2 phi theta
      - (P.invN phi theta * app (P.opThetaTheta phi theta) c) • P.dg1 phi theta := by
  rw [Kdash2, Kdash2Op, opPhi_eq, opTheta_eq, opThetaTheta_eq, opPhiTheta_eq, List.zip_map', List.zip_map',
    List.zipWith_map, List.zipWith_self, Kdash2Const, appV, ← invN]
  ext
  all_goals
    simp only [List.map_map, Function.comp_def, V3.smul_x, V3.smul_y, V3.smul_z, V3.sub_x, V3.sub_y, V3.sub_z, V3.add_x,
      V3.add_y, V3.add_z]
  · rw [app_lin4 P.rows (P.rPhi phi theta) (P.rPhiTheta phi theta) (P.rTheta phi theta) (P.rThetaTheta phi theta)
      (P.dg2InvNdash2 phi theta).x (P.invN phi theta * (P.dg2 phi theta).x) (-(P.dg1InvNdash2 phi theta).x)
      (-(P.invN phi theta * (P.dg1 phi theta).x)) c _ (fun r => by ring)]
    ring
  · rw [app_lin4 P.rows (P.rPhi phi theta) (P.rPhiTheta phi theta) (P.rTheta phi theta) (P.rThetaTheta phi theta)
      (P.dg2InvNdash2 phi theta).y (P.invN phi theta * (P.dg2 phi theta).y) (-(P.dg1InvNdash2 phi theta).y)
      (-(P.invN phi theta * (P.dg1 phi theta).y)) c _ (fun r => by ring)]
    ring
  · rw [app_lin4 P.rows (P.rPhi phi theta) (P.rPhiTheta phi theta) (P.rTheta phi theta) (P.rThetaTheta phi theta)
      (P.dg2InvNdash2 phi theta).z (P.invN phi theta * (P.dg2 phi theta).z) (-(P.dg1InvNdash2 phi theta).z)
      (-(P.invN phi theta * (P.dg1 phi theta).z)) c _ (fun r => by ring)]
    ring

/-! ## Derivatives of the potential -/

theorem Phi_phi (c : List ℝ) (phi theta : ℝ) :
    HasDerivAt (fun p => P.Phi c p theta) (app (P.opPhi phi theta) c) phi := by
  rw [opPhi_eq]
  exact app_hasDerivAt P.rows (fun r p => P.rT p theta r) _ _ (fun r hr => P.rT_phi phi theta r hr) c

theorem Phi_theta (c : List ℝ) (phi theta : ℝ) :
    HasDerivAt (fun t => P.Phi c phi t) (app (P.opTheta phi theta) c) theta := by
  rw [opTheta_eq]
  exact app_hasDerivAt P.rows (fun r t => P.rT phi t r) _ _ (fun r hr => P.rT_theta phi theta r hr) c

theorem opPhi_phi (c : List ℝ) (phi theta : ℝ) :
    HasDerivAt (fun p => app (P.opPhi p theta) c) (app (P.opPhiPhi phi theta) c) phi := by
  simp only [opPhi_eq, opPhiPhi_eq]
  exact app_hasDerivAt P.rows (fun r p => P.rPhi p theta r) _ _ (fun r hr => P.rPhi_phi phi theta r hr) c

theorem opPhi_theta (c : List ℝ) (phi theta : ℝ) :
    HasDerivAt (fun t => app (P.opPhi phi t) c) (app (P.opPhiTheta phi theta) c) theta := by
  simp only [opPhi_eq, opPhiTheta_eq]
  exact app_hasDerivAt P.rows (fun r t => P.rPhi phi t r) _ _ (fun r hr => P.rPhi_theta phi theta r hr) c

theorem opTheta_phi (c : List ℝ) (phi theta : ℝ) :
    HasDerivAt (fun p => app (P.opTheta p theta) c) (app (P.opPhiTheta phi theta) c) phi := by
  simp only [opTheta_eq, opPhiTheta_eq]
  exact app_hasDerivAt P.rows (fun r p => P.rTheta p theta r) _ _ (fun r hr => P.rTheta_phi phi theta r hr) c

theorem opTheta_theta (c : List ℝ) (phi theta : ℝ) :
    HasDerivAt (fun t => app (P.opTheta phi t) c) (app (P.opThetaTheta phi theta) c) theta := by
  simp only [opTheta_eq, opThetaTheta_eq]
  exact app_hasDerivAt P.rows (fun r t => P.rTheta phi t r) _ _ (fun r hr => P.rTheta_theta phi theta r hr) c

/-! ## Derivatives of the geometry -/

theorem dg1_phi (phi theta : ℝ) : HasDerivV3 (fun p => P.dg1 p theta) (P.dg11 phi theta) phi := C38_gammadash_phi ..
theorem dg1_theta (phi theta : ℝ) : HasDerivV3 (fun t => P.dg1 phi t) (P.dg12 phi theta) theta := C38_gammadash_theta ..
theorem dg2_phi (phi theta : ℝ) : HasDerivV3 (fun p => P.dg2 p theta) (P.dg12 phi theta) phi := C38_gammadash_phi ..
theorem dg2_theta (phi theta : ℝ) : HasDerivV3 (fun t => P.dg2 phi t) (P.dg22 phi theta) theta := C38_gammadash_theta ..

theorem N_phi (phi theta : ℝ) : HasDerivV3 (fun p => P.N p theta) (P.normaldash1 phi theta) phi :=
  (P.dg1_phi phi theta).cross (P.dg2_phi phi theta)
theorem N_theta (phi theta : ℝ) : HasDerivV3 (fun t => P.N phi t) (P.normaldash2 phi theta) theta :=
  (P.dg1_theta phi theta).cross (P.dg2_theta phi theta)

theorem invN_phi (phi theta : ℝ) (h : P.N phi theta ≠ 0) :
    HasDerivAt (fun p => P.invN p theta) (P.invNdash1 phi theta) phi := (P.N_phi phi theta).invNorm h
theorem invN_theta (phi theta : ℝ) (h : P.N phi theta ≠ 0) :
    HasDerivAt (fun t => P.invN phi t) (P.invNdash2 phi theta) theta := (P.N_theta phi theta).invNorm h

end CpParams

end Verif
