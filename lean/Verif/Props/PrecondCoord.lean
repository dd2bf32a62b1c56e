import Verif.Props.Precond
import Mathlib.LinearAlgebra.Matrix.PosDef
import Mathlib.Analysis.Calculus.ContDiff.Basic

/-!
# Property C156: the change of coordinates that makes a Hessian well conditioned
-/

namespace Verif

open Matrix

variable {n : ℕ} {H : Matrix (Fin n) (Fin n) ℝ} {d : Svd n}

/-- No singular value of an invertible matrix is zero. -/
theorem sv_pos (h : IsSvd H d) (hH : IsUnit H) (i : Fin n) : 0 < d.s i := by
  refine (h.nonneg i).lt_of_ne fun h0 => ?_
  obtain ⟨U, -, e⟩ := h.product
  have hd : H.det = 0 := by
    rw [e, det_mul, det_mul, det_diagonal, Finset.prod_eq_zero (Finset.mem_univ i) h0.symm, mul_zero, zero_mul]
  exact ((isUnit_iff_isUnit_det H).1 hH).ne_zero hd

theorem exists_sv_zero (h : IsSvd H d) (hH : ¬ IsUnit H) : ∃ i, d.s i = 0 := by
  obtain ⟨U, hU, e⟩ := h.product
  by_contra hc
  push Not at hc
  refine hH ((isUnit_iff_isUnit_det H).2 (isUnit_iff_ne_zero.2 ?_))
  have h1 : U.det ≠ 0 := by
    intro h0
    have := congrArg det hU
    rw [det_mul, h0, mul_zero, det_one] at this
    exact zero_ne_one this
  have h2 : d.vh.det ≠ 0 := by
    intro h0
    have := congrArg det h.orthogonal
    rw [det_mul, h0, zero_mul, det_one] at this
    exact zero_ne_one this
  rw [e, det_mul, det_mul, det_diagonal]
  exact mul_ne_zero (mul_ne_zero h1 (Finset.prod_ne_zero_iff.2 fun i _ => hc i)) h2

/-- **C156.** For an invertible Hessian the two maps are inverse to each other. -/
theorem C156_inverse (h : IsSvd H d) (hH : IsUnit H) :
    (∀ x, xpToX d (xToXp d x) = x) ∧ ∀ xp, xToXp d (xpToX d xp) = xp := by
  have hs := sv_pos h hH
  constructor
  · intro x
    have e : (fun i => xToXp d x i / √(d.s i)) = d.vh.mulVec x := by
      funext i
      exact mul_div_cancel_right₀ _ (Real.sqrt_pos.2 (hs i)).ne'
    rw [xpToX, e, mulVec_mulVec, vh_orth' h.orthogonal, one_mulVec]
  · intro xp
    funext i
    rw [xToXp, xpToX, mulVec_mulVec, h.orthogonal, one_mulVec]
    exact div_mul_cancel₀ _ (Real.sqrt_pos.2 (hs i)).ne'

/-- The matrix of the Hessian in the new coordinates. -/
noncomputable def newHess (H : Matrix (Fin n) (Fin n) ℝ) (d : Svd n) : Matrix (Fin n) (Fin n) ℝ :=
  diagonal (fun i => (√(d.s i))⁻¹) * (d.vh * H * d.vh.transpose) * diagonal (fun i => (√(d.s i))⁻¹)

theorem newHess_form (v w : Fin n → ℝ) : xpToX d v ⬝ᵥ H.mulVec (xpToX d w) = v ⬝ᵥ (newHess H d).mulVec w := by
  have e : ∀ v, xpToX d v = (d.vh.transpose * diagonal (fun i => (√(d.s i))⁻¹)).mulVec v := by
    intro v
    rw [xpToX, ← mulVec_mulVec]
    congr 1
    funext i
    rw [mulVec_diagonal, div_eq_inv_mul]
  rw [e, e, mulVec_mulVec, dotProduct_comm, dotProduct_mulVec, ← mulVec_transpose, mulVec_mulVec, dotProduct_comm, newHess]
  congr 2
  rw [transpose_mul, transpose_transpose, diagonal_transpose]
  simp only [Matrix.mul_assoc]

/-- In the basis of the right singular vectors a symmetric matrix commutes with the diagonal of singular values. -/
theorem newHess_square (h : IsSvd H d) (hsymm : H.transpose = H) (hH : IsUnit H) : newHess H d * newHess H d = 1 := by
  have hs := sv_pos h hH
  obtain ⟨U, hU, e⟩ := h.product
  set M := d.vh * H * d.vh.transpose with hM
  have hv := vh_orth' h.orthogonal
  -- the square of the matrix in the new basis
  have hsq : M * M = diagonal (fun i => d.s i ^ 2) := by
    have h1 : H * H = d.vh.transpose * diagonal (fun i => d.s i ^ 2) * d.vh := by
      have h2 : H * H = H.transpose * H := by rw [hsymm]
      rw [h2, e, transpose_mul, transpose_mul, diagonal_transpose]
      calc d.vh.transpose * (diagonal d.s * U.transpose) * (U * diagonal d.s * d.vh)
          = d.vh.transpose * (diagonal d.s * (U.transpose * U) * diagonal d.s) * d.vh := by simp only [Matrix.mul_assoc]
        _ = _ := by
            rw [hU, Matrix.mul_one, diagonal_mul_diagonal]
            simp only [pow_two]
    calc M * M = d.vh * H * (d.vh.transpose * d.vh) * H * d.vh.transpose := by rw [hM]; simp only [Matrix.mul_assoc]
      _ = d.vh * (H * H) * d.vh.transpose := by rw [hv, Matrix.mul_one]; simp only [Matrix.mul_assoc]
      _ = (d.vh * d.vh.transpose) * diagonal (fun i => d.s i ^ 2) * (d.vh * d.vh.transpose) := by
        rw [h1]; simp only [Matrix.mul_assoc]
      _ = _ := by rw [h.orthogonal, Matrix.one_mul, Matrix.mul_one]
  -- entries of the matrix vanish where the singular values differ
  have hc : ∀ i j, M i j = 0 ∨ d.s i = d.s j := by
    intro i j
    have h1 : M * (M * M) = M * M * M := (Matrix.mul_assoc _ _ _).symm
    rw [hsq] at h1
    have h2 := congrFun (congrFun h1 i) j
    rw [mul_diagonal, diagonal_mul] at h2
    by_cases h0 : M i j = 0
    · exact .inl h0
    · right
      have h3 : d.s j ^ 2 = d.s i ^ 2 := mul_left_cancel₀ h0 (by linarith)
      exact ((pow_left_inj₀ (hs j).le (hs i).le two_ne_zero).1 h3).symm
  have hcomm : ∀ r : ℝ → ℝ, M * diagonal (fun i => r (d.s i)) = diagonal (fun i => r (d.s i)) * M := by
    intro r
    ext i j
    rw [mul_diagonal, diagonal_mul]
    rcases hc i j with h0 | h0
    · rw [h0, zero_mul, mul_zero]
    · rw [h0, mul_comm]
  have hcD := hcomm fun s => (√s)⁻¹
  set D := diagonal (fun i => (√(d.s i))⁻¹) with hD
  calc newHess H d * newHess H d = D * M * D * (D * M * D) := rfl
    _ = D * D * (D * D) * (M * M) := by
      have h1 : M * D = D * M := hcD
      rw [Matrix.mul_assoc D M D, h1]
      simp only [Matrix.mul_assoc]
      congr 2
      rw [← Matrix.mul_assoc M D, h1, Matrix.mul_assoc D M, ← Matrix.mul_assoc M D, h1]
      simp only [Matrix.mul_assoc]
    _ = 1 := by
      rw [hsq, hD, diagonal_mul_diagonal, diagonal_mul_diagonal, diagonal_mul_diagonal, ← diagonal_one]
      congr 1
      funext i
      have h1 := Real.sq_sqrt (hs i).le
      have h2 := (Real.sqrt_pos.2 (hs i)).ne'
      rw [show d.s i ^ 2 = (√(d.s i) ^ 2) ^ 2 by rw [h1]]
      generalize √(d.s i) = a at h2
      field_simp

theorem newHess_symm (hsymm : H.transpose = H) : (newHess H d).transpose = newHess H d := by
  rw [newHess, transpose_mul, transpose_mul, transpose_mul, transpose_mul, transpose_transpose, hsymm, diagonal_transpose]
  simp only [Matrix.mul_assoc]

/-- **C156.** For a symmetric invertible Hessian its matrix in the new coordinates is symmetric and its own inverse: all its eigenvalues are
1 or -1. For a positive definite one it is the identity. -/
theorem C156_conditioned (h : IsSvd H d) (hsymm : H.transpose = H) (hH : IsUnit H) :
    ∃ T : Matrix (Fin n) (Fin n) ℝ, T.transpose = T ∧ T * T = 1 ∧ (∀ v w, xpToX d v ⬝ᵥ H.mulVec (xpToX d w) = v ⬝ᵥ T.mulVec w) ∧
      (H.PosDef → T = 1) := by
  refine ⟨newHess H d, newHess_symm hsymm, newHess_square h hsymm hH, newHess_form, fun hp => ?_⟩
  have h2 := newHess_square h hsymm hH
  have hinj : ∀ v, xpToX d v = 0 → v = 0 := by
    intro v hv
    have e := (C156_inverse h hH).2 v
    rw [hv] at e
    rw [← e]
    funext i
    simp [xToXp]
  refine toLin'.injective (LinearMap.ext fun v => ?_)
  rw [toLin'_apply, toLin'_apply, one_mulVec]
  set u := (newHess H d).mulVec v - v with hu
  have h3 : (newHess H d).mulVec u = -u := by
    rw [hu, mulVec_sub, mulVec_mulVec, h2, one_mulVec, neg_sub]
  by_contra hne
  have hu0 : u ≠ 0 := sub_ne_zero.2 hne
  have h4 := hp.dotProduct_mulVec_pos (x := xpToX d u) fun h0 => hu0 (hinj u h0)
  rw [star_trivial, newHess_form, h3, dotProduct_neg] at h4
  have h5 : 0 ≤ u ⬝ᵥ u := Finset.sum_nonneg fun i _ => mul_self_nonneg _
  linarith

/-- **C156.** The same in terms of the function: in the new coordinates its second derivatives at the point are those of `T`. -/
theorem C156_function {f : (Fin n → ℝ) → ℝ} (hf : ContDiff ℝ 2 f) {x : Fin n → ℝ}
    (hfH : ∀ v w, fderiv ℝ (fun y => fderiv ℝ f y w) x v = v ⬝ᵥ H.mulVec w) (h : IsSvd H d) (hsymm : H.transpose = H) (hH : IsUnit H)
    (hp : H.PosDef) (v w : Fin n → ℝ) :
    fderiv ℝ (fun y => fderiv ℝ (fun z => f (xpToX d z)) y w) (xToXp d x) v = v ⬝ᵥ w := by
  obtain ⟨T, -, -, hT, h1⟩ := C156_conditioned h hsymm hH
  rw [h1 hp] at hT
  let L : (Fin n → ℝ) →L[ℝ] (Fin n → ℝ) := LinearMap.toContinuousLinearMap
    (toLin' (d.vh.transpose * diagonal (fun i => (√(d.s i))⁻¹)))
  have hL : ∀ z, xpToX d z = L z := by
    intro z
    change _ = (d.vh.transpose * diagonal (fun i => (√(d.s i))⁻¹)).mulVec z
    rw [xpToX, ← mulVec_mulVec]
    congr 1
    funext i
    rw [mulVec_diagonal, div_eq_inv_mul]
  have e1 : (fun y => fderiv ℝ (fun z => f (xpToX d z)) y w) = fun y => fderiv ℝ f (L y) (L w) := by
    funext y
    simp only [hL]
    have := fderiv_comp' (x := y) (g := f) (f := L) (hf.differentiable (by norm_num)).differentiableAt L.differentiableAt
    rw [this, L.fderiv]
    rfl
  have hd : Differentiable ℝ fun y => fderiv ℝ f y (L w) :=
    ((hf.fderiv_right (m := 1) (by norm_num)).differentiable (by norm_num)).clm_apply (differentiable_const _)
  have e2 := fderiv_comp' (x := xToXp d x) (g := fun y => fderiv ℝ f y (L w)) (f := L) hd.differentiableAt L.differentiableAt
  rw [e1, e2, L.fderiv]
  change fderiv ℝ (fun y => fderiv ℝ f y (L w)) (L (xToXp d x)) (L v) = _
  rw [← hL (xToXp d x), (C156_inverse h hH).1, hfH, ← hL, ← hL, hT, one_mulVec]

/-- **C156.** For a Hessian that is not invertible the change of coordinates loses information, and its inverse divides by zero. -/
theorem C156_singular (h : IsSvd H d) (hH : ¬ IsUnit H) : ¬ Function.Injective (xToXp d) ∧ ∃ i, √(d.s i) = 0 := by
  obtain ⟨i, hi⟩ := exists_sv_zero h hH
  refine ⟨fun hinj => ?_, i, by rw [hi, Real.sqrt_zero]⟩
  have e : xToXp d (d.vh.transpose.mulVec (Pi.single i 1)) = xToXp d 0 := by
    funext j
    rw [xToXp, xToXp, mulVec_mulVec, h.orthogonal, one_mulVec, mulVec_zero, Pi.zero_apply, zero_mul]
    by_cases hj : j = i
    · rw [hj, hi, Real.sqrt_zero, mul_zero]
    · rw [Pi.single_eq_of_ne hj, zero_mul]
  have h1 := congrArg d.vh.mulVec (hinj e)
  rw [mulVec_mulVec, h.orthogonal, one_mulVec, mulVec_zero] at h1
  have := congrFun h1 i
  simp at this

-- a saddle: the decomposition of diag(4, -1)
example : ∃ d : Svd 2, IsSvd !![4, 0; 0, -1] d ∧ (!![4, 0; 0, -1] : Matrix (Fin 2) (Fin 2) ℝ).transpose = !![4, 0; 0, -1] ∧
    IsUnit (!![4, 0; 0, -1] : Matrix (Fin 2) (Fin 2) ℝ) := by
  refine ⟨⟨![4, 1], 1⟩, ⟨?_, by simp, !![1, 0; 0, -1], ?_, ?_⟩, ?_, ?_⟩
  · intro i; fin_cases i <;> norm_num
  · ext i j; fin_cases i <;> fin_cases j <;> simp [mul_apply]
  · ext i j; fin_cases i <;> fin_cases j <;> simp [mul_apply, diagonal, vecHead, vecTail]
  · ext i j; fin_cases i <;> fin_cases j <;> rfl
  · rw [isUnit_iff_isUnit_det, det_fin_two]
    norm_num

end Verif
