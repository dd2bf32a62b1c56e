import Verif.Model.Precond
import Verif.Props.ImplicitDiff
import Verif.Lemmas.Lse
import Mathlib.LinearAlgebra.Matrix.Notation
import Mathlib.LinearAlgebra.Matrix.Determinant.Basic
import Mathlib.Tactic.FinCases

/-!
# Property C89: the preconditioned linear system has the same solutions
-/

namespace Verif

variable {n : ℕ}

theorem le_sMax (s : Fin n → ℝ) (i : Fin n) : s i ≤ sMax s := le_jmax ((List.mem_ofFn' s _).2 ⟨i, rfl⟩)

/-- A threshold is exact if it drops only singular values that are zero. -/
def ExactSelection (svtol : ℝ) (d : Svd n) : Prop := ∀ i, ¬ svSelected svtol d.s i → d.s i = 0

theorem vh_orth' {d : Svd n} (h : d.vh * d.vh.transpose = 1) : d.vh.transpose * d.vh = 1 := mul_eq_one_comm.1 h

theorem svProj_add_svAnnil {svtol : ℝ} {d : Svd n} (h : d.vh * d.vh.transpose = 1) :
    svProj svtol d + svAnnil svtol d = 1 := by
  unfold svProj svAnnil
  rw [← Matrix.mul_add, ← Matrix.add_mul, Matrix.diagonal_add]
  have : (fun i => (if svSelected svtol d.s i then (1 : ℝ) else 0) + if ¬ svSelected svtol d.s i then (1 : ℝ) else 0) =
      fun _ => 1 := by
    funext i
    by_cases hi : svSelected svtol d.s i <;> simp [hi]
  rw [this, Matrix.diagonal_one, Matrix.one_mul, vh_orth' h]

theorem svProj_mul_self {svtol : ℝ} {d : Svd n} (h : d.vh * d.vh.transpose = 1) :
    svProj svtol d * svProj svtol d = svProj svtol d := by
  unfold svProj
  rw [Matrix.mul_assoc, Matrix.mul_assoc, ← Matrix.mul_assoc d.vh, h, Matrix.one_mul, ← Matrix.mul_assoc (Matrix.diagonal _),
    Matrix.diagonal_mul_diagonal]
  congr 3
  funext i
  split <;> simp

theorem svProj_transpose {svtol : ℝ} {d : Svd n} : (svProj svtol d).transpose = svProj svtol d := by
  simp [svProj, Matrix.transpose_mul, Matrix.mul_assoc]

theorem svAnnil_transpose {svtol : ℝ} {d : Svd n} : (svAnnil svtol d).transpose = svAnnil svtol d := by
  simp [svAnnil, Matrix.transpose_mul, Matrix.mul_assoc]

/-- The dropped directions are in the kernel. -/
theorem mul_svAnnil {k : Type} [Fintype k] [DecidableEq k] {M : Matrix k (Fin n) ℝ} {svtol : ℝ} {d : Svd n}
    (h : IsSvd M d) (hsel : ExactSelection svtol d) : M * svAnnil svtol d = 0 := by
  obtain ⟨U, -, hM⟩ := h.product
  unfold svAnnil
  rw [hM, Matrix.mul_assoc, ← Matrix.mul_assoc d.vh, h.orthogonal, Matrix.one_mul, Matrix.mul_assoc,
    ← Matrix.mul_assoc (Matrix.diagonal d.s), Matrix.diagonal_mul_diagonal]
  have : (fun i => d.s i * if ¬ svSelected svtol d.s i then (1 : ℝ) else 0) = fun _ => 0 := by
    funext i
    by_cases hi : svSelected svtol d.s i
    · simp [hi]
    · simp [hsel i hi]
  rw [this]
  simp

theorem svAnnil_mul {M : Matrix (Fin n) (Fin n) ℝ} {svtol : ℝ} {d : Svd n} (hsymm : M.transpose = M)
    (h : IsSvd M d) (hsel : ExactSelection svtol d) : svAnnil svtol d * M = 0 := by
  have := congrArg Matrix.transpose (mul_svAnnil h hsel)
  rw [Matrix.transpose_mul, svAnnil_transpose, hsymm, Matrix.transpose_zero] at this
  exact this

theorem svProj_mul {M : Matrix (Fin n) (Fin n) ℝ} {svtol : ℝ} {d : Svd n} (hsymm : M.transpose = M)
    (h : IsSvd M d) (hsel : ExactSelection svtol d) : svProj svtol d * M = M := by
  have h1 := congrArg (· * M) (svProj_add_svAnnil (svtol := svtol) h.orthogonal)
  simp only [Matrix.add_mul, svAnnil_mul hsymm h hsel, add_zero, Matrix.one_mul] at h1
  exact h1

theorem eq_zero_of_sMax {k : Type} [Fintype k] [DecidableEq k] {M : Matrix k (Fin n) ℝ} {d : Svd n}
    (h : IsSvd M d) (h0 : ¬ 0 < sMax d.s) : M = 0 := by
  obtain ⟨U, -, hM⟩ := h.product
  have : d.s = fun _ => 0 := by
    funext i
    exact le_antisymm ((le_sMax d.s i).trans (not_lt.1 h0)) (h.nonneg i)
  rw [hM, this]
  simp

section
variable {svtol : ℝ} {H : Fin 3 → Matrix (Fin n) (Fin n) ℝ} {svd : Fin 3 → Svd n} {svdBC : Svd n}

theorem symmHess_transpose (H : Fin 3 → Matrix (Fin n) (Fin n) ℝ) (t : Fin 3) :
    (symmHess H t).transpose = symmHess H t := by
  simp only [symmHess, Matrix.transpose_smul, Matrix.transpose_add, Matrix.transpose_transpose]
  rw [add_comm]

theorem symmHess_eq (hH : ∀ t, (H t).transpose = H t) (t : Fin 3) : symmHess H t = H t := by
  simp only [symmHess, hH, ← two_smul ℝ (H t), smul_smul]
  norm_num

/-- The sorted terms add up to the Hessian. -/
theorem precondSetup_sum (hH : ∀ t, (H t).transpose = H t) :
    (precondSetup svtol H svd svdBC).A + (precondSetup svtol H svd svdBC).B + (precondSetup svtol H svd svdBC).C =
      rawHess H := by
  simp only [precondSetup, symmHess_eq hH, rawHess]
  rw [← Equiv.sum_comp (hessOrder svd), Fin.sum_univ_three]

/-- The hypotheses on the projectors under which C35 was proved hold for the projectors that the code computes. -/
structure ProjFacts (d : PrecondData n) : Prop where
  h1 : d.projC * d.C = d.C
  h2 : d.annilC * d.C = 0
  h3 : d.annilBC * d.annilC * d.B = 0
  hc1 : d.projC + d.annilC = 1
  hc2 : d.projBC + d.annilBC = 1
  hi : d.projC * d.projC = d.projC
  hi2 : d.projBC * d.projBC = d.projBC
  hsub : d.projBC * d.projC = d.projC
  hsub2 : d.projC * d.projBC = d.projC
  hBCB : d.annilBC * d.B = 0
  hBCC : d.annilBC * d.C = 0

theorem projFacts (hsvd : ∀ t, IsSvd (symmHess H t) (svd t)) (hBC : IsSvd (projStack svtol svd) svdBC)
    (hsel : ∀ t, ExactSelection svtol (svd t)) (hselBC : ExactSelection svtol svdBC) :
    ProjFacts (precondSetup svtol H svd svdBC) := by
  set b := hessOrder svd 1 with hb
  set c := hessOrder svd 2 with hcdef
  have hstack := mul_svAnnil hBC hselBC
  have hB0 : svProj svtol (svd b) * svAnnil svtol svdBC = 0 := by
    ext i j
    have := congrFun (congrFun hstack (Sum.inl i)) j
    simpa [projStack, Matrix.fromRows_mul] using this
  have hC0 : svProj svtol (svd c) * svAnnil svtol svdBC = 0 := by
    ext i j
    have := congrFun (congrFun hstack (Sum.inr i)) j
    simpa [projStack, Matrix.fromRows_mul] using this
  have hB0' : svAnnil svtol svdBC * svProj svtol (svd b) = 0 := by
    have := congrArg Matrix.transpose hB0
    rwa [Matrix.transpose_mul, svAnnil_transpose, svProj_transpose, Matrix.transpose_zero] at this
  have hC0' : svAnnil svtol svdBC * svProj svtol (svd c) = 0 := by
    have := congrArg Matrix.transpose hC0
    rwa [Matrix.transpose_mul, svAnnil_transpose, svProj_transpose, Matrix.transpose_zero] at this
  have hPB := svProj_mul (symmHess_transpose H b) (hsvd b) (hsel b)
  have hPC := svProj_mul (symmHess_transpose H c) (hsvd c) (hsel c)
  have hc1 := svProj_add_svAnnil (svtol := svtol) (hsvd c).orthogonal
  have hc2 := svProj_add_svAnnil (svtol := svtol) hBC.orthogonal
  have hBCB : svAnnil svtol svdBC * symmHess H b = 0 := by
    rw [← hPB, ← Matrix.mul_assoc, hB0', Matrix.zero_mul]
  have hBCC : svAnnil svtol svdBC * symmHess H c = 0 := by
    rw [← hPC, ← Matrix.mul_assoc, hC0', Matrix.zero_mul]
  have hann : svAnnil svtol svdBC * svAnnil svtol (svd c) = svAnnil svtol svdBC := by
    have := congrArg (svAnnil svtol svdBC * ·) hc1
    simpa only [Matrix.mul_add, hC0', zero_add, Matrix.mul_one] using this
  refine ⟨hPC, svAnnil_mul (symmHess_transpose H c) (hsvd c) (hsel c), ?_, hc1, hc2, svProj_mul_self (hsvd c).orthogonal,
    svProj_mul_self hBC.orthogonal, ?_, ?_, hBCB, hBCC⟩
  · change svAnnil svtol svdBC * svAnnil svtol (svd c) * symmHess H b = 0
    rw [hann, hBCB]
  · change svProj svtol svdBC * svProj svtol (svd c) = svProj svtol (svd c)
    have := congrArg (· * svProj svtol (svd c)) hc2
    simpa only [Matrix.add_mul, hC0', add_zero, Matrix.one_mul] using this
  · change svProj svtol (svd c) * svProj svtol svdBC = svProj svtol (svd c)
    have := congrArg (svProj svtol (svd c) * ·) hc2
    simpa only [Matrix.mul_add, hC0, add_zero, Matrix.mul_one] using this

/-- **C89.** If the threshold drops only zero singular values, every solution of the Hessian system solves the preconditioned
system. -/
theorem C89_solutions_kept (hH : ∀ t, (H t).transpose = H t) (hsvd : ∀ t, IsSvd (symmHess H t) (svd t))
    (hBC : IsSvd (projStack svtol svd) svdBC)
    (hsel : ∀ t, ExactSelection svtol (svd t)) (hselBC : ExactSelection svtol svdBC) (v b : Fin n → ℝ)
    (hv : (rawHess H).mulVec v = b) :
    (precondSetup svtol H svd svdBC).ohess.mulVec v = (precondSetup svtol H svd svdBC).rhs b := by
  have hP := projFacts hsvd hBC hsel hselBC
  refine C35_preconditioned_keeps_solutions _ _ _ _ _ _ _ _ _ hP.h1 hP.h2 hP.h3 v b ?_
  rw [precondSetup_sum hH, hv]

/-- **C89.** If moreover the Hessian is regular, the two systems are equivalent, even if one or two of the three terms
vanish. -/
theorem C89_equivalent (hH : ∀ t, (H t).transpose = H t) (hsvd : ∀ t, IsSvd (symmHess H t) (svd t))
    (hBC : IsSvd (projStack svtol svd) svdBC)
    (hsel : ∀ t, ExactSelection svtol (svd t)) (hselBC : ExactSelection svtol svdBC)
    (hreg : IsUnit (rawHess H).det) (v b : Fin n → ℝ) :
    (rawHess H).mulVec v = b ↔
      (precondSetup svtol H svd svdBC).ohess.mulVec v = (precondSetup svtol H svd svdBC).rhs b := by
  refine ⟨C89_solutions_kept hH hsvd hBC hsel hselBC v b, fun h => ?_⟩
  have hP := projFacts hsvd hBC hsel hselBC
  have hsum := precondSetup_sum (svtol := svtol) (svd := svd) (svdBC := svdBC) hH
  have hmono : Monotone fun t => sMax (svd (hessOrder svd t)).s := Tuple.monotone_sort fun t => sMax (svd t).s
  have hA0 : ¬ 0 < sMax (svd (hessOrder svd 0)).s → (precondSetup svtol H svd svdBC).A = 0 := fun h0 =>
    eq_zero_of_sMax (hsvd _) h0
  have hB0 : ¬ 0 < sMax (svd (hessOrder svd 1)).s → (precondSetup svtol H svd svdBC).B = 0 := fun h0 =>
    eq_zero_of_sMax (hsvd _) h0
  have hsAC : 0 < sMax (svd (hessOrder svd 0)).s → (precondSetup svtol H svd svdBC).sAC ≠ 0 := by
    intro h0
    have h2 := lt_of_lt_of_le h0 (hmono (show (0 : Fin 3) ≤ 2 by decide))
    simp only [precondSetup, scaleWhere, if_pos h0]
    exact (div_pos h2 h0).ne'
  have hsBC : 0 < sMax (svd (hessOrder svd 1)).s → (precondSetup svtol H svd svdBC).sBC ≠ 0 := by
    intro h0
    have h2 := lt_of_lt_of_le h0 (hmono (show (1 : Fin 3) ≤ 2 by decide))
    simp only [precondSetup, scaleWhere, if_pos h0]
    exact (div_pos h2 h0).ne'
  have hAB : ¬ 0 < sMax (svd (hessOrder svd 1)).s → ¬ 0 < sMax (svd (hessOrder svd 0)).s := fun h0 h1 =>
    h0 (lt_of_lt_of_le h1 (hmono (show (0 : Fin 3) ≤ 1 by decide)))
  rw [C89_solutions_kept hH hsvd hBC hsel hselBC v _ rfl] at h
  generalize precondSetup svtol H svd svdBC = d at *
  obtain ⟨h1, h2, h3, hc1, hc2, hi, hi2, hsub, hsub2, hBCB, hBCC⟩ := hP
  -- the preconditioner is injective
  set w := (rawHess H).mulVec v - b with hw
  have hlin : d.sAC • (d.annilBC * d.annilC).mulVec w + d.sBC • (d.projBC * d.annilC).mulVec w + d.projC.mulVec w = 0 := by
    have := sub_eq_zero.2 h
    simp only [PrecondData.rhs, precondVec] at this
    rw [hw]
    simp only [Matrix.mulVec_sub, smul_sub]
    rw [← this]
    abel
  have hannC : d.annilC = 1 - d.projC := by rw [← hc1]; abel
  have hannBC : d.annilBC = 1 - d.projBC := by rw [← hc2]; abel
  have hregu : ∀ M : Matrix (Fin n) (Fin n) ℝ, M * rawHess H = 0 → M = 0 := by
    intro M hM
    have := congrArg (· * (rawHess H)⁻¹) hM
    simpa only [Matrix.mul_assoc, Matrix.mul_nonsing_inv _ hreg, Matrix.mul_one, Matrix.zero_mul] using this
  have hAC' : d.sAC = 0 → d.annilBC = 0 := by
    intro h0
    have hn : ¬ 0 < sMax (svd (hessOrder svd 0)).s := fun h5 => hsAC h5 h0
    apply hregu
    rw [← hsum, hA0 hn, zero_add, Matrix.mul_add, hBCB, hBCC, add_zero]
  have hBC' : d.sBC = 0 → d.annilC = 0 := by
    intro h0
    have hn : ¬ 0 < sMax (svd (hessOrder svd 1)).s := fun h5 => hsBC h5 h0
    apply hregu
    rw [← hsum, hA0 (hAB hn), hB0 hn, zero_add, zero_add, h2]
  -- first the component along C
  have e1 : d.projC * (d.annilBC * d.annilC) = 0 := by
    rw [← Matrix.mul_assoc, hannBC, Matrix.mul_sub, Matrix.mul_one, hsub2, sub_self, Matrix.zero_mul]
  have e2 : d.projC * (d.projBC * d.annilC) = 0 := by
    rw [← Matrix.mul_assoc, hsub2, hannC, Matrix.mul_sub, Matrix.mul_one, hi, sub_self]
  have hC : d.projC.mulVec w = 0 := by
    have := congrArg d.projC.mulVec hlin
    simpa only [Matrix.mulVec_add, Matrix.mulVec_smul, Matrix.mulVec_mulVec, e1, e2, hi, Matrix.zero_mulVec, smul_zero,
      zero_add, Matrix.mulVec_zero] using this
  rw [hC, add_zero] at hlin
  have e3 : d.annilBC * (d.annilBC * d.annilC) = d.annilBC * d.annilC := by
    rw [← Matrix.mul_assoc]
    congr 1
    rw [hannBC, Matrix.mul_sub, Matrix.sub_mul, Matrix.sub_mul, Matrix.mul_one, Matrix.one_mul, Matrix.mul_one, hi2]
    abel
  have e4 : d.annilBC * (d.projBC * d.annilC) = 0 := by
    rw [← Matrix.mul_assoc, hannBC, Matrix.sub_mul, Matrix.one_mul, hi2, sub_self, Matrix.zero_mul]
  have hA : d.sAC • (d.annilBC * d.annilC).mulVec w = 0 := by
    have := congrArg d.annilBC.mulVec hlin
    simpa only [Matrix.mulVec_add, Matrix.mulVec_smul, Matrix.mulVec_mulVec, e3, e4, Matrix.zero_mulVec, smul_zero,
      add_zero, Matrix.mulVec_zero] using this
  have hA2 : (d.annilBC * d.annilC).mulVec w = 0 := by
    by_cases h0 : d.sAC = 0
    · rw [hAC' h0, Matrix.zero_mul, Matrix.zero_mulVec]
    · exact (smul_eq_zero.1 hA).resolve_left h0
  rw [hA, zero_add] at hlin
  have hB2 : (d.projBC * d.annilC).mulVec w = 0 := by
    by_cases h0 : d.sBC = 0
    · rw [hBC' h0, Matrix.mul_zero, Matrix.zero_mulVec]
    · exact (smul_eq_zero.1 hlin).resolve_left h0
  have hw0 : w = 0 := by
    have e5 : d.projC + (d.annilBC * d.annilC + d.projBC * d.annilC) = 1 := by
      rw [← Matrix.add_mul, add_comm d.annilBC, hc2, Matrix.one_mul, hc1]
    have := congrArg (fun M : Matrix (Fin n) (Fin n) ℝ => M.mulVec w) e5
    simp only [Matrix.add_mulVec, hC, hA2, hB2, Matrix.one_mulVec, add_zero] at this
    exact this.symm
  exact sub_eq_zero.1 hw0

/-- **C89.** The terms are sorted, so that the weaker terms are stretched: the scales are 0 (term absent) or at least 1, and the
weakest term has the larger scale. -/
theorem C89_scales :
    let d := precondSetup svtol H svd svdBC
    (0 < sMax (svd (hessOrder svd 0)).s → 1 ≤ d.sBC ∧ d.sBC ≤ d.sAC) ∧
    (0 < sMax (svd (hessOrder svd 1)).s → 1 ≤ d.sBC) := by
  have hmono : Monotone fun t => sMax (svd (hessOrder svd t)).s := Tuple.monotone_sort fun t => sMax (svd t).s
  have h01 := hmono (show (0 : Fin 3) ≤ 1 by decide)
  have h12 := hmono (show (1 : Fin 3) ≤ 2 by decide)
  simp only at h01 h12
  have hB : 0 < sMax (svd (hessOrder svd 1)).s → 1 ≤ (precondSetup svtol H svd svdBC).sBC := by
    intro h0
    simp only [precondSetup, scaleWhere, if_pos h0]
    rw [le_div_iff₀ h0, one_mul]
    exact h12
  refine ⟨fun h0 => ⟨hB (h0.trans_le h01), ?_⟩, hB⟩
  simp only [precondSetup, scaleWhere, if_pos h0, if_pos (h0.trans_le h01)]
  exact div_le_div_of_nonneg_left ((h0.trans_le h01).trans_le h12).le h0 h01

end

/-! ## An example -/

/-- Three Hessians of rank one with a regular sum. -/
def exH : Fin 3 → Matrix (Fin 2) (Fin 2) ℝ := ![!![0, 0; 0, 1], !![0, 0; 0, 2], !![3, 0; 0, 0]]
/-- Their decompositions. -/
def exSvd : Fin 3 → Svd 2 := ![⟨![1, 0], !![0, 1; 1, 0]⟩, ⟨![2, 0], !![0, 1; 1, 0]⟩, ⟨![3, 0], 1⟩]
/-- The decomposition of the stacked projectors. -/
def exSvdBC : Svd 2 := ⟨![1, 1], 1⟩

theorem exSMax : sMax (exSvd 0).s = 1 ∧ sMax (exSvd 1).s = 2 ∧ sMax (exSvd 2).s = 3 ∧ sMax exSvdBC.s = 1 := by
  refine ⟨?_, ?_, ?_, ?_⟩ <;> simp [sMax, exSvd, exSvdBC, jmax]

theorem exOrder : hessOrder exSvd = Equiv.refl _ := by
  unfold hessOrder
  rw [Tuple.sort_eq_refl_iff_monotone]
  obtain ⟨h0, h1, h2, -⟩ := exSMax
  intro a b hab
  fin_cases a <;> fin_cases b <;> simp_all <;> norm_num

theorem exProj1 : svProj (1 / 2) (exSvd 1) = !![0, 0; 0, 1] := by
  have h : ∀ i, svSelected (1 / 2) (exSvd 1).s i ↔ i = 0 := by
    intro i
    unfold svSelected
    rw [exSMax.2.1]
    fin_cases i <;> simp [exSvd] <;> norm_num
  unfold svProj
  simp only [h]
  ext i j
  fin_cases i <;> fin_cases j <;>
    simp [exSvd, Matrix.mul_apply, Fin.sum_univ_two, Matrix.diagonal, Matrix.one_apply]

theorem exProj2 : svProj (1 / 2) (exSvd 2) = !![1, 0; 0, 0] := by
  have h : ∀ i, svSelected (1 / 2) (exSvd 2).s i ↔ i = 0 := by
    intro i
    unfold svSelected
    rw [exSMax.2.2.1]
    fin_cases i <;> simp [exSvd] <;> norm_num
  unfold svProj
  simp only [h]
  ext i j
  fin_cases i <;> fin_cases j <;>
    simp [exSvd, Matrix.mul_apply, Fin.sum_univ_two, Matrix.diagonal, Matrix.one_apply]

/-- The hypotheses of C89 hold for these matrices, so the preconditioned system is equivalent to the original one. -/
example (v b : Fin 2 → ℝ) : (rawHess exH).mulVec v = b ↔
    (precondSetup (1 / 2) exH exSvd exSvdBC).ohess.mulVec v = (precondSetup (1 / 2) exH exSvd exSvdBC).rhs b := by
  have hH : ∀ t, (exH t).transpose = exH t := by
    intro t
    ext i j
    fin_cases t <;> fin_cases i <;> fin_cases j <;> simp [exH]
  obtain ⟨m0, m1, m2, m3⟩ := exSMax
  apply C89_equivalent hH
  · intro t
    rw [symmHess_eq hH]
    refine ⟨?_, ?_, (exSvd t).vh.transpose, ?_, ?_⟩
    · intro i
      fin_cases t <;> fin_cases i <;> simp [exSvd]
    · ext i j
      fin_cases t <;> fin_cases i <;> fin_cases j <;>
        simp [exSvd, Matrix.mul_apply, Fin.sum_univ_two, Matrix.one_apply]
    · ext i j
      fin_cases t <;> fin_cases i <;> fin_cases j <;>
        simp [exSvd, Matrix.mul_apply, Fin.sum_univ_two, Matrix.one_apply]
    · ext i j
      fin_cases t <;> fin_cases i <;> fin_cases j <;>
        simp [exH, exSvd, Matrix.mul_apply, Fin.sum_univ_two, Matrix.diagonal, Matrix.one_apply]
  · have hst : projStack (1 / 2) exSvd = Matrix.fromRows !![0, 0; 0, 1] !![1, 0; 0, 0] := by
      unfold projStack
      rw [exOrder]
      simp only [Equiv.refl_apply, exProj1, exProj2]
    rw [hst]
    refine ⟨?_, ?_, Matrix.fromRows !![0, 0; 0, 1] !![1, 0; 0, 0], ?_, ?_⟩
    · intro i
      fin_cases i <;> simp [exSvdBC]
    · simp [exSvdBC]
    · ext i j
      fin_cases i <;> fin_cases j <;> simp [Matrix.mul_apply, Fintype.sum_sum_type]
    · have : (Matrix.diagonal exSvdBC.s : Matrix (Fin 2) (Fin 2) ℝ) = 1 := by
        ext i j
        fin_cases i <;> fin_cases j <;> simp [exSvdBC]
      rw [this]
      simp [exSvdBC]
  · intro t i hi
    unfold svSelected at hi
    fin_cases t <;> fin_cases i <;> simp_all [exSvd] <;> norm_num at hi
  · intro i hi
    unfold svSelected at hi
    rw [m3] at hi
    fin_cases i <;> simp [exSvdBC] at hi <;> norm_num at hi
  · have : rawHess exH = !![3, 0; 0, 3] := by
      ext i j
      fin_cases i <;> fin_cases j <;> simp [rawHess, exH, Fin.sum_univ_three] <;> norm_num
    rw [this, Matrix.det_fin_two_of]
    norm_num

end Verif
