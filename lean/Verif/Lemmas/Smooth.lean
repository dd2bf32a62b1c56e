import Verif.Lemmas.Current
import Mathlib.Analysis.Calculus.Deriv.Comp
import Mathlib.Analysis.Calculus.Deriv.Prod
import Mathlib.Analysis.Calculus.FDeriv.Prod
import Mathlib.Analysis.SpecialFunctions.Trigonometric.Deriv

/-! # Joint differentiability in `(phi, theta)`, and the chain rule along curves -/

namespace Verif

open Real

/-- Chain rule along a curve, with the derivative given by the partial derivatives. -/
theorem chain2 (F : ℝ → ℝ → ℝ) (p q : ℝ → ℝ) (p' q' a b s : ℝ)
    (hF : DifferentiableAt ℝ (fun x : ℝ × ℝ => F x.1 x.2) (p s, q s)) (hp : HasDerivAt p p' s) (hq : HasDerivAt q q' s)
    (ha : HasDerivAt (fun t => F t (q s)) a (p s)) (hb : HasDerivAt (fun t => F (p s) t) b (q s)) :
    HasDerivAt (fun u => F (p u) (q u)) (p' * a + q' * b) s := by
  have h := hF.hasFDerivAt
  have h1 : HasDerivAt (fun t => F t (q s)) (fderiv ℝ (fun x : ℝ × ℝ => F x.1 x.2) (p s, q s) (1, 0)) (p s) :=
    HasFDerivAt.comp_hasDerivAt (p s) (f := fun t => (t, q s)) h ((hasDerivAt_id (p s)).prodMk (hasDerivAt_const _ _))
  have h2 : HasDerivAt (fun t => F (p s) t) (fderiv ℝ (fun x : ℝ × ℝ => F x.1 x.2) (p s, q s) (0, 1)) (q s) :=
    HasFDerivAt.comp_hasDerivAt (q s) (f := fun t => (p s, t)) h ((hasDerivAt_const _ _).prodMk (hasDerivAt_id (q s)))
  have h3 : HasDerivAt (fun u => F (p u) (q u)) (fderiv ℝ (fun x : ℝ × ℝ => F x.1 x.2) (p s, q s) (p', q')) s :=
    HasFDerivAt.comp_hasDerivAt s (f := fun u => (p u, q u)) h (hp.prodMk hq)
  refine h3.congr_deriv ?_
  rw [ha.unique h1, hb.unique h2, show ((p', q') : ℝ × ℝ) = p' • ((1, 0) : ℝ × ℝ) + q' • ((0, 1) : ℝ × ℝ) by simp,
    map_add, map_smul, map_smul, smul_eq_mul, smul_eq_mul]

theorem applyRow_differentiable {β : Type} (rows : List β) (f : β → ℝ × ℝ → ℝ) (h : ∀ r ∈ rows, Differentiable ℝ (f r))
    (c : List ℝ) : Differentiable ℝ (fun x => CpParams.app (rows.map fun r => f r x) c) := by
  induction rows generalizing c with
  | nil => simp [CpParams.app]
  | cons r rows ih =>
    cases c with
    | nil => simp [CpParams.app]
    | cons d c =>
      have := ih (fun r hr => h r (List.mem_cons_of_mem _ hr)) c
      simp only [CpParams.app, List.map_cons, List.zipWith_cons_cons, List.sum_cons] at this ⊢
      exact ((h r (List.mem_cons_self ..)).mul_const d).add this

theorem entry_differentiable (nfp a b : ℕ) (r : RowKind) :
    Differentiable ℝ (fun x : ℝ × ℝ => RowKind.entry nfp a b x.1 x.2 r) := by
  cases r with
  | cosine m n =>
    simp only [RowKind.entry, cEntry, modeAngle]
    split_ifs <;> fun_prop
  | sine m n =>
    simp only [RowKind.entry, sEntry, modeAngle]
    split_ifs <;> fun_prop
  | zero => simp [RowKind.entry]

namespace SurfaceShape

theorem rDash_differentiable (S : SurfaceShape) (dofs : List ℝ) (a b : ℕ) :
    Differentiable ℝ (fun x : ℝ × ℝ => S.rDash dofs a b x.1 x.2) := by
  simp only [rDash, rOperatorPadded_eq]
  exact applyRow_differentiable S.rRowsP (fun r x => RowKind.entry S.nfp a b x.1 x.2 r)
    (fun r _ => entry_differentiable S.nfp a b r) dofs

theorem zDash_differentiable (S : SurfaceShape) (dofs : List ℝ) (a b : ℕ) :
    Differentiable ℝ (fun x : ℝ × ℝ => S.zDash dofs a b x.1 x.2) := by
  simp only [zDash, zOperatorPadded_eq]
  exact applyRow_differentiable S.zRowsP (fun r x => RowKind.entry S.nfp a b x.1 x.2 r)
    (fun r _ => entry_differentiable S.nfp a b r) dofs

theorem list_sum_differentiable (l : List ℕ) (f : ℕ → ℝ × ℝ → ℝ) (h : ∀ k, Differentiable ℝ (f k)) :
    Differentiable ℝ (fun x => (l.map fun k => f k x).sum) := by
  induction l with
  | nil => simp
  | cons k l ih =>
    simp only [List.map_cons, List.sum_cons]
    exact (h k).add ih

theorem gammadash_x_differentiable (S : SurfaceShape) (dofs : List ℝ) (a b : ℕ) :
    Differentiable ℝ (fun x : ℝ × ℝ => (S.gammadash dofs a b x.1 x.2).x) := by
  simp only [gammadash]
  refine list_sum_differentiable _ (fun k x => S.xTerm dofs a b x.1 x.2 k) fun k => ?_
  have := S.rDash_differentiable dofs k b
  simp only [xTerm]
  split_ifs <;> fun_prop

theorem gammadash_y_differentiable (S : SurfaceShape) (dofs : List ℝ) (a b : ℕ) :
    Differentiable ℝ (fun x : ℝ × ℝ => (S.gammadash dofs a b x.1 x.2).y) := by
  simp only [gammadash]
  refine list_sum_differentiable _ (fun k x => S.yTerm dofs a b x.1 x.2 k) fun k => ?_
  have := S.rDash_differentiable dofs k b
  simp only [yTerm]
  split_ifs <;> fun_prop

theorem gammadash_z_differentiable (S : SurfaceShape) (dofs : List ℝ) (a b : ℕ) :
    Differentiable ℝ (fun x : ℝ × ℝ => (S.gammadash dofs a b x.1 x.2).z) := S.zDash_differentiable dofs a b

end SurfaceShape

namespace CpParams

variable (P : CpParams)

theorem sinOrCos_differentiable (c : ℤ) : Differentiable ℝ (fun x : ℝ => sinOrCos x c) := by
  simp only [sinOrCos]
  split_ifs <;> fun_prop

theorem rPhi_differentiable (r : ℤ × ℤ × ℤ) : Differentiable ℝ (fun x : ℝ × ℝ => P.rPhi x.1 x.2 r) := by
  have h := sinOrCos_differentiable (-r.2.2)
  simp only [rPhi, angle]
  fun_prop

theorem rTheta_differentiable (r : ℤ × ℤ × ℤ) : Differentiable ℝ (fun x : ℝ × ℝ => P.rTheta x.1 x.2 r) := by
  have h := sinOrCos_differentiable (-r.2.2)
  simp only [rTheta, angle]
  fun_prop

theorem appPhi_differentiable (c : List ℝ) : Differentiable ℝ (fun x : ℝ × ℝ => app (P.opPhi x.1 x.2) c) := by
  simp only [opPhi_eq]
  exact applyRow_differentiable P.rows (fun r x => P.rPhi x.1 x.2 r) (fun r _ => P.rPhi_differentiable r) c

theorem appTheta_differentiable (c : List ℝ) : Differentiable ℝ (fun x : ℝ × ℝ => app (P.opTheta x.1 x.2) c) := by
  simp only [opTheta_eq]
  exact applyRow_differentiable P.rows (fun r x => P.rTheta x.1 x.2 r) (fun r _ => P.rTheta_differentiable r) c

theorem invN_differentiableAt (phi theta : ℝ) (h : P.N phi theta ≠ 0) :
    DifferentiableAt ℝ (fun x : ℝ × ℝ => P.invN x.1 x.2) (phi, theta) := by
  have h1 := P.surf.gammadash_x_differentiable P.wdofs 1 0
  have h2 := P.surf.gammadash_y_differentiable P.wdofs 1 0
  have h3 := P.surf.gammadash_z_differentiable P.wdofs 1 0
  have h4 := P.surf.gammadash_x_differentiable P.wdofs 0 1
  have h5 := P.surf.gammadash_y_differentiable P.wdofs 0 1
  have h6 := P.surf.gammadash_z_differentiable P.wdofs 0 1
  have hN : Differentiable ℝ (fun x : ℝ × ℝ => (P.N x.1 x.2).normSq) := by
    simp only [N, V3.normSq, V3.cross, dg1, dg2]
    fun_prop
  have hp := V3.normSq_pos _ h
  have hn := (V3.norm_pos_iff _).2 h
  simp only [invN, one_div]
  exact ((hN (phi, theta)).sqrt hp.ne').inv hn.ne'

/-- `K` is jointly differentiable where the normal does not vanish. -/
theorem K_differentiableAt (c : List ℝ) (phi theta : ℝ) (h : P.N phi theta ≠ 0) :
    DifferentiableAt ℝ (fun x : ℝ × ℝ => (P.K c x.1 x.2).x) (phi, theta) ∧
    DifferentiableAt ℝ (fun x : ℝ × ℝ => (P.K c x.1 x.2).y) (phi, theta) ∧
    DifferentiableAt ℝ (fun x : ℝ × ℝ => (P.K c x.1 x.2).z) (phi, theta) := by
  have h1 := (P.surf.gammadash_x_differentiable P.wdofs 1 0) (phi, theta)
  have h2 := (P.surf.gammadash_y_differentiable P.wdofs 1 0) (phi, theta)
  have h3 := (P.surf.gammadash_z_differentiable P.wdofs 1 0) (phi, theta)
  have h4 := (P.surf.gammadash_x_differentiable P.wdofs 0 1) (phi, theta)
  have h5 := (P.surf.gammadash_y_differentiable P.wdofs 0 1) (phi, theta)
  have h6 := (P.surf.gammadash_z_differentiable P.wdofs 0 1) (phi, theta)
  have hA := (P.appPhi_differentiable c) (phi, theta)
  have hB := (P.appTheta_differentiable c) (phi, theta)
  have hi := P.invN_differentiableAt phi theta h
  simp only [K_eq, V3.smul_x, V3.smul_y, V3.smul_z, V3.sub_x, V3.sub_y, V3.sub_z, dg1, dg2]
  refine ⟨?_, ?_, ?_⟩ <;> fun_prop

end CpParams

end Verif
