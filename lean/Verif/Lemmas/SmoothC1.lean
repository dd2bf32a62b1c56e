import Verif.Lemmas.Smooth
import Mathlib.Analysis.Calculus.ContDiff.Basic
import Mathlib.Analysis.SpecialFunctions.Trigonometric.Deriv
import Mathlib.MeasureTheory.Integral.DivergenceTheorem

/-! # Continuously differentiable functions of `(phi, theta)` -/

namespace Verif

open Real

theorem applyRow_contDiff {β : Type} (rows : List β) (f : β → ℝ × ℝ → ℝ) (h : ∀ r ∈ rows, ContDiff ℝ 1 (f r))
    (c : List ℝ) : ContDiff ℝ 1 (fun x => CpParams.app (rows.map fun r => f r x) c) := by
  induction rows generalizing c with
  | nil => simp [CpParams.app]; exact contDiff_const
  | cons r rows ih =>
    cases c with
    | nil => simp [CpParams.app]; exact contDiff_const
    | cons d c =>
      have := ih (fun r hr => h r (List.mem_cons_of_mem _ hr)) c
      simp only [CpParams.app, List.map_cons, List.zipWith_cons_cons, List.sum_cons] at this ⊢
      exact ((h r (List.mem_cons_self ..)).mul contDiff_const).add this

theorem entry_contDiff (nfp a b : ℕ) (r : RowKind) :
    ContDiff ℝ 1 (fun x : ℝ × ℝ => RowKind.entry nfp a b x.1 x.2 r) := by
  cases r with
  | cosine m n =>
    simp only [RowKind.entry, cEntry, modeAngle]
    split_ifs <;> fun_prop
  | sine m n =>
    simp only [RowKind.entry, sEntry, modeAngle]
    split_ifs <;> fun_prop
  | zero => simp only [RowKind.entry]; exact contDiff_const

namespace SurfaceShape

theorem rDash_contDiff (S : SurfaceShape) (dofs : List ℝ) (a b : ℕ) :
    ContDiff ℝ 1 (fun x : ℝ × ℝ => S.rDash dofs a b x.1 x.2) := by
  simp only [rDash, rOperatorPadded_eq]
  exact applyRow_contDiff S.rRowsP (fun r x => RowKind.entry S.nfp a b x.1 x.2 r)
    (fun r _ => entry_contDiff S.nfp a b r) dofs

theorem zDash_contDiff (S : SurfaceShape) (dofs : List ℝ) (a b : ℕ) :
    ContDiff ℝ 1 (fun x : ℝ × ℝ => S.zDash dofs a b x.1 x.2) := by
  simp only [zDash, zOperatorPadded_eq]
  exact applyRow_contDiff S.zRowsP (fun r x => RowKind.entry S.nfp a b x.1 x.2 r)
    (fun r _ => entry_contDiff S.nfp a b r) dofs

theorem list_sum_contDiff (l : List ℕ) (f : ℕ → ℝ × ℝ → ℝ) (h : ∀ k, ContDiff ℝ 1 (f k)) :
    ContDiff ℝ 1 (fun x => (l.map fun k => f k x).sum) := by
  induction l with
  | nil => simp only [List.map_nil, List.sum_nil]; exact contDiff_const
  | cons k l ih =>
    simp only [List.map_cons, List.sum_cons]
    exact (h k).add ih

theorem gammadash_contDiff (S : SurfaceShape) (dofs : List ℝ) (a b : ℕ) :
    ContDiff ℝ 1 (fun x : ℝ × ℝ => (S.gammadash dofs a b x.1 x.2).x) ∧
    ContDiff ℝ 1 (fun x : ℝ × ℝ => (S.gammadash dofs a b x.1 x.2).y) ∧
    ContDiff ℝ 1 (fun x : ℝ × ℝ => (S.gammadash dofs a b x.1 x.2).z) := by
  refine ⟨?_, ?_, S.zDash_contDiff dofs a b⟩
  · simp only [gammadash]
    refine list_sum_contDiff _ (fun k x => S.xTerm dofs a b x.1 x.2 k) fun k => ?_
    have := S.rDash_contDiff dofs k b
    simp only [xTerm]
    split_ifs <;> fun_prop
  · simp only [gammadash]
    refine list_sum_contDiff _ (fun k x => S.yTerm dofs a b x.1 x.2 k) fun k => ?_
    have := S.rDash_contDiff dofs k b
    simp only [yTerm]
    split_ifs <;> fun_prop

end SurfaceShape

namespace CpParams

variable (P : CpParams)

theorem sinOrCos_contDiff (c : ℤ) : ContDiff ℝ 1 (fun x : ℝ => sinOrCos x c) := by
  simp only [sinOrCos]
  split_ifs
  · exact contDiff_sin
  · exact contDiff_cos

theorem rPhi_contDiff (r : ℤ × ℤ × ℤ) : ContDiff ℝ 1 (fun x : ℝ × ℝ => P.rPhi x.1 x.2 r) := by
  have h := sinOrCos_contDiff (-r.2.2)
  simp only [rPhi, angle]
  fun_prop

theorem rTheta_contDiff (r : ℤ × ℤ × ℤ) : ContDiff ℝ 1 (fun x : ℝ × ℝ => P.rTheta x.1 x.2 r) := by
  have h := sinOrCos_contDiff (-r.2.2)
  simp only [rTheta, angle]
  fun_prop

theorem appPhi_contDiff (c : List ℝ) : ContDiff ℝ 1 (fun x : ℝ × ℝ => app (P.opPhi x.1 x.2) c) := by
  simp only [opPhi_eq]
  exact applyRow_contDiff P.rows (fun r x => P.rPhi x.1 x.2 r) (fun r _ => P.rPhi_contDiff r) c

theorem appTheta_contDiff (c : List ℝ) : ContDiff ℝ 1 (fun x : ℝ × ℝ => app (P.opTheta x.1 x.2) c) := by
  simp only [opTheta_eq]
  exact applyRow_contDiff P.rows (fun r x => P.rTheta x.1 x.2 r) (fun r _ => P.rTheta_contDiff r) c

end CpParams

/-- A vector valued function of two variables with continuously differentiable components. -/
def C1 (f : ℝ → ℝ → V3) : Prop :=
  ContDiff ℝ 1 (fun x : ℝ × ℝ => (f x.1 x.2).x) ∧ ContDiff ℝ 1 (fun x : ℝ × ℝ => (f x.1 x.2).y) ∧
    ContDiff ℝ 1 (fun x : ℝ × ℝ => (f x.1 x.2).z)

namespace C1

variable {f g : ℝ → ℝ → V3}

theorem cross (hf : C1 f) (hg : C1 g) : C1 (fun p t => V3.cross (f p t) (g p t)) := by
  obtain ⟨h1, h2, h3⟩ := hf
  obtain ⟨h4, h5, h6⟩ := hg
  refine ⟨?_, ?_, ?_⟩ <;> simp only [V3.cross] <;> fun_prop

theorem smul {s : ℝ → ℝ → ℝ} (hs : ContDiff ℝ 1 (fun x : ℝ × ℝ => s x.1 x.2)) (hf : C1 f) :
    C1 (fun p t => s p t • f p t) := by
  obtain ⟨h1, h2, h3⟩ := hf
  refine ⟨?_, ?_, ?_⟩ <;> simp only [V3.smul_x, V3.smul_y, V3.smul_z] <;> fun_prop

theorem sub (hf : C1 f) (hg : C1 g) : C1 (fun p t => f p t - g p t) := by
  obtain ⟨h1, h2, h3⟩ := hf
  obtain ⟨h4, h5, h6⟩ := hg
  refine ⟨?_, ?_, ?_⟩ <;> simp only [V3.sub_x, V3.sub_y, V3.sub_z] <;> fun_prop

theorem const (v : V3) : C1 (fun _ _ => v) := ⟨contDiff_const, contDiff_const, contDiff_const⟩

theorem norm (hf : C1 f) (h : ∀ p t, f p t ≠ 0) : ContDiff ℝ 1 (fun x : ℝ × ℝ => (f x.1 x.2).norm) := by
  obtain ⟨h1, h2, h3⟩ := hf
  simp only [V3.norm]
  refine ContDiff.sqrt ?_ fun x => (V3.normSq_pos _ (h x.1 x.2)).ne'
  simp only [V3.normSq]
  fun_prop

theorem invNorm (hf : C1 f) (h : ∀ p t, f p t ≠ 0) : ContDiff ℝ 1 (fun x : ℝ × ℝ => 1 / (f x.1 x.2).norm) := by
  simp only [one_div]
  exact (hf.norm h).inv fun x => ((V3.norm_pos_iff _).2 (h x.1 x.2)).ne'

end C1

namespace CpParams

variable (P : CpParams)

theorem gammadash_C1 (a b : ℕ) : C1 (fun p t => P.surf.gammadash P.wdofs a b p t) := P.surf.gammadash_contDiff P.wdofs a b

theorem N_C1 : C1 P.N := (P.gammadash_C1 1 0).cross (P.gammadash_C1 0 1)

theorem K_C1 (c : List ℝ) (h : ∀ p t, P.N p t ≠ 0) : C1 (P.K c) := by
  have h1 := (P.appPhi_contDiff c).add (contDiff_const (c := P.G))
  have h2 := (P.appTheta_contDiff c).add (contDiff_const (c := P.I))
  have h3 := (C1.smul (s := fun p t => app (P.opPhi p t) c + P.G) h1 (P.gammadash_C1 0 1)).sub
    (C1.smul (s := fun p t => app (P.opTheta p t) c + P.I) h2 (P.gammadash_C1 1 0))
  have h4 := C1.smul (s := fun p t => 1 / (P.N p t).norm) (P.N_C1.invNorm h) h3
  have : P.K c = fun p t => (1 / (P.N p t).norm) • ((app (P.opPhi p t) c + P.G) • P.surf.gammadash P.wdofs 0 1 p t -
      (app (P.opTheta p t) c + P.I) • P.surf.gammadash P.wdofs 1 0 p t) := by
    funext p t
    rw [K_eq]
    rfl
  rw [this]
  exact h4

end CpParams

/-- The integral of a divergence of functions with period 1 vanishes. -/
theorem integral_divergence_periodic (F G : ℝ × ℝ → ℝ) (hF : ContDiff ℝ 1 F) (hG : ContDiff ℝ 1 G)
    (pF : ∀ t, F (1, t) = F (0, t)) (pG : ∀ p, G (p, 1) = G (p, 0)) (D : ℝ × ℝ → ℝ)
    (hD : ∀ p t, ∃ a b, HasDerivAt (fun s => F (s, t)) a p ∧ HasDerivAt (fun s => G (p, s)) b t ∧ D (p, t) = a + b) :
    Continuous D ∧ ∫ p in (0 : ℝ)..1, ∫ t in (0 : ℝ)..1, D (p, t) = 0 := by
  have dF : ∀ x, HasFDerivAt F (fderiv ℝ F x) x := fun x => (hF.differentiable (by norm_num) x).hasFDerivAt
  have dG : ∀ x, HasFDerivAt G (fderiv ℝ G x) x := fun x => (hG.differentiable (by norm_num) x).hasFDerivAt
  have hDe : D = fun x => fderiv ℝ F x (1, 0) + fderiv ℝ G x (0, 1) := by
    funext ⟨p, t⟩
    obtain ⟨a, b, ha, hb, h⟩ := hD p t
    have h1 : HasDerivAt (fun s => F (s, t)) (fderiv ℝ F (p, t) (1, 0)) p :=
      HasFDerivAt.comp_hasDerivAt p (f := fun s => (s, t)) (dF (p, t)) ((hasDerivAt_id p).prodMk (hasDerivAt_const _ _))
    have h2 : HasDerivAt (fun s => G (p, s)) (fderiv ℝ G (p, t) (0, 1)) t :=
      HasFDerivAt.comp_hasDerivAt t (f := fun s => (p, s)) (dG (p, t)) ((hasDerivAt_const _ _).prodMk (hasDerivAt_id t))
    rw [h, ha.unique h1, hb.unique h2]
  have hc : Continuous D := by
    rw [hDe]
    exact ((hF.continuous_fderiv (by norm_num)).clm_apply continuous_const).add
      ((hG.continuous_fderiv (by norm_num)).clm_apply continuous_const)
  refine ⟨hc, ?_⟩
  have hi : MeasureTheory.IntegrableOn (fun x => fderiv ℝ F x (1, 0) + fderiv ℝ G x (0, 1))
      (Set.uIcc (0 : ℝ) 1 ×ˢ Set.uIcc (0 : ℝ) 1) := by
    rw [← hDe]
    exact hc.continuousOn.integrableOn_compact (isCompact_uIcc.prod isCompact_uIcc)
  have := MeasureTheory.integral2_divergence_prod_of_hasFDerivAt F G (fderiv ℝ F) (fderiv ℝ G) 0 0 1 1
    hF.continuous.continuousOn hG.continuous.continuousOn (fun x _ => dF x) (fun x _ => dG x) hi
  rw [hDe]
  rw [this]
  simp only [pF, pG]
  ring

end Verif
