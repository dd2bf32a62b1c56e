import Verif.Props.GenerateUnits
import Verif.Props.CallGradient
import Verif.Props.AxisymmetricArc
import Mathlib.LinearAlgebra.Matrix.ToLinearEquiv
import Mathlib.LinearAlgebra.Matrix.Adjugate

/-!
# C154: the generated winding surface depends smoothly on the plasma and the distance
-/

namespace Verif

open Filter Topology Real

section
variable {E : Type} [NormedAddCommGroup E] [NormedSpace ℝ E] {n : WithTop ℕ∞} {e0 : E}

/-! ## The fit -/

/-- A sample that depends smoothly on parameters. The toroidal angle need only do so up to full turns. -/
structure SmoothSample (n : WithTop ℕ∞) (p : E → FitPoint) (e0 : E) : Prop where
  phi : ∃ psi : E → ℝ, ContDiffAt ℝ n psi e0 ∧ ∀ᶠ e in 𝓝 e0, ∃ k : ℤ, (p e).phi = psi e + k
  theta : ContDiffAt ℝ n (fun e => (p e).theta) e0
  r : ContDiffAt ℝ n (fun e => (p e).r) e0
  z : ContDiffAt ℝ n (fun e => (p e).z) e0
  w : ContDiffAt ℝ n (fun e => (p e).w) e0

theorem SmoothSample.entry {p : E → FitPoint} (h : SmoothSample n p e0) (kind : RowKind) (nfp : ℕ) :
    ContDiffAt ℝ n (fun e => kind.entry nfp 0 0 (p e).phi (p e).theta) e0 := by
  obtain ⟨psi, h1, h2⟩ := h.phi
  have hs : ContDiffAt ℝ n (fun e => kind.entry nfp 0 0 (psi e) (p e).theta) e0 := by
    have ha : ∀ a b : ℤ, ContDiffAt ℝ n (fun e => 2 * π * (a * (p e).theta - b * (nfp * psi e))) e0 := fun a b =>
      contDiffAt_const.mul ((contDiffAt_const.mul h.theta).sub (contDiffAt_const.mul (contDiffAt_const.mul h1)))
    cases kind with
    | zero => exact contDiffAt_const
    | cosine a b =>
      simp only [RowKind.entry, cEntry_zero]
      exact (ha a b).cos
    | sine a b =>
      simp only [RowKind.entry, sEntry_zero]
      exact (ha a b).sin
  refine hs.congr_of_eventuallyEq ?_
  filter_upwards [h2] with e he
  obtain ⟨k, hk⟩ := he
  rw [hk]
  simpa using entry_shift kind nfp (psi e) (p e).theta k 0

/-- The entries of one sample in the columns of the fit. -/
theorem fitRow_entry (S : SurfaceShape) (k : Fin S.fitSize) (phi theta w : ℝ) :
    ((S.rOperatorPadded 0 0 phi theta).map (· * w)).getD k 0 = (S.column k).1.entry S.nfp 0 0 phi theta * w ∧
      ((S.zOperatorPadded 0 0 phi theta).map (· * w)).getD k 0 = (S.column k).2.1.entry S.nfp 0 0 phi theta * w := by
  have hk : (k : ℕ) < S.fitColumns.length := by rw [S.fitColumns_length]; exact k.isLt
  constructor
  · rw [SurfaceShape.rOperatorPadded_eq, ← S.fitColumns_r]
    simp [SurfaceShape.column, List.getD_eq_getElem?_getD, hk]
  · rw [SurfaceShape.zOperatorPadded_eq, ← S.fitColumns_z]
    simp [SurfaceShape.column, List.getD_eq_getElem?_getD, hk]

/-- The matrix of the normal equations. -/
noncomputable def fitSystem (S : SurfaceShape) (lam : ℝ) (pts : List FitPoint) : Matrix (Fin S.fitSize) (Fin S.fitSize) ℝ := fun k m =>
  (pts.map fun p => ((S.column k).1.entry S.nfp 0 0 p.phi p.theta * (S.column m).1.entry S.nfp 0 0 p.phi p.theta +
    (S.column k).2.1.entry S.nfp 0 0 p.phi p.theta * (S.column m).2.1.entry S.nfp 0 0 p.phi p.theta) * p.w ^ 2).sum + S.fitReg lam k m

/-- The right side of the normal equations. -/
noncomputable def fitTarget (S : SurfaceShape) (pts : List FitPoint) : Fin S.fitSize → ℝ := fun k =>
  (pts.map fun p => ((S.column k).1.entry S.nfp 0 0 p.phi p.theta * p.r + (S.column k).2.1.entry S.nfp 0 0 p.phi p.theta * p.z) * p.w ^ 2).sum

open Matrix in
theorem isFit_iff_system (S : SurfaceShape) (lam : ℝ) (pts : List FitPoint) (x : Fin S.fitSize → ℝ) :
    S.IsFit lam pts x ↔ fitSystem S lam pts *ᵥ x = fitTarget S pts := by
  rw [isFit_iff_sums, funext_iff]
  refine forall_congr' fun k => ?_
  have e1 : ∀ m : Fin S.fitSize, ((S.fitRows pts).map fun r => r.1.getD k 0 * r.1.getD m 0).sum + S.fitReg lam k m = fitSystem S lam pts k m := by
    intro m
    rw [SurfaceShape.fitRows, SurfaceShape.flatMap_sum, fitSystem]
    congr 2
    refine List.map_congr_left fun p _ => ?_
    simp only [List.map_cons, List.map_nil, List.sum_cons, List.sum_nil, (fitRow_entry S k p.phi p.theta p.w).1,
      (fitRow_entry S k p.phi p.theta p.w).2, (fitRow_entry S m p.phi p.theta p.w).1, (fitRow_entry S m p.phi p.theta p.w).2]
    ring
  have e2 : ((S.fitRows pts).map fun r => r.1.getD k 0 * r.2).sum = fitTarget S pts k := by
    rw [SurfaceShape.fitRows, SurfaceShape.flatMap_sum, fitTarget]
    congr 1
    refine List.map_congr_left fun p _ => ?_
    simp only [List.map_cons, List.map_nil, List.sum_cons, List.sum_nil, (fitRow_entry S k p.phi p.theta p.w).1,
      (fitRow_entry S k p.phi p.theta p.w).2]
    ring
  rw [e2]
  simp only [e1]
  rfl

open Matrix in
theorem fitSystem_det_ne_zero (S : SurfaceShape) (lam : ℝ) (pts : List FitPoint) (h : ∃! x, S.IsFit lam pts x) :
    (fitSystem S lam pts).det ≠ 0 := by
  intro hd
  obtain ⟨v, hv, hz⟩ := Matrix.exists_mulVec_eq_zero_iff.2 hd
  obtain ⟨x, hx, hu⟩ := h
  have hx' := (isFit_iff_system S lam pts x).1 hx
  have h2 := hu (x + v) ((isFit_iff_system S lam pts _).2 (by rw [Matrix.mulVec_add, hz, hx', add_zero]))
  exact hv (by simpa using h2)

open Matrix in
/-- The solution by the rule of Cramer. -/
theorem fitSolve_cramer (S : SurfaceShape) (lam : ℝ) (pts : List FitPoint) (h : (fitSystem S lam pts).det ≠ 0) (k : Fin S.fitSize) :
    S.fitSolve lam pts k = ((fitSystem S lam pts).updateCol k (fitTarget S pts)).det / (fitSystem S lam pts).det := by
  set M := fitSystem S lam pts with hM
  set c := fitTarget S pts with hc
  have hsol : M *ᵥ (M.det⁻¹ • M.cramer c) = c := by
    rw [Matrix.mulVec_smul, Matrix.mulVec_cramer, smul_smul, inv_mul_cancel₀ h, one_smul]
  obtain ⟨x, hx⟩ := leastFit_of_fit S lam pts ⟨_, (isFit_iff_system S lam pts _).2 hsol⟩
  have hx' := (isFit_iff_system S lam pts x).1 hx.1
  rw [fitSolve_eq hx]
  have e : x = M.det⁻¹ • M.cramer c := by
    have := Matrix.mulVec_injective_of_isUnit ((Matrix.isUnit_iff_isUnit_det M).2 (isUnit_iff_ne_zero.2 h))
    exact this (hx'.trans hsol.symm)
  rw [e, Pi.smul_apply, smul_eq_mul, Matrix.cramer_apply, div_eq_inv_mul]

theorem contDiffAt_list_sum {β : Type} (l : List β) {f : β → E → ℝ} (h : ∀ b ∈ l, ContDiffAt ℝ n (f b) e0) :
    ContDiffAt ℝ n (fun e => (l.map fun b => f b e).sum) e0 := (SmoothList.map l h).sum

theorem contDiffAt_det {N : ℕ} {M : E → Matrix (Fin N) (Fin N) ℝ} (h : ∀ i j, ContDiffAt ℝ n (fun e => M e i j) e0) :
    ContDiffAt ℝ n (fun e => (M e).det) e0 := by
  simp only [Matrix.det_apply']
  exact ContDiffAt.sum fun σ _ => contDiffAt_const.mul (contDiffAt_prod fun i _ => h _ _)

/-- **C154 (fit).** The fit depends smoothly on its samples where it has one solution. -/
theorem C154_fit (S : SurfaceShape) (lam : ℝ) (ps : List (E → FitPoint)) (hp : ∀ p ∈ ps, SmoothSample n p e0)
    (hu : ∃! x, S.IsFit lam (ps.map fun p => p e0) x) : ContDiffAt ℝ n (fun e => S.fitSolve lam (ps.map fun p => p e)) e0 := by
  have hM : ∀ k m, ContDiffAt ℝ n (fun e => fitSystem S lam (ps.map fun p => p e) k m) e0 := by
    intro k m
    simp only [fitSystem, List.map_map, Function.comp_def]
    refine (contDiffAt_list_sum ps fun p hmem => ?_).add contDiffAt_const
    have h := hp p hmem
    exact (((h.entry _ _).mul (h.entry _ _)).add ((h.entry _ _).mul (h.entry _ _))).mul (h.w.pow 2)
  have hc : ∀ k, ContDiffAt ℝ n (fun e => fitTarget S (ps.map fun p => p e) k) e0 := by
    intro k
    simp only [fitTarget, List.map_map, Function.comp_def]
    refine contDiffAt_list_sum ps fun p hmem => ?_
    have h := hp p hmem
    exact (((h.entry _ _).mul h.r).add ((h.entry _ _).mul h.z)).mul (h.w.pow 2)
  have hd0 := fitSystem_det_ne_zero S lam _ hu
  have hd := contDiffAt_det hM
  rw [contDiffAt_pi]
  intro k
  refine ContDiffAt.congr_of_eventuallyEq (f := fun e => ((fitSystem S lam (ps.map fun p => p e)).updateCol k
    (fitTarget S (ps.map fun p => p e))).det / (fitSystem S lam (ps.map fun p => p e)).det) ?_ ?_
  · refine (contDiffAt_det fun i j => ?_).div hd hd0
    by_cases hj : j = k
    · subst hj
      simpa using hc i
    · simpa [Matrix.updateCol_apply, hj] using hM i j
  · filter_upwards [hd.continuousAt.eventually_ne hd0] with e he
    exact fitSolve_cramer S lam _ he k

/-! ## Angles -/

theorem contDiffAt_point {x y : E → ℝ} (hx : ContDiffAt ℝ n x e0) (hy : ContDiffAt ℝ n y e0) :
    ContDiffAt ℝ n (fun e => (⟨x e, y e⟩ : ℂ)) e0 :=
  ContDiffAt.comp (g := Complex.equivRealProdCLM.symm) e0 (Complex.equivRealProdCLM.symm.contDiff.contDiffAt) (hx.prodMk hy)

theorem contDiffAt_arg {x y : E → ℝ} (hx : ContDiffAt ℝ n x e0) (hy : ContDiffAt ℝ n y e0) (h : (⟨x e0, y e0⟩ : ℂ) ∈ Complex.slitPlane) :
    ContDiffAt ℝ n (fun e => Complex.arg ⟨x e, y e⟩) e0 := by
  have h1 : ContDiffAt ℝ n (fun e => Complex.log ⟨x e, y e⟩) e0 :=
    ContDiffAt.comp (g := Complex.log) e0 ((Complex.contDiffAt_log h).restrict_scalars ℝ) (contDiffAt_point hx hy)
  have h2 : ContDiffAt ℝ n (fun e => Complex.imCLM (Complex.log ⟨x e, y e⟩)) e0 :=
    ContDiffAt.comp (g := Complex.imCLM) e0 Complex.imCLM.contDiff.contDiffAt h1
  simpa [Complex.log_im] using h2

/-- The toroidal angle of a point off the axis is smooth up to full turns. -/
theorem smooth_turns {x y : E → ℝ} (hx : ContDiffAt ℝ n x e0) (hy : ContDiffAt ℝ n y e0) (h : x e0 ≠ 0 ∨ y e0 ≠ 0) :
    ∃ psi : E → ℝ, ContDiffAt ℝ n psi e0 ∧ ∀ᶠ e in 𝓝 e0, ∃ k : ℤ, Complex.arg ⟨x e, y e⟩ / π / 2 = psi e + k := by
  by_cases hs : (⟨x e0, y e0⟩ : ℂ) ∈ Complex.slitPlane
  · refine ⟨fun e => Complex.arg ⟨x e, y e⟩ / π / 2, ?_, Eventually.of_forall fun e => ⟨0, by simp⟩⟩
    exact ((contDiffAt_arg hx hy hs).div_const _).div_const _
  · have hs' : (⟨-x e0, -y e0⟩ : ℂ) ∈ Complex.slitPlane := by
      rw [Complex.mem_slitPlane_iff] at hs ⊢
      push Not at hs
      simp only at hs ⊢
      left
      rcases lt_or_eq_of_le hs.1 with h1 | h1
      · linarith
      · exact absurd hs.2 (by rcases h with h | h <;> simp_all)
    refine ⟨fun e => (Complex.arg ⟨-x e, -y e⟩ + π) / π / 2, ?_, ?_⟩
    · exact (((contDiffAt_arg hx.neg hy.neg hs').add contDiffAt_const).div_const _).div_const _
    · have hne : ∀ᶠ e in 𝓝 e0, x e ≠ 0 ∨ y e ≠ 0 := by
        rcases h with h | h
        · exact (hx.continuousAt.eventually_ne h).mono fun e he => Or.inl he
        · exact (hy.continuousAt.eventually_ne h).mono fun e he => Or.inr he
      filter_upwards [hne] with e he
      have hz : (⟨-x e, -y e⟩ : ℂ) ≠ 0 := by
        intro hz
        have := Complex.ext_iff.1 hz
        simp only [Complex.zero_re, Complex.zero_im, neg_eq_zero] at this
        rcases he with he | he
        · exact he this.1
        · exact he this.2
      have ha := Complex.arg_neg_coe_angle hz
      rw [show -(⟨-x e, -y e⟩ : ℂ) = ⟨x e, y e⟩ by apply Complex.ext <;> simp, ← Real.Angle.coe_add] at ha
      obtain ⟨k, hk⟩ := Real.Angle.angle_eq_iff_two_pi_dvd_sub.1 ha
      refine ⟨k, ?_⟩
      have hp := pi_ne_zero
      field_simp
      linear_combination hk

theorem contDiffAt_radius {x y : E → ℝ} (hx : ContDiffAt ℝ n x e0) (hy : ContDiffAt ℝ n y e0) (h : x e0 ≠ 0 ∨ y e0 ≠ 0) :
    ContDiffAt ℝ n (fun e => sqrt (y e ^ 2 + x e ^ 2)) e0 := by
  refine ((hy.pow 2).add (hx.pow 2)).sqrt ?_
  rcases h with h | h
  · have := sq_pos_of_ne_zero h
    have := sq_nonneg (y e0)
    positivity
  · have := sq_pos_of_ne_zero h
    have := sq_nonneg (x e0)
    positivity

/-! ## Samples of the first fit -/

theorem SmoothV.rotMatrixApply (t : ℝ) {f : E → V3} (h : SmoothV n f e0) : SmoothV n (fun e => rotMatrixApply t (f e)) e0 :=
  ⟨(contDiffAt_const.mul h.1).sub (contDiffAt_const.mul h.2.1), (contDiffAt_const.mul h.1).add (contDiffAt_const.mul h.2.1), h.2.2⟩

section
variable (nfp nPhi nTheta : ℕ) {g : E → ℕ → ℕ → V3} (hg : ∀ i j, SmoothV n (fun e => g e i j) e0) {d : E → ℝ} (hd : ContDiffAt ℝ n d e0)

include hg

theorem SmoothV.normalApprox (i j : ℕ) : SmoothV n (fun e => (⟨nfp, nPhi, nTheta, g e⟩ : PlasmaGrid).normalApprox i j) e0 := by
  refine SmoothV.cross (f := fun e => g e i ((j + nTheta - 1) % nTheta) - g e i j) ((hg _ _).sub (hg _ _)) ?_
  simp only [PlasmaGrid.deltaPhi]
  split_ifs
  · exact (hg _ _).sub (hg _ _)
  · exact (SmoothV.rotMatrixApply _ (hg _ _)).sub (hg _ _)

include hd

theorem SmoothV.offset {i j : ℕ} (h : (⟨nfp, nPhi, nTheta, g e0⟩ : PlasmaGrid).normalApprox i j ≠ 0) :
    SmoothV n (fun e => (⟨nfp, nPhi, nTheta, g e⟩ : PlasmaGrid).offset (d e) i j) e0 :=
  (hg i j).add (SmoothV.smul hd (SmoothV.smul ((SmoothV.normalApprox nfp nPhi nTheta hg i j).invNorm h)
    (SmoothV.normalApprox nfp nPhi nTheta hg i j)))

theorem SmoothSample.offset {i j : ℕ} (h : (⟨nfp, nPhi, nTheta, g e0⟩ : PlasmaGrid).normalApprox i j ≠ 0)
    (ha : ((⟨nfp, nPhi, nTheta, g e0⟩ : PlasmaGrid).offset (d e0) i j).x ≠ 0 ∨ ((⟨nfp, nPhi, nTheta, g e0⟩ : PlasmaGrid).offset (d e0) i j).y ≠ 0) :
    SmoothSample n (fun e => (⟨nfp, nPhi, nTheta, g e⟩ : PlasmaGrid).offsetSample none (d e) i j) e0 := by
  obtain ⟨hx, hy, hz⟩ := SmoothV.offset nfp nPhi nTheta hg hd h
  exact ⟨smooth_turns hx hy ha, contDiffAt_const (c := (j : ℝ) * (1 / nTheta) + 1), contDiffAt_radius hx hy ha, hz,
    contDiffAt_const (c := (1 : ℝ))⟩

end

/-- The first step of the generators is regular: the approximate normals do not vanish, no offset point lies on the axis, and the fit has
one solution. -/
structure RegularOffset (G : PlasmaGrid) (d : ℝ) (sym : Bool) (mpol ntor : ℕ) : Prop where
  normal : ∀ i < G.offsetRows sym, ∀ j < G.nTheta, G.normalApprox i j ≠ 0
  axis : ∀ i < G.offsetRows sym, ∀ j < G.nTheta, (G.offset d i j).x ≠ 0 ∨ (G.offset d i j).y ≠ 0
  unique : ∃! x, IsOffsetResult G none d sym mpol ntor x

theorem contDiffAt_offset {nfp nPhi nTheta : ℕ} {g : E → ℕ → ℕ → V3} (hg : ∀ i j, SmoothV n (fun e => g e i j) e0) {d : E → ℝ}
    (hd : ContDiffAt ℝ n d e0) {sym : Bool} {mpol ntor : ℕ} (h : RegularOffset ⟨nfp, nPhi, nTheta, g e0⟩ (d e0) sym mpol ntor) :
    ContDiffAt ℝ n (fun e => (⟨nfp, sym, mpol, ntor⟩ : SurfaceShape).fitSolve 0
      ((⟨nfp, nPhi, nTheta, g e⟩ : PlasmaGrid).offsetSamples none (d e) sym)) e0 := by
  have key := C154_fit (n := n) (e0 := e0) ⟨nfp, sym, mpol, ntor⟩ 0
    ((List.range ((⟨nfp, nPhi, nTheta, g e0⟩ : PlasmaGrid).offsetRows sym)).flatMap fun i => (List.range nTheta).map fun j e =>
      (⟨nfp, nPhi, nTheta, g e⟩ : PlasmaGrid).offsetSample none (d e) i j) (fun p hp => by
        obtain ⟨i, hi, hp⟩ := List.mem_flatMap.1 hp
        obtain ⟨j, hj, rfl⟩ := List.mem_map.1 hp
        rw [List.mem_range] at hi hj
        exact SmoothSample.offset nfp nPhi nTheta hg hd (h.normal i hi j hj) (h.axis i hi j hj))
  simp only [List.map_flatMap, List.map_map] at key
  exact key h.unique

/-! ## Cross sections -/

/-- A closed polygon without intersections and without vanishing edges. -/
structure SimplePolygon (n : ℕ) (P : ℕ → ℝ × ℝ) : Prop where
  edge : ∀ j < n, P j ≠ P ((j + 1) % n)
  apart : ∀ a b, a < n → b < n → a ≠ b → a ≠ (b + 1) % n → b ≠ (a + 1) % n →
    segment ℝ (P a) (P ((a + 1) % n)) ∩ segment ℝ (P b) (P ((b + 1) % n)) = ∅

/-- Segments without common point stay so under small changes. -/
theorem eventually_disjoint {X : Type} [TopologicalSpace X] {x0 : X} {p q r s : X → ℝ × ℝ} (hp : ContinuousAt p x0) (hq : ContinuousAt q x0)
    (hr : ContinuousAt r x0) (hs : ContinuousAt s x0) (h : segment ℝ (p x0) (q x0) ∩ segment ℝ (r x0) (s x0) = ∅) :
    ∀ᶠ x in 𝓝 x0, segment ℝ (p x) (q x) ∩ segment ℝ (r x) (s x) = ∅ := by
  have hK : IsCompact (Set.Icc (0 : ℝ) 1 ×ˢ Set.Icc (0 : ℝ) 1) := isCompact_Icc.prod isCompact_Icc
  have key := hK.eventually_forall_of_forall_eventually (x₀ := x0)
    (P := fun x u => p x + u.1 • (q x - p x) ≠ r x + u.2 • (s x - r x)) (fun u hu => by
      have hc1 : ContinuousAt (fun z : X × (ℝ × ℝ) => p z.1 + z.2.1 • (q z.1 - p z.1)) (x0, u) := by
        have h1 : ContinuousAt (fun z : X × (ℝ × ℝ) => p z.1) (x0, u) := hp.comp_of_eq continuousAt_fst rfl
        have h2 : ContinuousAt (fun z : X × (ℝ × ℝ) => q z.1) (x0, u) := hq.comp_of_eq continuousAt_fst rfl
        exact h1.add ((continuous_fst.comp continuous_snd).continuousAt.smul (h2.sub h1))
      have hc2 : ContinuousAt (fun z : X × (ℝ × ℝ) => r z.1 + z.2.2 • (s z.1 - r z.1)) (x0, u) := by
        have h1 : ContinuousAt (fun z : X × (ℝ × ℝ) => r z.1) (x0, u) := hr.comp_of_eq continuousAt_fst rfl
        have h2 : ContinuousAt (fun z : X × (ℝ × ℝ) => s z.1) (x0, u) := hs.comp_of_eq continuousAt_fst rfl
        exact h1.add ((continuous_snd.comp continuous_snd).continuousAt.smul (h2.sub h1))
      refine ((hc1.sub hc2).eventually_ne (y := 0) ?_).mono fun z hz he => hz (sub_eq_zero.2 he)
      intro he
      replace he : p x0 + u.1 • (q x0 - p x0) = r x0 + u.2 • (s x0 - r x0) := sub_eq_zero.1 he
      have h1 : p x0 + u.1 • (q x0 - p x0) ∈ segment ℝ (p x0) (q x0) := by
        rw [segment_eq_image']
        exact ⟨u.1, hu.1, rfl⟩
      have h2 : r x0 + u.2 • (s x0 - r x0) ∈ segment ℝ (r x0) (s x0) := by
        rw [segment_eq_image']
        exact ⟨u.2, hu.2, rfl⟩
      have : p x0 + u.1 • (q x0 - p x0) ∈ segment ℝ (p x0) (q x0) ∩ segment ℝ (r x0) (s x0) := ⟨h1, by rw [he]; exact h2⟩
      rw [h] at this
      exact this)
  filter_upwards [key] with x hx
  rw [Set.eq_empty_iff_forall_notMem]
  rintro y ⟨h1, h2⟩
  rw [segment_eq_image'] at h1 h2
  obtain ⟨a, ha, rfl⟩ := h1
  obtain ⟨b, hb, he⟩ := h2
  exact hx (a, b) ⟨ha, hb⟩ he.symm

omit [NormedSpace ℝ E] in
/-- The weights of a simple polygon stay one under small changes. -/
theorem eventually_weight {P : E → ℕ → ℝ × ℝ} {N : ℕ} (hc : ∀ j < N, ContinuousAt (fun e => P e j) e0) (h : SimplePolygon N (P e0)) :
    ∀ᶠ e in 𝓝 e0, ∀ j < N, polygonWeight N (P e) j = 1 := by
  have h1 : ∀ᶠ e in 𝓝 e0, ∀ a ∈ List.range N, ∀ b ∈ List.range N, a ≠ b → a ≠ (b + 1) % N → b ≠ (a + 1) % N →
      segment ℝ (P e a) (P e ((a + 1) % N)) ∩ segment ℝ (P e b) (P e ((b + 1) % N)) = ∅ := by
    refine eventually_list _ fun a ha => eventually_list _ fun b hb => ?_
    rw [List.mem_range] at ha hb
    by_cases hab : a ≠ b ∧ a ≠ (b + 1) % N ∧ b ≠ (a + 1) % N
    · have hN : 0 < N := by omega
      filter_upwards [eventually_disjoint (hc a ha) (hc _ (Nat.mod_lt _ hN)) (hc b hb) (hc _ (Nat.mod_lt _ hN)) (h.apart a b ha hb hab.1 hab.2.1 hab.2.2)] with e he _ _ _
      exact he
    · exact Eventually.of_forall fun e h1 h2 h3 => absurd ⟨h1, h2, h3⟩ hab
  filter_upwards [h1] with e he j hj
  exact C50_simple_polygon_kept N (by omega) _ (fun a b ha hb h1 h2 h3 => he a (List.mem_range.2 ha) b (List.mem_range.2 hb) h1 h2 h3) j hj

theorem contDiffAt_segmentLength {P : E → ℕ → ℝ × ℝ} {N : ℕ} (h1 : ∀ j < N, ContDiffAt ℝ n (fun e => (P e j).1) e0)
    (h2 : ∀ j < N, ContDiffAt ℝ n (fun e => (P e j).2) e0) {j : ℕ} (hj : j < N) (h : P e0 j ≠ P e0 ((j + 1) % N)) :
    ContDiffAt ℝ n (fun e => segmentLength N (P e) j) e0 := by
  simp only [segmentLength, nextVertex]
  refine contDiffAt_radius (x := fun e => (P e ((j + 1) % N)).2 - (P e j).2) (y := fun e => (P e ((j + 1) % N)).1 - (P e j).1)
    ((h2 _ (Nat.mod_lt _ (by omega))).sub (h2 _ hj)) ((h1 _ (Nat.mod_lt _ (by omega))).sub (h1 _ hj)) ?_
  by_contra hcon
  push Not at hcon
  exact h (Prod.ext (by linarith [hcon.2]) (by linarith [hcon.1]))

theorem contDiffAt_arclength {P : E → ℕ → ℝ × ℝ} {N : ℕ} (h1 : ∀ j < N, ContDiffAt ℝ n (fun e => (P e j).1) e0)
    (h2 : ∀ j < N, ContDiffAt ℝ n (fun e => (P e j).2) e0) (h : ∀ j < N, P e0 j ≠ P e0 ((j + 1) % N)) {j : ℕ} (hj : j < N) :
    ContDiffAt ℝ n (fun e => arclength N (P e) j) e0 ∧ 0 < arclength N (P e0) j := by
  have hpos : ∀ j < N, 0 < segmentLength N (P e0) j := by
    intro j hj
    refine sqrt_pos.2 ?_
    by_contra hcon
    have e1 := sq_nonneg ((nextVertex N (P e0) j).1 - (P e0 j).1)
    have e2 := sq_nonneg ((nextVertex N (P e0) j).2 - (P e0 j).2)
    have f1 := pow_eq_zero_iff (two_ne_zero) |>.1 (by linarith : ((nextVertex N (P e0) j).1 - (P e0 j).1) ^ 2 = 0)
    have f2 := pow_eq_zero_iff (two_ne_zero) |>.1 (by linarith : ((nextVertex N (P e0) j).2 - (P e0 j).2) ^ 2 = 0)
    exact h j hj (Prod.ext (by simp only [nextVertex] at f1; linarith) (by simp only [nextVertex] at f2; linarith))
  induction j with
  | zero => exact ⟨contDiffAt_segmentLength h1 h2 hj (h 0 hj), hpos 0 hj⟩
  | succ j ih =>
    obtain ⟨i1, i2⟩ := ih (by omega)
    exact ⟨i1.add (contDiffAt_segmentLength h1 h2 hj (h (j + 1) hj)), add_pos i2 (hpos (j + 1) hj)⟩

/-- The second step of the arc length generator is regular: the cross sections of the offset surface are simple polygons off the axis. -/
structure RegularSections (S : SurfaceShape) (dofs : List ℝ) (nPhi nTheta tor pol : ℕ) : Prop where
  rows : 0 < interpRows S.stellsym nPhi tor
  vertices : 0 < nTheta * pol
  axis : ∀ i < interpRows S.stellsym nPhi tor, ∀ j < nTheta * pol, (sectionPoint S dofs nPhi nTheta tor pol i j).1 ≠ 0
  simple : ∀ i < interpRows S.stellsym nPhi tor, SimplePolygon (nTheta * pol) (sectionPoint S dofs nPhi nTheta tor pol i)

theorem contDiffAt_section (S : SurfaceShape) {dofs : E → List ℝ} (hd : SmoothList n dofs e0) (nPhi nTheta tor pol i j : ℕ)
    (h : (sectionPoint S (dofs e0) nPhi nTheta tor pol i j).1 ≠ 0) :
    ContDiffAt ℝ n (fun e => (sectionPoint S (dofs e) nPhi nTheta tor pol i j).1) e0 ∧
      ContDiffAt ℝ n (fun e => (sectionPoint S (dofs e) nPhi nTheta tor pol i j).2) e0 := by
  obtain ⟨hx, hy, hz⟩ := SmoothV.gammadash S hd 0 0 (interpPhi S.nfp nPhi tor i) ((j : ℝ) * (1 / (nTheta * pol : ℕ)))
  refine ⟨contDiffAt_radius hx hy ?_, hz⟩
  by_contra hcon
  push Not at hcon
  apply h
  simp only [sectionPoint, SurfaceShape.gamma]
  rw [show (S.gammadash (dofs e0) 0 0 (interpPhi S.nfp nPhi tor i) ((j : ℝ) * (1 / (nTheta * pol : ℕ)))).x = 0 from hcon.1,
    show (S.gammadash (dofs e0) 0 0 (interpPhi S.nfp nPhi tor i) ((j : ℝ) * (1 / (nTheta * pol : ℕ)))).y = 0 from hcon.2]
  simp

/-- **C154 (second fit).** The second fit of the arc length generator depends smoothly on the first where the cross sections are simple. -/
theorem contDiffAt_arc (S : SurfaceShape) {lam : ℝ} (hlam : 0 < lam) {dofs : E → List ℝ} (hd : SmoothList n dofs e0) {nPhi nTheta tor pol : ℕ}
    (h : RegularSections S (dofs e0) nPhi nTheta tor pol) :
    ContDiffAt ℝ n (fun e => S.fitSolve lam (arcSamples S (dofs e) nPhi nTheta tor pol)) e0 := by
  have hsec : ∀ i < interpRows S.stellsym nPhi tor, ∀ j < nTheta * pol, _ := fun i hi j hj =>
    contDiffAt_section S hd nPhi nTheta tor pol i j (h.axis i hi j hj)
  have key := C154_fit (n := n) (e0 := e0) S lam
    ((List.range (interpRows S.stellsym nPhi tor)).flatMap fun i => (List.range (nTheta * pol)).map fun j e =>
      arcSample S (dofs e) nPhi nTheta tor pol i j) (fun p hp => by
        obtain ⟨i, hi, hp⟩ := List.mem_flatMap.1 hp
        obtain ⟨j, hj, rfl⟩ := List.mem_map.1 hp
        rw [List.mem_range] at hi hj
        have hs := h.simple i hi
        have harc : ∀ k < nTheta * pol, _ := fun k hk => contDiffAt_arclength (n := n)
          (P := fun e => sectionPoint S (dofs e) nPhi nTheta tor pol i) (fun j hj => (hsec i hi j hj).1) (fun j hj => (hsec i hi j hj).2)
          hs.edge hk
        have hlast := harc (nTheta * pol - 1) (by omega)
        refine ⟨⟨fun _ => interpPhi S.nfp nPhi tor i, contDiffAt_const, Eventually.of_forall fun e => ⟨0, by simp [arcSample]⟩⟩, ?_,
          (hsec i hi j hj).1, (hsec i hi j hj).2, ?_⟩
        · exact (((harc j hj).1.sub (harc 0 h.vertices).1).div hlast.1 hlast.2.ne')
        · refine (contDiffAt_const (c := (1 : ℝ))).congr_of_eventuallyEq ?_
          filter_upwards [eventually_weight (fun k hk => ((hsec i hi k hk).1.continuousAt.prodMk (hsec i hi k hk).2.continuousAt)) hs] with e he
          exact he j hj)
  simp only [List.map_flatMap, List.map_map] at key
  refine key (C52_fit_exists_unique S lam hlam _ ⟨arcSample S (dofs e0) nPhi nTheta tor pol 0 0, ?_, ?_⟩)
  · exact List.mem_flatMap.2 ⟨0, List.mem_range.2 h.rows, List.mem_map.2 ⟨0, List.mem_range.2 h.vertices, rfl⟩⟩
  · have hs := h.simple 0 h.rows
    simp only [arcSample]
    rw [C50_simple_polygon_kept _ h.vertices _ hs.apart 0 h.vertices]
    exact one_ne_zero

/-- **C154.** The surfaces of the offset generator depend smoothly on plasma points and distance. -/
theorem C154_offset_generator {points : E → List (List V3)} {d : E → ℝ} {nfp mpol ntor : ℕ} {sym : Bool}
    (hlen : ∀ e, (points e).length = (points e0).length) (hrow : ∀ e, ((points e).headD []).length = ((points e0).headD []).length)
    (hp : ∀ i j, SmoothV n (fun e => ((points e).getD i []).getD j 0) e0) (hd : ContDiffAt ℝ n d e0)
    (h : RegularOffset (gridOf nfp (points e0)) (d e0) sym mpol ntor) :
    SmoothList n (fun e => offsetGenerator (points e) (d e) nfp sym mpol ntor) e0 := by
  have key := contDiffAt_offset (n := n) (e0 := e0) (nfp := nfp) (nPhi := (points e0).length) (nTheta := ((points e0).headD []).length)
    (g := fun e i j => ((points e).getD i []).getD j 0) hp hd h
  have e : ∀ e, offsetGenerator (points e) (d e) nfp sym mpol ntor = List.ofFn ((⟨nfp, sym, mpol, ntor⟩ : SurfaceShape).fitSolve 0
      ((⟨nfp, (points e0).length, ((points e0).headD []).length, fun i j => ((points e).getD i []).getD j 0⟩ : PlasmaGrid).offsetSamples none
        (d e) sym)) := by
    intro e
    have hG : gridOf nfp (points e) =
        ⟨nfp, (points e0).length, ((points e0).headD []).length, fun i j => ((points e).getD i []).getD j 0⟩ := by
      rw [gridOf, hlen e, hrow e]
    simp only [offsetGenerator]
    rw [hG]
    rfl
  simp only [e]
  exact smoothList_ofFn key

/-- **C154.** The surfaces of the arc length generator depend smoothly on plasma points and distance. -/
theorem C154_arc_generator {points : E → List (List V3)} {d : E → ℝ} {nfp mpol ntor tor pol : ℕ} {lam : ℝ} (hlam : 0 < lam) {sym : Bool}
    (hlen : ∀ e, (points e).length = (points e0).length) (hrow : ∀ e, ((points e).headD []).length = ((points e0).headD []).length)
    (hp : ∀ i j, SmoothV n (fun e => ((points e).getD i []).getD j 0) e0) (hd : ContDiffAt ℝ n d e0)
    (h : RegularOffset (gridOf nfp (points e0)) (d e0) sym mpol ntor)
    (hs : RegularSections ⟨nfp, sym, mpol, ntor⟩ (offsetGenerator (points e0) (d e0) nfp sym mpol ntor) (points e0).length
      ((points e0).headD []).length tor pol) :
    SmoothList n (fun e => arcGenerator tor pol lam (points e) (d e) nfp sym mpol ntor) e0 := by
  have h1 := C154_offset_generator hlen hrow hp hd h
  have key := contDiffAt_arc ⟨nfp, sym, mpol, ntor⟩ hlam h1 hs
  have e : ∀ e, arcGenerator tor pol lam (points e) (d e) nfp sym mpol ntor = List.ofFn ((⟨nfp, sym, mpol, ntor⟩ : SurfaceShape).fitSolve lam
      (arcSamples ⟨nfp, sym, mpol, ntor⟩ (offsetGenerator (points e) (d e) nfp sym mpol ntor) (points e0).length
        ((points e0).headD []).length tor pol)) := by
    intro e
    have hG : gridOf nfp (points e) =
        ⟨nfp, (points e0).length, ((points e0).headD []).length, fun i j => ((points e).getD i []).getD j 0⟩ := by
      rw [gridOf, hlen e, hrow e]
    simp only [arcGenerator]
    rw [hG]
    rfl
  simp only [e]
  exact smoothList_ofFn key

end

/-- Where the winding surface generated in a call is regular. -/
structure CallArgs.RegularGenerator (a : CallArgs) : Prop where
  offset : ∀ d, a.plasmaCoilDistance = some d → RegularOffset (gridOf a.nfp a.plasmaGamma) d a.plasmaStellsym a.windingMpol a.windingNtor
  sections : ∀ d, a.plasmaCoilDistance = some d → RegularSections ⟨a.nfp, a.plasmaStellsym, a.windingMpol, a.windingNtor⟩
    (offsetGenerator a.plasmaGamma d a.nfp a.plasmaStellsym a.windingMpol a.windingNtor) a.plasmaGamma.length (a.plasmaGamma.headD []).length 2 2

/-- **C154 (call).** With the default generator a call meets the hypothesis of C151 where the generated surface is regular. -/
theorem C154_call {a : CallArgs} (hg : a.generator = defaultGenerator) (h : a.RegularGenerator) : SmoothGenerator a := by
  intro d hd
  rw [hg]
  have hbase : (a.pPhi.map fun p => a.pTheta.map fun t => a.plasmaShape.gamma (List.ofFn fun i : Fin a.plasmaDofs.length => a.plasmaDofs[i]) p t) =
      a.plasmaGamma := by
    simp only [CallArgs.plasmaGamma, Fin.getElem_fin, List.ofFn_getElem]
  refine C154_arc_generator (n := 2) (E := (Fin a.plasmaDofs.length → ℝ) × ℝ) (e0 := (fun i => a.plasmaDofs[i], d)) (d := fun e => e.2)
    (points := fun e => a.pPhi.map fun p => a.pTheta.map fun t => a.plasmaShape.gamma (List.ofFn e.1) p t) (by norm_num) (fun e => by simp)
    (fun e => by cases a.pPhi <;> simp) (fun i j => ?_) contDiffAt_snd ?_ ?_
  · have hl : SmoothList 2 (fun e : (Fin a.plasmaDofs.length → ℝ) × ℝ => List.ofFn e.1) (fun i => a.plasmaDofs[i], d) :=
      smoothList_ofFn contDiffAt_fst
    have hzero : SmoothV 2 (fun _ : (Fin a.plasmaDofs.length → ℝ) × ℝ => (0 : V3)) (fun i => a.plasmaDofs[i], d) :=
      ⟨contDiffAt_const, contDiffAt_const, contDiffAt_const⟩
    simp only [List.getD_eq_getElem?_getD, List.getElem?_map]
    cases a.pPhi[i]? with
    | none => simpa using hzero
    | some p =>
      simp only [Option.map_some, Option.getD_some, List.getElem?_map]
      cases a.pTheta[j]? with
      | none => simpa using hzero
      | some t => exact SmoothV.gammadash a.plasmaShape hl 0 0 p t
  · simp only [hbase]
    exact h.offset d hd
  · simp only [hbase]
    exact h.sections d hd

end Verif
