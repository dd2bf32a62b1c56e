import Verif.Props.ReturnedPotential
import Verif.Lemmas.StrongConvex

/-!
# Potentials that differ by a constant, and functions that do not depend on one coordinate
-/

namespace Verif

open CpParams

/-! ## The fields of two potentials that differ by a constant -/

/-- The derivatives of the two potentials agree. -/
structure SameDerivs (P : CpParams) (c c' : List ℝ) : Prop where
  phi : ∀ p x, app (P.opPhi p x) c' = app (P.opPhi p x) c
  theta : ∀ p x, app (P.opTheta p x) c' = app (P.opTheta p x) c
  phiPhi : ∀ p x, app (P.opPhiPhi p x) c' = app (P.opPhiPhi p x) c
  phiTheta : ∀ p x, app (P.opPhiTheta p x) c' = app (P.opPhiTheta p x) c
  thetaTheta : ∀ p x, app (P.opThetaTheta p x) c' = app (P.opThetaTheta p x) c

theorem sameDerivs {P : CpParams} {c c' : List ℝ} {t : ℝ} (h : ∀ phi theta, P.Phi c' phi theta = P.Phi c phi theta + t) :
    SameDerivs P c c' := by
  have h1 : ∀ p x, app (P.opPhi p x) c' = app (P.opPhi p x) c := fun p x => (opPhi_of_Phi P c' c t h p x).1
  have h2 : ∀ p x, app (P.opTheta p x) c' = app (P.opTheta p x) c := fun p x => (opPhi_of_Phi P c' c t h p x).2
  refine ⟨h1, h2, fun p x => ?_, fun p x => ?_, fun p x => ?_⟩
  · have e := P.opPhi_phi c' p x
    simp only [h1] at e
    exact e.unique (P.opPhi_phi c p x)
  · have e := P.opPhi_theta c' p x
    simp only [h1] at e
    exact e.unique (P.opPhi_theta c p x)
  · have e := P.opTheta_theta c' p x
    simp only [h2] at e
    exact e.unique (P.opTheta_theta c p x)

namespace SameDerivs

variable {P : CpParams} {c c' : List ℝ} (h : SameDerivs P c c')
include h

theorem K : P.K c' = P.K c := by
  funext p x
  simp only [K_eq, h.phi, h.theta]

theorem Kdash1 : P.Kdash1 c' = P.Kdash1 c := by
  funext p x
  simp only [Kdash1_eq, h.phi, h.theta, h.phiPhi, h.phiTheta]

theorem Kdash2 : P.Kdash2 c' = P.Kdash2 c := by
  funext p x
  simp only [Kdash2_eq, h.phi, h.theta, h.thetaTheta, h.phiTheta]

theorem KdotGradK : P.KdotGradK c' = P.KdotGradK c := by
  funext p x
  simp only [CpParams.KdotGradK, h.Kdash1, h.Kdash2, h.phi, h.theta]

theorem KTheta : P.KTheta c' = P.KTheta c := by
  funext p x
  simp only [CpParams.KTheta, h.phi]

theorem forceSingle : P.forceSingle c' = P.forceSingle c := by
  funext p x
  simp only [CpParams.forceSingle, h.K, h.Kdash1, h.Kdash2]

theorem forceDouble : P.forceDouble c' = P.forceDouble c := by
  funext p x
  simp only [CpParams.forceDouble, h.K]

end SameDerivs

theorem SameDerivs.windingB {Q : FieldProblem} {c c' : List ℝ} (h : SameDerivs Q.cp c c') : Q.windingB c' = Q.windingB c := by
  have hb : ∀ x q, Q.bTerm c' x q = Q.bTerm c x q := fun x q => by simp only [FieldProblem.bTerm, h.K]
  funext x
  simp only [FieldProblem.windingB, FieldProblem.computeB, funext (hb x)]

theorem SameDerivs.bnormal {Q : FieldProblem} {c c' : List ℝ} (h : SameDerivs Q.cp c c') : Q.bnormal c' = Q.bnormal c := by
  simp only [FieldProblem.bnormal, FieldProblem.bnWinding, h.windingB]

theorem SameDerivs.forceAt {Q : FieldProblem} {c c' : List ℝ} (h : SameDerivs Q.cp c c') : Q.forceAt c' = Q.forceAt c := by
  funext i j
  simp only [FieldProblem.forceAt, forceCylOf, forceArrays, h.K, h.forceSingle, h.forceDouble]

/-! ## Sums of squares that do not see one coordinate -/

section
variable {n : ℕ}

theorem sum_update_self (f : Fin n → ℝ) (i0 : Fin n) (h : f i0 = 0) (g : Fin n → ℝ) (hg : ∀ i, i ≠ i0 → f i = g i) :
    ∑ i, f i ≤ ∑ i, g i - g i0 := by
  rw [← Finset.add_sum_erase _ f (Finset.mem_univ i0), ← Finset.add_sum_erase _ g (Finset.mem_univ i0), h]
  have : ∑ x ∈ Finset.univ.erase i0, f x = ∑ x ∈ Finset.univ.erase i0, g x :=
    Finset.sum_congr rfl fun i hi => hg i (Finset.ne_of_mem_erase hi)
  linarith

/-- The terms with the square of one coordinate added. -/
noncomputable def pinned (T : List (ℝ × ((Fin n → ℝ) → ℝ))) (i0 : Fin n) (κ s : ℝ) : List (ℝ × ((Fin n → ℝ) → ℝ)) :=
  (κ, fun x => x i0 - s) :: T

theorem termsSq_pinned (T : List (ℝ × ((Fin n → ℝ) → ℝ))) (i0 : Fin n) (κ s : ℝ) (x : Fin n → ℝ) :
    termsSq (pinned T i0 κ s) x = κ * (x i0 - s) ^ 2 + termsSq T x := by
  simp [termsSq, pinned]

theorem diffSq_pinned (T : List (ℝ × ((Fin n → ℝ) → ℝ))) (i0 : Fin n) (κ s : ℝ) (x y : Fin n → ℝ) :
    diffSq (pinned T i0 κ s) x y = κ * (x i0 - y i0) ^ 2 + diffSq T x y := by
  simp [diffSq, pinned]

theorem pinned_affine {T : List (ℝ × ((Fin n → ℝ) → ℝ))} (hT : ∀ t ∈ T, IsAffineFn t.2) (i0 : Fin n) (κ s : ℝ) :
    ∀ t ∈ pinned T i0 κ s, IsAffineFn t.2 := by
  intro t ht
  rcases List.mem_cons.1 ht with rfl | ht
  · intro x y a
    simp only
    ring
  · exact hT t ht

theorem pinned_nonneg {T : List (ℝ × ((Fin n → ℝ) → ℝ))} (hT : ∀ t ∈ T, 0 ≤ t.1) (i0 : Fin n) {κ : ℝ} (hκ : 0 ≤ κ) (s : ℝ) :
    ∀ t ∈ pinned T i0 κ s, 0 ≤ t.1 := by
  intro t ht
  rcases List.mem_cons.1 ht with rfl | ht
  · exact hκ
  · exact hT t ht

/-- The terms do not depend on the coordinate. -/
def Flat (i0 : Fin n) (f : (Fin n → ℝ) → ℝ) : Prop := ∀ x s, f (Function.update x i0 s) = f x

theorem termsSq_flat {T : List (ℝ × ((Fin n → ℝ) → ℝ))} {i0 : Fin n} (hT : ∀ t ∈ T, Flat i0 t.2) : Flat i0 (termsSq T) := by
  intro x s
  simp only [termsSq]
  congr 1
  exact List.map_congr_left fun t ht => by rw [hT t ht]

theorem diffSq_flat {T : List (ℝ × ((Fin n → ℝ) → ℝ))} {i0 : Fin n} (hT : ∀ t ∈ T, Flat i0 t.2) (x y : Fin n → ℝ) (s : ℝ) :
    diffSq T (Function.update x i0 s) y = diffSq T x y := by
  simp only [diffSq]
  congr 1
  exact List.map_congr_left fun t ht => by rw [hT t ht]

theorem pinned_definite {T : List (ℝ × ((Fin n → ℝ) → ℝ))} (hnn : ∀ t ∈ T, 0 ≤ t.1) {i0 : Fin n}
    (hsep : ∀ x y, diffSq T x y = 0 → ∀ i, i ≠ i0 → x i = y i) {κ : ℝ} (hκ : 0 < κ) (s : ℝ) : Definite (pinned T i0 κ s) := by
  intro x y h
  rw [diffSq_pinned] at h
  have h1 := diffSq_nonneg T hnn x y
  have h2 : 0 ≤ κ * (x i0 - y i0) ^ 2 := by positivity
  have h3 : κ * (x i0 - y i0) ^ 2 = 0 := by linarith
  have h4 : diffSq T x y = 0 := by linarith
  have h5 : x i0 - y i0 = 0 := by
    rcases mul_eq_zero.1 h3 with h | h
    · exact absurd h hκ.ne'
    · exact pow_eq_zero_iff two_ne_zero |>.1 h
  funext i
  by_cases hi : i = i0
  · rw [hi]
    linarith
  · exact hsep x y h4 i hi

/-- Terms that separate points up to one coordinate grow like the distance of the other coordinates. -/
theorem flat_coercive {T : List (ℝ × ((Fin n → ℝ) → ℝ))} (hT : ∀ t ∈ T, IsAffineFn t.2) (hnn : ∀ t ∈ T, 0 ≤ t.1) {i0 : Fin n}
    (hflat : ∀ t ∈ T, Flat i0 t.2) (hsep : ∀ x y, diffSq T x y = 0 → ∀ i, i ≠ i0 → x i = y i) :
    ∃ μ > 0, ∀ x y : Fin n → ℝ, μ * ∑ i, (Function.update x i0 (y i0) i - y i) ^ 2 ≤ diffSq T x y := by
  obtain ⟨μ, hμ, hco⟩ := (pinned_definite hnn hsep one_pos 0).coercive (pinned_affine hT i0 1 0) (pinned_nonneg hnn i0 zero_le_one 0)
  refine ⟨μ, hμ, fun x y => ?_⟩
  have h := hco (Function.update x i0 (y i0)) y
  rw [diffSq_pinned, diffSq_flat hflat] at h
  simpa using h

/-- On a convex set that contains with a point all points that differ in the coordinate, a sum of squares that separates points up to the
coordinate and a convex function that does not see it have minimisers, and these differ in the coordinate only. -/
theorem flat_minimisers {T : List (ℝ × ((Fin n → ℝ) → ℝ))} (hT : ∀ t ∈ T, IsAffineFn t.2) (hnn : ∀ t ∈ T, 0 ≤ t.1) {i0 : Fin n}
    (hflat : ∀ t ∈ T, Flat i0 t.2) (hsep : ∀ x y, diffSq T x y = 0 → ∀ i, i ≠ i0 → x i = y i) {H : (Fin n → ℝ) → ℝ} (hH : ConvexFn H)
    (hH0 : ∀ x, 0 ≤ H x) (hHf : Flat i0 H) {S : Set (Fin n → ℝ)} (hS : SegmentClosed S) (hc : IsClosed S) (hne : S.Nonempty)
    (hSf : ∀ x ∈ S, ∀ s, Function.update x i0 s ∈ S) :
    ∃ x, ∀ z, (z ∈ S ∧ ∀ y ∈ S, termsSq T z + H z ≤ termsSq T y + H y) ↔ ∃ s, z = Function.update x i0 s := by
  obtain ⟨x, ⟨hx, hmin⟩, huniq⟩ := (pinned_definite hnn hsep one_pos 0).exists_unique (pinned_affine hT i0 1 0)
    (pinned_nonneg hnn i0 zero_le_one 0) hH hH0 hS hc hne
  simp only [termsSq_pinned, one_mul, sub_zero] at hmin huniq
  have hmin' : ∀ y ∈ S, termsSq T x + H x ≤ termsSq T y + H y := by
    intro y hy
    have h1 := hmin _ (hSf y hy 0)
    rw [termsSq_flat hflat, hHf] at h1
    simp only [Function.update_self] at h1
    nlinarith [sq_nonneg (x i0)]
  refine ⟨x, fun z => ⟨fun ⟨hz, hzm⟩ => ?_, ?_⟩⟩
  · have h2 := huniq (Function.update z i0 0) ⟨hSf z hz 0, fun y hy => by
      rw [termsSq_flat hflat, hHf]
      simp only [Function.update_self]
      have := hzm y hy
      nlinarith [sq_nonneg (y i0)]⟩
    refine ⟨z i0, ?_⟩
    rw [← h2, Function.update_idem, Function.update_eq_self]
  · rintro ⟨s, rfl⟩
    refine ⟨hSf x hx s, fun y hy => ?_⟩
    rw [termsSq_flat hflat, hHf]
    exact hmin' y hy

/-- A differentiable function that does not see a coordinate has no derivative in its direction. -/
theorem Flat.deriv {F : (Fin n → ℝ) → ℝ} {i0 : Fin n} (h : Flat i0 F) {x : Fin n → ℝ} {D : (Fin n → ℝ) →L[ℝ] ℝ} (hD : HasFDerivAt F D x) :
    D (Pi.single i0 1) = 0 := by
  have h1 : HasDerivAt (fun s : ℝ => Function.update x i0 s) (Pi.single i0 1) (x i0) := by
    rw [hasDerivAt_pi]
    intro i
    by_cases hi : i = i0
    · subst hi
      simp only [Function.update_self, Pi.single_eq_same]
      exact hasDerivAt_id _
    · simp only [Function.update_of_ne hi, Pi.single_eq_of_ne hi]
      exact hasDerivAt_const _ _
  have hD' : HasFDerivAt F D (Function.update x i0 (x i0)) := by rwa [Function.update_eq_self]
  have h2 := hD'.comp_hasDerivAt (x i0) h1
  have h3 : (F ∘ fun s : ℝ => Function.update x i0 s) = fun _ => F x := funext fun s => h x s
  rw [h3] at h2
  exact h2.unique (hasDerivAt_const _ _)

end

end Verif
