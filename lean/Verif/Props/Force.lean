import Verif.Model.Force
import Verif.Lemmas.V3
import Verif.Spec.Rotation
import Mathlib.Algebra.Order.BigOperators.Group.Finset

/-!
# Properties C59, C76: coil force
-/

namespace Verif

open Finset

namespace ForceArrays

variable (A : ForceArrays)

/-- Indices `(fp, p, t)` of all source points. -/
def sources : Finset (ℕ × ℕ × ℕ) := range A.nfp ×ˢ range A.nPhiX ×ˢ range A.nThetaX

/-- The plain summand for one source point: `da/|d| K.S + da (d.n)/|d|^3 K.D` where `d` is the vector from source to
evaluation point. -/
noncomputable def summand (i j : ℕ) (s : ℕ × ℕ × ℕ) : V3 :=
  let d := A.gammaY i j - A.gammaX (s.1 * A.nPhiX + s.2.1) s.2.2
  (A.da s.2.1 s.2.2 / d.norm) • M3.act (A.KCyl i j) (A.singleT s.2.1 s.2.2) +
    (A.da s.2.1 s.2.2 * V3.dot d (A.unitX (s.1 * A.nPhiX + s.2.1) s.2.2) / d.norm ^ 3) •
      M3.act (A.KCyl i j) (A.doubleT s.2.1 s.2.2)

theorem contract_eq (ker : ℕ → ℕ → ℕ → ℝ) (T : ℕ → ℕ → M3) (K : V3) (comp : V3 → ℝ) :
    A.contract ker T K comp = ∑ s ∈ A.sources,
      ker s.1 s.2.1 s.2.2 * (K.x * comp (T s.2.1 s.2.2).r1 + K.y * comp (T s.2.1 s.2.2).r2 + K.z * comp (T s.2.1 s.2.2).r3) := by
  rw [sources, sum_product, contract]
  refine sum_congr rfl fun fp _ => ?_
  rw [sum_product, mul_sum, mul_sum, mul_sum, ← sum_add_distrib, ← sum_add_distrib]
  refine sum_congr rfl fun p _ => ?_
  simp only [mul_sum]
  rw [← sum_add_distrib, ← sum_add_distrib]
  exact sum_congr rfl fun t _ => by ring

theorem sumLegacy_eq (ker : ℕ → ℕ → ℕ → ℝ) (T : ℕ → ℕ → M3) (K : V3) (comp : V3 → ℝ) :
    A.sumLegacy ker T K comp = ∑ s ∈ A.sources,
      (ker s.1 s.2.1 s.2.2 * A.da s.2.1 s.2.2) *
        (K.x * comp (T s.2.1 s.2.2).r1 + K.y * comp (T s.2.1 s.2.2).r2 + K.z * comp (T s.2.1 s.2.2).r3) := by
  rw [sources, sum_product, sumLegacy]
  refine sum_congr rfl fun fp _ => ?_
  rw [sum_product]
  refine sum_congr rfl fun p _ => ?_
  exact sum_congr rfl fun t _ => by ring

end ForceArrays

/-- A component of vectors, as selected by the last array index. -/
def IsComponent (comp : V3 → ℝ) : Prop := comp = V3.x ∨ comp = V3.y ∨ comp = V3.z

theorem IsComponent.act {comp : V3 → ℝ} (h : IsComponent comp) (K : V3) (T : M3) :
    comp (M3.act K T) = K.x * comp T.r1 + K.y * comp T.r2 + K.z * comp T.r3 := by
  rcases h with rfl | rfl | rfl <;> simp [M3.act]

theorem IsComponent.lin {comp : V3 → ℝ} (h : IsComponent comp) (s t : ℝ) (a b : V3) :
    comp (s • a + t • b) = s * comp a + t * comp b := by
  rcases h with rfl | rfl | rfl <;> simp

/-- **C59.** The integral is the sum of the plain summands over all source points except the single one with the indices of
the evaluation point, in the first field period. -/
theorem C59_removes_exactly_the_coincident_source (A : ForceArrays) (i j : ℕ) (hi : i < A.nPhiX) (hj : j < A.nThetaX)
    (hn : 0 < A.nfp) (comp : V3 → ℝ) (hc : IsComponent comp) :
    A.integrateForce i j comp = ∑ s ∈ A.sources.erase (0, i, j), comp (A.summand i j s) ∧
    (0, i, j) ∈ A.sources := by
  have hmem : (0, i, j) ∈ A.sources := by simp [ForceArrays.sources, hi, hj, hn]
  refine ⟨?_, hmem⟩
  rw [ForceArrays.integrateForce, A.contract_eq, A.contract_eq, ← sum_add_distrib, ← sum_erase_add _ _ hmem]
  have h0 : A.singleKernel i j 0 i j = 0 ∧ A.doubleKernel i j 0 i j = 0 := by
    simp [ForceArrays.singleKernel, ForceArrays.doubleKernel, ForceArrays.selfMask]
  rw [h0.1, h0.2, zero_mul, zero_mul, add_zero, add_zero]
  refine sum_congr rfl fun s hs => ?_
  obtain ⟨fp, p, t⟩ := s
  have hne : ¬ ForceArrays.selfMask i j fp p t := by
    rintro ⟨rfl, rfl, rfl⟩
    simp at hs
  have hd : A.dist i j fp p t = (A.gammaY i j - A.gammaX (fp * A.nPhiX + p) t).norm := by
    simp [ForceArrays.dist, hne, V3.norm, ForceArrays.diff]
  simp only [ForceArrays.summand, hc.lin, hc.act, ForceArrays.singleKernel, ForceArrays.doubleKernel, if_neg hne, hd,
    ForceArrays.denom, ForceArrays.diff]

/-- **C59.** For a winding grid with the same number of points in each field period, the sources run through the whole
winding grid, each point once. -/
theorem C59_sources_are_the_grid (P : CpParams) (c : List ℝ) (qphi qtheta ephi etheta : ℕ → ℝ) (nPhi nTheta : ℕ)
    (da : ℕ → ℕ → ℝ) (hn : P.nfp ≠ 0) (hd : P.nfp ∣ nPhi) (g : ℕ → ℕ → ℝ) :
    let A := forceArrays P c qphi qtheta ephi etheta nPhi nTheta da
    ∑ s ∈ A.sources, g (s.1 * A.nPhiX + s.2.1) s.2.2 = ∑ i ∈ range nPhi, ∑ t ∈ range nTheta, g i t := by
  intro A
  obtain ⟨k, rfl⟩ := hd
  have hk : A.nPhiX = k := Nat.mul_div_cancel_left _ (Nat.pos_of_ne_zero hn)
  have hf : A.nfp = P.nfp := rfl
  have ht : A.nThetaX = nTheta := rfl
  rw [ForceArrays.sources, sum_product, hf, hk]
  have split : ∀ (h : ℕ → ℝ) (n : ℕ), ∑ i ∈ range (n * k), h i = ∑ a ∈ range n, ∑ b ∈ range k, h (a * k + b) := by
    intro h n
    induction n with
    | zero => simp
    | succ n ih => rw [Nat.succ_mul, sum_range_add, ih, sum_range_succ]
  rw [split fun i => ∑ t ∈ range nTheta, g i t]
  refine sum_congr rfl fun fp _ => ?_
  rw [sum_product, ht]

/-- Three field periods and six points meet the hypotheses. -/
example : let P : CpParams := ⟨{ nfp := 3, stellsym := true, mpol := 1, ntor := 0 }, [2, 1, 1], 5, 7, 1, 0, true⟩
    P.nfp ≠ 0 ∧ P.nfp ∣ 6 := by decide

/-- **C59.** If the source point with the indices of the evaluation point is the only one at its position, the result is that
of the distance based exclusion. -/
theorem C59_agrees_with_distance_exclusion (A : ForceArrays) (i j : ℕ)
    (hd : ∀ fp p t, fp < A.nfp → p < A.nPhiX → t < A.nThetaX →
      (A.gammaX (fp * A.nPhiX + p) t = A.gammaY i j ↔ fp = 0 ∧ p = i ∧ t = j)) (comp : V3 → ℝ) :
    A.integrateForce i j comp = A.integrateForceLegacy i j comp := by
  rw [ForceArrays.integrateForce, ForceArrays.integrateForceLegacy, A.contract_eq, A.contract_eq, A.sumLegacy_eq,
    A.sumLegacy_eq]
  have key : ∀ s ∈ A.sources, A.singleKernel i j s.1 s.2.1 s.2.2 = A.singleLegacy i j s.1 s.2.1 s.2.2 * A.da s.2.1 s.2.2 ∧
      A.doubleKernel i j s.1 s.2.1 s.2.2 = A.doubleLegacy i j s.1 s.2.1 s.2.2 * A.da s.2.1 s.2.2 := by
    rintro ⟨fp, p, t⟩ hs
    simp only [ForceArrays.sources, mem_product, mem_range] at hs
    have h := hd fp p t hs.1 hs.2.1 hs.2.2
    by_cases hm : ForceArrays.selfMask i j fp p t
    · have hz : A.distLegacy i j fp p t = 0 := by
        have : A.diff i j fp p t = 0 := by
          rw [ForceArrays.diff, h.2 hm]
          ext <;> simp
        simp [ForceArrays.distLegacy, this, V3.norm, V3.normSq]
      simp [ForceArrays.singleKernel, ForceArrays.doubleKernel, ForceArrays.singleLegacy, ForceArrays.doubleLegacy, hm, hz]
    · have hne : A.diff i j fp p t ≠ 0 := by
        intro h0
        apply hm
        apply h.1
        have hx := congrArg V3.x h0
        have hy := congrArg V3.y h0
        have hz := congrArg V3.z h0
        simp only [ForceArrays.diff, V3.sub_x, V3.sub_y, V3.sub_z, V3.zero_x, V3.zero_y, V3.zero_z] at hx hy hz
        ext <;> linarith
      have hp : A.distLegacy i j fp p t ≠ 0 := ((V3.norm_pos_iff _).2 hne).ne'
      have hdist : A.dist i j fp p t = A.distLegacy i j fp p t := by
        simp [ForceArrays.dist, ForceArrays.distLegacy, V3.norm, hm]
      simp only [ForceArrays.singleKernel, ForceArrays.doubleKernel, ForceArrays.singleLegacy, ForceArrays.doubleLegacy,
        if_neg hm, hdist, if_pos hp]
      constructor <;> ring
  congr 1
  · exact sum_congr rfl fun s hs => by rw [(key s hs).1]
  · exact sum_congr rfl fun s hs => by rw [(key s hs).2]

/-- Two source points on the x and y axes, the evaluation point being the first of them. -/
noncomputable def twoPoints : ForceArrays where
  nfp := 1
  nPhiX := 2
  nThetaX := 1
  gammaY := fun _ _ => ⟨1, 0, 0⟩
  gammaX := fun p _ => if p = 0 then ⟨1, 0, 0⟩ else ⟨0, 1, 0⟩
  unitX := fun _ _ => 0
  KCyl := fun _ _ => ⟨1, 0, 0⟩
  da := fun _ _ => 1
  singleT := fun _ _ => ⟨⟨1, 0, 0⟩, 0, 0⟩
  doubleT := fun _ _ => ⟨0, 0, 0⟩

example : (∀ fp p t, fp < twoPoints.nfp → p < twoPoints.nPhiX → t < twoPoints.nThetaX →
    (twoPoints.gammaX (fp * twoPoints.nPhiX + p) t = twoPoints.gammaY 0 0 ↔ fp = 0 ∧ p = 0 ∧ t = 0)) := by
  intro fp p t h1 h2 h3
  simp only [twoPoints] at *
  have : fp = 0 ∧ t = 0 := by omega
  obtain ⟨rfl, rfl⟩ := this
  have : p = 0 ∨ p = 1 := by omega
  rcases this with rfl | rfl
  · simp
  · simp

/-! ## C76 -/

/-- What the force components should be: the Cartesian sum (over one field period) in the cylindrical frame, at toroidal
angle `a`, of the evaluation point. -/
noncomputable def cartesianForce (A : ForceArrays) (KY : ℕ → ℕ → V3) (i j : ℕ) : V3 :=
  ⟨({ A with KCyl := KY } : ForceArrays).integrateForce i j V3.x, ({ A with KCyl := KY } : ForceArrays).integrateForce i j V3.y,
    ({ A with KCyl := KY } : ForceArrays).integrateForce i j V3.z⟩

/-- **C76.** False of the code: with one field period, one evaluation point at angle 0 and a source point at angle 90 degrees,
`_force_cyl` returns 0 for the radial component, while the Cartesian sum has a positive radial component. (`K(y)` is contracted
in the frame of `y` with a tensor in the frame of `x`.) -/
theorem C76_frames_mixed_violated_partial :
    forceCyl twoPoints (fun _ _ => ⟨1, 0, 0⟩) 0 0 V3.x = 0 ∧
    0 < (cylComponents 0 (cartesianForce twoPoints (fun _ _ => ⟨1, 0, 0⟩) 0 0)).x := by
  have n1 : V3.norm ⟨1, 0, 0⟩ = 1 := by simp [V3.norm, V3.normSq]
  have n2 : V3.norm ⟨0, 1, 0⟩ = 1 := by simp [V3.norm, V3.normSq]
  have s2 : 0 < Real.sqrt (1 + 1) := by positivity
  constructor
  · simp only [forceCyl, ForceArrays.integrateForce, ForceArrays.contract, twoPoints, sum_range_succ, sum_range_zero]
    simp [ForceArrays.singleKernel, ForceArrays.doubleKernel, ForceArrays.selfMask, projectCylindrical, projectCoord,
      projectTensor, M3.act, rUnit, phiUnit, zUnit, V3.cross, V3.dot, n1, n2]
  · simp only [cylComponents, cartesianForce, ForceArrays.integrateForce, ForceArrays.contract, twoPoints, sum_range_succ,
      sum_range_zero]
    simp [ForceArrays.singleKernel, ForceArrays.doubleKernel, ForceArrays.selfMask, ForceArrays.dist, ForceArrays.diff,
      V3.normSq, s2]

theorem frame_complete (a : ℝ) (v w : V3) : V3.dot (cylComponents a v) (cylComponents a w) = V3.dot v w := by
  have h := Real.sin_sq_add_cos_sq a
  simp only [V3.dot, cylComponents]
  linear_combination (v.x * w.x + v.y * w.y) * h

/-- **C76 (when it is right).** With one field period and all points in the midplane at the same toroidal angle `a`, the
result is the Cartesian sum in the cylindrical frame of the evaluation point. -/
theorem C76_single_frame_partial (A : ForceArrays) (KY : ℕ → ℕ → V3) (a : ℝ) (RY RX : ℕ → ℕ → ℝ)
    (hy : ∀ i j, 0 < RY i j ∧ A.gammaY i j = ⟨RY i j * Real.cos a, RY i j * Real.sin a, 0⟩)
    (hx : ∀ i j, 0 < RX i j ∧ A.gammaX i j = ⟨RX i j * Real.cos a, RX i j * Real.sin a, 0⟩) (i j : ℕ) :
    (⟨forceCyl A KY i j V3.x, forceCyl A KY i j V3.y, forceCyl A KY i j V3.z⟩ : V3) =
      cylComponents a (cartesianForce A KY i j) := by
  have h := Real.sin_sq_add_cos_sq a
  have hnorm : ∀ R : ℝ, 0 < R → V3.norm ⟨R * Real.cos a, R * Real.sin a, 0⟩ = R := by
    intro R hR
    rw [V3.norm, V3.normSq]
    rw [show (R * Real.cos a) ^ 2 + (R * Real.sin a) ^ 2 + 0 ^ 2 = R ^ 2 by linear_combination R ^ 2 * h]
    exact Real.sqrt_sq hR.le
  have hr : ∀ R : ℝ, 0 < R → rUnit ⟨R * Real.cos a, R * Real.sin a, 0⟩ = ⟨Real.cos a, Real.sin a, 0⟩ ∧
      phiUnit ⟨R * Real.cos a, R * Real.sin a, 0⟩ = ⟨-Real.sin a, Real.cos a, 0⟩ := by
    intro R hR
    have h1 : rUnit ⟨R * Real.cos a, R * Real.sin a, 0⟩ = ⟨Real.cos a, Real.sin a, 0⟩ := by
      simp only [rUnit, hnorm R hR]
      ext <;> simp only <;> field_simp
    refine ⟨h1, ?_⟩
    rw [phiUnit, h1]
    ext <;> simp [V3.cross, zUnit]
  have hp : ∀ (R : ℝ) (v : V3), 0 < R → projectCylindrical ⟨R * Real.cos a, R * Real.sin a, 0⟩ v = cylComponents a v := by
    intro R v hR
    simp only [projectCylindrical, hr R hR, projectCoord, cylComponents, zUnit, V3.dot]
    ext <;> simp only <;> ring
  -- contraction of the projected quantities
  have hT : ∀ (R : ℝ) (K : V3) (T : M3), 0 < R →
      M3.act (cylComponents a K) (projectTensor ⟨R * Real.cos a, R * Real.sin a, 0⟩ T) = cylComponents a (M3.act K T) := by
    intro R K T hR
    simp only [projectTensor, hp R _ hR, (hr R hR).1, (hr R hR).2]
    simp only [M3.act, cylComponents, zUnit]
    ext <;> simp only [V3.add_x, V3.add_y, V3.add_z, V3.smul_x, V3.smul_y, V3.smul_z]
    · linear_combination ((K.x * T.r1.x + K.y * T.r2.x) * Real.cos a + (K.x * T.r1.y + K.y * T.r2.y) * Real.sin a) * h
    · linear_combination ((K.x * T.r1.y + K.y * T.r2.y) * Real.cos a - (K.x * T.r1.x + K.y * T.r2.x) * Real.sin a) * h
    · linear_combination (K.x * T.r1.z + K.y * T.r2.z) * h
  -- the general form of both sides
  have gen : ∀ (B : ForceArrays) (comp : V3 → ℝ), IsComponent comp → B.integrateForce i j comp =
      ∑ s ∈ B.sources, (B.singleKernel i j s.1 s.2.1 s.2.2 * comp (M3.act (B.KCyl i j) (B.singleT s.2.1 s.2.2)) +
        B.doubleKernel i j s.1 s.2.1 s.2.2 * comp (M3.act (B.KCyl i j) (B.doubleT s.2.1 s.2.2))) := by
    intro B comp hc
    rw [ForceArrays.integrateForce, B.contract_eq, B.contract_eq, ← sum_add_distrib]
    exact sum_congr rfl fun s _ => by rw [hc.act, hc.act]
  have hT2 : ∀ (i' j' : ℕ) (K : V3) (T : M3),
      M3.act (cylComponents a K) (projectTensor (A.gammaX i' j') T) = cylComponents a (M3.act K T) := by
    intro i' j' K T
    rw [(hx i' j').2]
    exact hT _ _ _ (hx i' j').1
  have hK : projectCylindrical (A.gammaY i j) (KY i j) = cylComponents a (KY i j) := by
    rw [(hy i j).2]
    exact hp _ _ (hy i j).1
  simp only [forceCyl]
  rw [gen _ _ (Or.inl rfl), gen _ _ (Or.inr (Or.inl rfl)), gen _ _ (Or.inr (Or.inr rfl))]
  simp only [cartesianForce]
  rw [gen _ _ (Or.inl rfl), gen _ _ (Or.inr (Or.inl rfl)), gen _ _ (Or.inr (Or.inr rfl))]
  simp only [hK, hT2]
  have es : ∀ (K' : ℕ → ℕ → V3) (S D : ℕ → ℕ → M3),
      ({ A with KCyl := K', singleT := S, doubleT := D } : ForceArrays).sources = A.sources ∧
      ({ A with KCyl := K', singleT := S, doubleT := D } : ForceArrays).singleKernel = A.singleKernel ∧
      ({ A with KCyl := K', singleT := S, doubleT := D } : ForceArrays).doubleKernel = A.doubleKernel :=
    fun _ _ _ => ⟨rfl, rfl, rfl⟩
  simp only [es]
  ext
  · simp only [cylComponents]
    rw [mul_sum, mul_sum, ← sum_add_distrib]
    exact sum_congr rfl fun s _ => by ring
  · simp only [cylComponents]
    rw [mul_sum, mul_sum, ← sum_add_distrib]
    exact sum_congr rfl fun s _ => by ring
  · simp only [cylComponents]

end Verif
