import Verif.Lemmas.Origin

/-!
# The force of a moved problem
-/

namespace Verif

open Real CpParams

/-- The force depends on the positions only through distances and the double layer denominators. -/
theorem integrateForce_congr {A B : ForceArrays} {i j : ℕ} (comp : V3 → ℝ) (hn : B.nfp = A.nfp) (hp : B.nPhiX = A.nPhiX)
    (ht : B.nThetaX = A.nThetaX) (hK : B.KCyl i j = A.KCyl i j) (hda : ∀ p < A.nPhiX, ∀ t < A.nThetaX, B.da p t = A.da p t)
    (hs : ∀ p < A.nPhiX, ∀ t < A.nThetaX, B.singleT p t = A.singleT p t)
    (hd : ∀ p < A.nPhiX, ∀ t < A.nThetaX, B.doubleT p t = A.doubleT p t)
    (hr : ∀ fp < A.nfp, ∀ p < A.nPhiX, ∀ t < A.nThetaX, (B.diff i j fp p t).normSq = (A.diff i j fp p t).normSq)
    (hden : ∀ fp < A.nfp, ∀ p < A.nPhiX, ∀ t < A.nThetaX, B.denom i j fp p t = A.denom i j fp p t) :
    B.integrateForce i j comp = A.integrateForce i j comp := by
  have h1 : ∀ fp < A.nfp, ∀ p < A.nPhiX, ∀ t < A.nThetaX, B.singleKernel i j fp p t = A.singleKernel i j fp p t := by
    intro fp hfp p hp t ht
    rw [ForceArrays.singleKernel, ForceArrays.singleKernel, ForceArrays.dist, ForceArrays.dist, hr fp hfp p hp t ht, hda p hp t ht]
  have h2 : ∀ fp < A.nfp, ∀ p < A.nPhiX, ∀ t < A.nThetaX, B.doubleKernel i j fp p t = A.doubleKernel i j fp p t := by
    intro fp hfp p hp t ht
    rw [ForceArrays.doubleKernel, ForceArrays.doubleKernel, ForceArrays.dist, ForceArrays.dist, hr fp hfp p hp t ht, hda p hp t ht,
      hden fp hfp p hp t ht]
  rw [ForceArrays.integrateForce, ForceArrays.integrateForce, ForceArrays.contract, ForceArrays.contract, ForceArrays.contract,
    ForceArrays.contract, hn, hp, ht, hK]
  congr 1
  · refine Finset.sum_congr rfl fun fp hfp => ?_
    rw [Finset.mem_range] at hfp
    congr 1
    · congr 1
      · congr 1
        refine Finset.sum_congr rfl fun p hp => Finset.sum_congr rfl fun t ht => ?_
        rw [Finset.mem_range] at hp ht
        rw [h1 fp hfp p hp t ht, hs p hp t ht]
      · congr 1
        refine Finset.sum_congr rfl fun p hp => Finset.sum_congr rfl fun t ht => ?_
        rw [Finset.mem_range] at hp ht
        rw [h1 fp hfp p hp t ht, hs p hp t ht]
    · congr 1
      refine Finset.sum_congr rfl fun p hp => Finset.sum_congr rfl fun t ht => ?_
      rw [Finset.mem_range] at hp ht
      rw [h1 fp hfp p hp t ht, hs p hp t ht]
  · refine Finset.sum_congr rfl fun fp hfp => ?_
    rw [Finset.mem_range] at hfp
    congr 1
    · congr 1
      · congr 1
        refine Finset.sum_congr rfl fun p hp => Finset.sum_congr rfl fun t ht => ?_
        rw [Finset.mem_range] at hp ht
        rw [h2 fp hfp p hp t ht, hd p hp t ht]
      · congr 1
        refine Finset.sum_congr rfl fun p hp => Finset.sum_congr rfl fun t ht => ?_
        rw [Finset.mem_range] at hp ht
        rw [h2 fp hfp p hp t ht, hd p hp t ht]
    · congr 1
      refine Finset.sum_congr rfl fun p hp => Finset.sum_congr rfl fun t ht => ?_
      rw [Finset.mem_range] at hp ht
      rw [h2 fp hfp p hp t ht, hd p hp t ht]

theorem getD_shift (l : List ℝ) (s : ℝ) {p : ℕ} (hp : p < l.length) : (l.map fun x => x + s).getD p 0 = l.getD p 0 + s := by
  simp [List.getD_eq_getElem?_getD, hp]

theorem period_index {n nfp fp p : ℕ} (hfp : fp < nfp) (hp : p < n / nfp) : fp * (n / nfp) + p < n := by
  have h1 : (fp + 1) * (n / nfp) ≤ nfp * (n / nfp) := Nat.mul_le_mul_right _ hfp
  have h2 : nfp * (n / nfp) ≤ n := Nat.mul_div_le n nfp
  calc fp * (n / nfp) + p < fp * (n / nfp) + n / nfp := by omega
    _ = (fp + 1) * (n / nfp) := by ring
    _ ≤ n := h1.trans h2

theorem MovedProblem.windingDa {s t : ℝ} {Q Q' : FieldProblem} (h : MovedProblem s t Q Q') {p x : ℕ} (hp : p < Q.wPhis.length)
    (hx : x < Q.wThetas.length) : Q'.windingDa p x = Q.windingDa p x := by
  have hP : Q'.wPhis = Q.wPhis.map fun p => p + s := h.winding.phis
  have hT : Q'.wThetas = Q.wThetas.map fun p => p + t := h.winding.thetas
  have hN := h.winding.normal
  simp only [FieldProblem.winding] at hN
  rw [FieldProblem.windingDa, FieldProblem.windingDa, hP, hT, gridStep_shift, gridStep_shift, getD_shift _ _ hp, getD_shift _ _ hx, hN,
    rotZ_norm]

theorem MovedProblem.forceAt {s t : ℝ} {Q Q' : FieldProblem} (h : MovedProblem s t Q Q') {c c' : List ℝ}
    (k : MovedOps s t Q.cp Q'.cp c c') {i j : ℕ} (hi : i < Q.ePhis.length) (hj : j < Q.eThetas.length) :
    Q'.forceAt c' i j = Q.forceAt c i j := by
  have hw : Q'.wPhis = Q.wPhis.map fun p => p + s := h.winding.phis
  have hT : Q'.wThetas = Q.wThetas.map fun p => p + t := h.winding.thetas
  have he : Q'.ePhis = Q.ePhis.map fun p => p + s := h.eval.phis
  have hE : Q'.eThetas = Q.eThetas.map fun p => p + t := h.eval.thetas
  have hnf : Q'.cp.nfp = Q.cp.nfp := h.nfp
  have hg : ∀ p x, Q'.cp.surf.gamma Q'.cp.wdofs (p + s) (x + t) = rotZ (2 * π * s) (Q.cp.surf.gamma Q.cp.wdofs p x) := h.winding.point
  have lw : Q'.wPhis.length = Q.wPhis.length := by rw [hw, List.length_map]
  have lT : Q'.wThetas.length = Q.wThetas.length := by rw [hT, List.length_map]
  have ph : ∀ p, p < Q.wPhis.length → Q'.wPhis.getD p 0 = Q.wPhis.getD p 0 + s := fun p hp => by rw [hw, getD_shift _ _ hp]
  have th : ∀ p, p < Q.wThetas.length → Q'.wThetas.getD p 0 = Q.wThetas.getD p 0 + t := fun p hp => by rw [hT, getD_shift _ _ hp]
  have eph : Q'.ePhis.getD i 0 = Q.ePhis.getD i 0 + s := by rw [he, getD_shift _ _ hi]
  have eth : Q'.eThetas.getD j 0 = Q.eThetas.getD j 0 + t := by rw [hE, getD_shift _ _ hj]
  have hle : Q.wPhis.length / Q.cp.nfp ≤ Q.wPhis.length := Nat.div_le_self _ _
  have key : ∀ comp : V3 → ℝ,
      forceCylOf Q'.cp c' (fun p => Q'.wPhis.getD p 0) (fun t => Q'.wThetas.getD t 0) (fun p => Q'.ePhis.getD p 0)
        (fun t => Q'.eThetas.getD t 0) Q'.wPhis.length Q'.wThetas.length Q'.windingDa i j comp =
      forceCylOf Q.cp c (fun p => Q.wPhis.getD p 0) (fun t => Q.wThetas.getD t 0) (fun p => Q.ePhis.getD p 0)
        (fun t => Q.eThetas.getD t 0) Q.wPhis.length Q.wThetas.length Q.windingDa i j comp := by
    intro comp
    rw [lw, lT, forceCylOf, forceCylOf, forceCyl, forceCyl]
    have hdiff : ∀ fp < Q.cp.nfp, ∀ p < Q.wPhis.length / Q.cp.nfp, ∀ x < Q.wThetas.length,
        Q'.cp.surf.gamma Q'.cp.wdofs (Q'.ePhis.getD i 0) (Q'.eThetas.getD j 0) -
          Q'.cp.surf.gamma Q'.cp.wdofs (Q'.wPhis.getD (fp * (Q.wPhis.length / Q.cp.nfp) + p) 0) (Q'.wThetas.getD x 0) =
        rotZ (2 * π * s) (Q.cp.surf.gamma Q.cp.wdofs (Q.ePhis.getD i 0) (Q.eThetas.getD j 0) -
          Q.cp.surf.gamma Q.cp.wdofs (Q.wPhis.getD (fp * (Q.wPhis.length / Q.cp.nfp) + p) 0) (Q.wThetas.getD x 0)) := by
      intro fp hfp p hp x hx
      rw [eph, eth, ph _ (period_index hfp hp), th x hx, hg, hg, rotZ_sub]
    refine integrateForce_congr comp hnf ?_ rfl ?_ ?_ ?_ ?_ ?_ ?_
    · simp only [forceArrays, hnf]
    · simp only [forceArrays]
      rw [eph, eth, hg, h.cp.K k, C32_rotation_invariant]
    · intro p hp x hx
      exact h.windingDa (lt_of_lt_of_le hp hle) hx
    · intro p hp x hx
      simp only [forceArrays]
      rw [ph p (lt_of_lt_of_le hp hle), th x hx, hg]
      exact projectTensor_rotZ _ _ fun v => (h.cp.forceTensors k _ _ v).1
    · intro p hp x hx
      simp only [forceArrays]
      rw [ph p (lt_of_lt_of_le hp hle), th x hx, hg]
      exact projectTensor_rotZ _ _ fun v => (h.cp.forceTensors k _ _ v).2
    · intro fp hfp p hp x hx
      simp only [ForceArrays.diff, forceArrays, hnf]
      rw [hdiff fp hfp p hp x hx, rotZ_normSq]
    · intro fp hfp p hp x hx
      simp only [ForceArrays.denom, ForceArrays.diff, forceArrays, hnf]
      have hix : fp * (Q.wPhis.length / Q.cp.nfp) + p < Q.wPhis.length := period_index hfp hp
      rw [hdiff fp hfp p hp x hx, ph _ hix, th x hx, h.cp.unitN, rotZ_dot]
  rw [FieldProblem.forceAt, FieldProblem.forceAt]
  simp only [key]

end Verif
