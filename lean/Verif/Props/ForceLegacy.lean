import Verif.Model.ForceLegacy
import Verif.Props.ForceWitness

/-!
# The earlier force routine agrees with the present one (C168)
-/

namespace Verif

open Finset

/-- Different points of the winding grid are different points of space. -/
def DistinctPoints (Q : FieldProblem) : Prop :=
  ∀ p t p' t', p < Q.wPhis.length → t < Q.wThetas.length → p' < Q.wPhis.length → t' < Q.wThetas.length →
    Q.source p t = Q.source p' t' → p = p' ∧ t = t'

variable {Q : FieldProblem} {k : ℕ}

/-- **C168.** With a uniform winding grid that is evaluated on its first field period, and without two grid points at one place, the
present routine and the earlier one compute the same force at every evaluation point. -/
theorem C168_legacy_force (h : FirstPeriod Q k) (hd : DistinctPoints Q) (c : List ℝ) {i j : ℕ} (hi : i < k)
    (hj : j < Q.wThetas.length) : Q.forceLegacyAt c i j = Q.forceAt c i j := by
  have hn0 : 0 < Q.cp.surf.nfp := Nat.pos_of_ne_zero h.nfp
  have hkx : Q.wPhis.length / Q.cp.surf.nfp = k := by rw [h.length, Nat.mul_div_cancel_left _ hn0]
  have key : ∀ comp : V3 → ℝ,
      forceCylLegacy (forceArrays Q.cp c (fun p => Q.wPhis.getD p 0) (fun t => Q.wThetas.getD t 0) (fun p => Q.wPhis.getD p 0)
        (fun t => Q.wThetas.getD t 0) Q.wPhis.length Q.wThetas.length Q.windingDa)
        (fun i j => Q.cp.K c (Q.wPhis.getD i 0) (Q.wThetas.getD j 0)) i j comp =
      forceCylOf Q.cp c (fun p => Q.wPhis.getD p 0) (fun t => Q.wThetas.getD t 0) (fun p => Q.ePhis.getD p 0)
        (fun t => Q.eThetas.getD t 0) Q.wPhis.length Q.wThetas.length Q.windingDa i j comp := by
    intro comp
    rw [forceCylLegacy, forceCylOf, forceCyl, ← C59_agrees_with_distance_exclusion]
    · simp only [ForceArrays.integrateForce, ForceArrays.contract, ForceArrays.singleKernel, ForceArrays.doubleKernel,
        ForceArrays.dist, ForceArrays.denom, ForceArrays.diff, forceArrays, h.eval hi, h.eThetas]
    · intro fp p t hf hp ht
      have hp' : p < k := hkx ▸ hp
      have hlen : fp * k + p < Q.wPhis.length := by
        rw [h.length]
        have : fp < Q.cp.surf.nfp := hf
        nlinarith
      have hilen : i < Q.wPhis.length := by rw [h.length]; nlinarith
      show Q.source (fp * (Q.wPhis.length / Q.cp.surf.nfp) + p) t = Q.source i j ↔ _
      rw [hkx]
      constructor
      · intro e
        obtain ⟨e1, rfl⟩ := hd _ _ _ _ hlen ht hilen hj e
        have : fp = 0 := by
          by_contra hfp
          have : k ≤ fp * k := Nat.le_mul_of_pos_left k (Nat.pos_of_ne_zero hfp)
          omega
        subst this
        exact ⟨rfl, by omega, rfl⟩
      · rintro ⟨rfl, rfl, rfl⟩
        simp
  exact V3.ext (key V3.x) (key V3.y) (key V3.z)

open Classical in
/-- **C168.** The earlier routine, too, is the sum over all other points of the whole winding surface, each exactly once, of the area
element times the integrand of the Lorentz force (in the frames described at `forceContribution`). -/
theorem C168_legacy_sum (h : FirstPeriod Q k) (hd : DistinctPoints Q) (hreg : ∀ p t, Q.cp.N p t ≠ 0) (c : List ℝ) {i j : ℕ}
    (hi : i < k) (hj : j < Q.wThetas.length) {comp : V3 → ℝ} (hc : IsComponent comp) :
    comp (Q.forceLegacyAt c i j) = ∑ p ∈ range Q.wPhis.length, ∑ t ∈ range Q.wThetas.length,
      if Q.source p t = Q.source i j then 0 else comp (forceContribution Q c i j p t) := by
  rw [C168_legacy_force h hd c hi hj, C145_force_of_a_problem h hreg c hi hj hc]
  refine sum_congr rfl fun p hp => sum_congr rfl fun t ht => ?_
  have hilen : i < Q.wPhis.length := by
    have := Nat.pos_of_ne_zero h.nfp
    rw [h.length]; nlinarith
  by_cases e : p = i ∧ t = j
  · rw [if_pos e, if_pos (by rw [e.1, e.2])]
  · rw [if_neg e, if_neg fun e' => e (hd _ _ _ _ (mem_range.1 hp) (mem_range.1 ht) hilen hj e')]

theorem twoPeriod_distinct : DistinctPoints twoPeriodProblem := by
  obtain ⟨-, -, -, -, -, g0⟩ := twoPeriod_derivs
  obtain ⟨-, -, -, -, -, g1⟩ := twoPeriod_derivs'
  obtain ⟨og0, -, -, -, -⟩ := twoPeriod_opposite 0
  obtain ⟨og1, -, -, -, -⟩ := twoPeriod_opposite (1 / 2)
  obtain ⟨gp, gt⟩ := twoPeriod_grid
  simp only [g0, neg_zero] at og0
  simp only [g1, neg_zero] at og1
  have s00 : (twoPeriodProblem.source 0 0).x = 3 := by rw [FieldProblem.source, gp, gt]; exact congrArg V3.x g0
  have s01 : (twoPeriodProblem.source 0 1).x = 1 := by rw [FieldProblem.source, gp, gt]; exact congrArg V3.x g1
  have s10 : (twoPeriodProblem.source 1 0).x = -3 := by rw [FieldProblem.source, gp, gt]; exact congrArg V3.x og0
  have s11 : (twoPeriodProblem.source 1 1).x = -1 := by rw [FieldProblem.source, gp, gt]; exact congrArg V3.x og1
  intro p t p' t' hp ht hp' ht' e
  have e := congrArg V3.x e
  rw [gp] at hp hp'
  rw [gt] at ht ht'
  simp only [List.length_cons, List.length_nil, zero_add, Nat.reduceAdd] at hp hp' ht ht'
  interval_cases p <;> interval_cases t <;> interval_cases p' <;> interval_cases t' <;>
    simp only [s00, s01, s10, s11] at e <;> first | exact ⟨rfl, rfl⟩ | norm_num at e

/-- The torus with two field periods meets the hypotheses; the earlier routine reports the same (wrong, C145) radial force. -/
example : FirstPeriod twoPeriodProblem 1 ∧ DistinctPoints twoPeriodProblem ∧
    (twoPeriodProblem.forceLegacyAt [0] 0 0).x = 3275e-7 / 1728 := by
  refine ⟨twoPeriod_first, twoPeriod_distinct, ?_⟩
  rw [C168_legacy_force twoPeriod_first twoPeriod_distinct [0] (by norm_num) (by rw [twoPeriod_grid.2]; simp)]
  exact C145_force_frame_violated_partial.1

end Verif
