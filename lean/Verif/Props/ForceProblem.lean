import Verif.Lemmas.ForcePeriod
import Verif.Model.Problem

/-!
# C145: the force quantity of a problem, source by source
-/

namespace Verif

open Finset

/-- The vector with the given components in the frame that the code attaches to the point `g`. -/
noncomputable def frameVector (g u : V3) : V3 := u.x • rUnit g + u.y • phiUnit g + u.z • zUnit

theorem act_projectTensor (g u : V3) (T : M3) : M3.act u (projectTensor g T) = projectCylindrical g (M3.act (frameVector g u) T) := by
  simp only [projectTensor, projectCylindrical, projectCoord, frameVector, M3.act, V3.dot]
  ext <;> simp only [V3.add_x, V3.add_y, V3.add_z, V3.smul_x, V3.smul_y, V3.smul_z] <;> ring

theorem projectCylindrical_comb (g a b : V3) (s t : ℝ) :
    projectCylindrical g (s • a + t • b) = s • projectCylindrical g a + t • projectCylindrical g b := by
  simp only [projectCylindrical, projectCoord, V3.dot]
  ext <;> simp only [V3.add_x, V3.add_y, V3.add_z, V3.smul_x, V3.smul_y, V3.smul_z] <;> ring

/-- A uniform winding grid with `k` points in every field period, evaluated on its first field period. -/
structure FirstPeriod (Q : FieldProblem) (k : ℕ) : Prop where
  nfp : Q.cp.surf.nfp ≠ 0
  wPhis : Q.wPhis = linspace0 1 (Q.cp.surf.nfp * k)
  ePhis : Q.ePhis = Q.wPhis.take k
  eThetas : Q.eThetas = Q.wThetas

namespace FieldProblem

variable (Q : FieldProblem)

/-- The point with indices `p`, `t` of the winding grid. -/
noncomputable def source (p t : ℕ) : V3 := Q.cp.surf.gamma Q.cp.wdofs (Q.wPhis.getD p 0) (Q.wThetas.getD t 0)

/-- The current at the point with indices `p`, `t` of the winding grid. -/
noncomputable def sourceK (c : List ℝ) (p t : ℕ) : V3 := Q.cp.K c (Q.wPhis.getD p 0) (Q.wThetas.getD t 0)

end FieldProblem

variable {Q : FieldProblem} {k : ℕ}

theorem FirstPeriod.getD (h : FirstPeriod Q k) {fp p : ℕ} (hp : p < k) (hf : fp < Q.cp.surf.nfp) :
    Q.wPhis.getD (fp * k + p) 0 = Q.wPhis.getD p 0 + ((fp : ℤ) : ℝ) / Q.cp.surf.nfp := by
  have hk : (k : ℝ) ≠ 0 := by
    have : k ≠ 0 := by omega
    exact_mod_cast this
  have hn : (Q.cp.surf.nfp : ℝ) ≠ 0 := by exact_mod_cast h.nfp
  have h1 : fp * k + p < Q.cp.surf.nfp * k := by nlinarith
  have h2 : p < Q.cp.surf.nfp * k := by nlinarith
  rw [h.wPhis, linspace0]
  simp only [List.getD_eq_getElem?_getD, List.getElem?_map, List.getElem?_range h1, List.getElem?_range h2, Option.map_some, Option.getD_some]
  push_cast
  field_simp
  ring

theorem FirstPeriod.length (h : FirstPeriod Q k) : Q.wPhis.length = Q.cp.surf.nfp * k := by
  rw [h.wPhis, linspace0, List.length_map, List.length_range]

theorem FirstPeriod.eval (h : FirstPeriod Q k) {i : ℕ} (hi : i < k) : Q.ePhis.getD i 0 = Q.wPhis.getD i 0 := by
  rw [h.ePhis]
  simp [List.getD_eq_getElem?_getD, List.getElem?_take, hi]

/-- The contribution of the source with indices `p`, `t` to the force at the point with indices `i`, `j`: the integrand of the Lorentz
force (C87) for a current that has, in the frame of the *source*, the components which the current at the evaluation point has in its own
frame; the result is again given by its components in the frame of the source. -/
noncomputable def forceContribution (Q : FieldProblem) (c : List ℝ) (i j p t : ℕ) : V3 :=
  Q.windingDa p t • projectCylindrical (Q.source p t)
    (forceIntegrand Q.cp c (Q.source i j) (frameVector (Q.source p t) (projectCylindrical (Q.source i j) (Q.sourceK c i j)))
      (Q.wPhis.getD p 0) (Q.wThetas.getD t 0))

theorem windingDa_period (h : FirstPeriod Q k) {fp p : ℕ} (hp : p < k) (hf : fp < Q.cp.surf.nfp) (t : ℕ) :
    Q.windingDa (fp * k + p) t = Q.windingDa p t := by
  rw [FieldProblem.windingDa, FieldProblem.windingDa, h.getD hp hf]
  have := Q.cp.N_field_period h.nfp (Q.wPhis.getD p 0) (Q.wThetas.getD t 0) fp
  show _ * (Q.cp.N _ _).norm = _ * (Q.cp.N _ _).norm
  rw [this, rotZ_norm]

/-- **C145.** With a uniform winding grid, evaluated on its first field period, the force at a grid point is the sum over all other points
of the whole winding surface, each exactly once, of the area element times the integrand of the Lorentz force, in the frames described at
`forceContribution`. The current and its derivatives are computed in the first field period only; the field periods are accounted for
exactly. -/
theorem C145_force_of_a_problem (h : FirstPeriod Q k) (hreg : ∀ p t, Q.cp.N p t ≠ 0) (c : List ℝ) {i j : ℕ} (hi : i < k)
    (hj : j < Q.wThetas.length) {comp : V3 → ℝ} (hc : IsComponent comp) :
    comp (Q.forceAt c i j) = ∑ p ∈ range Q.wPhis.length, ∑ t ∈ range Q.wThetas.length,
      if p = i ∧ t = j then 0 else comp (forceContribution Q c i j p t) := by
  have hn0 : 0 < Q.cp.surf.nfp := Nat.pos_of_ne_zero h.nfp
  set A := forceArrays Q.cp c (fun p => Q.wPhis.getD p 0) (fun t => Q.wThetas.getD t 0)
    (fun p => Q.ePhis.getD p 0) (fun t => Q.eThetas.getD t 0) Q.wPhis.length Q.wThetas.length Q.windingDa with hA
  have hk : A.nPhiX = k := by
    show Q.wPhis.length / Q.cp.surf.nfp = k
    rw [h.length, Nat.mul_div_cancel_left _ hn0]
  have hnf : A.nfp = Q.cp.surf.nfp := rfl
  have hth : A.nThetaX = Q.wThetas.length := rfl
  set B : ForceArrays := { A with
    KCyl := fun i j => projectCylindrical (A.gammaY i j) (Q.cp.K c (Q.ePhis.getD i 0) (Q.eThetas.getD j 0))
    singleT := fun p t => projectTensor (A.gammaX p t) (A.singleT p t)
    doubleT := fun p t => projectTensor (A.gammaX p t) (A.doubleT p t) } with hB
  have hforce : comp (Q.forceAt c i j) = B.integrateForce i j comp := by
    rcases hc with rfl | rfl | rfl <;> rfl
  have hy : B.gammaY i j = Q.source i j := by
    show Q.cp.surf.gamma Q.cp.wdofs (Q.ePhis.getD i 0) (Q.eThetas.getD j 0) = _
    rw [h.eval hi, h.eThetas]
    rfl
  have hK : B.KCyl i j = projectCylindrical (Q.source i j) (Q.sourceK c i j) := by
    show projectCylindrical (B.gammaY i j) (Q.cp.K c (Q.ePhis.getD i 0) (Q.eThetas.getD j 0)) = _
    rw [hy, h.eval hi, h.eThetas]
    rfl
  have hsum : ∀ fp p t, fp < Q.cp.surf.nfp → p < k → B.summand i j (fp, p, t) = forceContribution Q c i j (fp * k + p) t := by
    intro fp p t hf hp
    have hreg0 := hreg (Q.wPhis.getD p 0) (Q.wThetas.getD t 0)
    have hx : B.gammaX (fp * k + p) t = Q.source (fp * k + p) t := rfl
    have hx0 : B.gammaX p t = Q.source p t := rfl
    have hu : B.unitX (fp * k + p) t = Q.cp.unitN (Q.wPhis.getD (fp * k + p) 0) (Q.wThetas.getD t 0) := rfl
    have hrot : Q.source (fp * k + p) t = rotZ (2 * Real.pi * (fp : ℤ) / Q.cp.surf.nfp) (Q.source p t) := by
      rw [FieldProblem.source, h.getD hp hf]
      exact C39_field_period Q.cp.surf h.nfp Q.cp.wdofs 0 0 _ _ _
    have hS : B.singleT p t = projectTensor (Q.source (fp * k + p) t)
        (Q.cp.forceSingle c (Q.wPhis.getD (fp * k + p) 0) (Q.wThetas.getD t 0)) := by
      rw [hrot, h.getD hp hf]
      exact (projectTensor_rotZ _ _ fun k => (Q.cp.force_tensors_field_period h.nfp c fp hreg0 k).1).symm
    have hD : B.doubleT p t = projectTensor (Q.source (fp * k + p) t)
        (Q.cp.forceDouble c (Q.wPhis.getD (fp * k + p) 0) (Q.wThetas.getD t 0)) := by
      rw [hrot, h.getD hp hf]
      exact (projectTensor_rotZ _ _ fun k => (Q.cp.force_tensors_field_period h.nfp c fp hreg0 k).2).symm
    have hda : B.da p t = Q.windingDa (fp * k + p) t := (windingDa_period h hp hf t).symm
    have hkB : B.nPhiX = k := hk
    simp only [ForceArrays.summand, hkB, hy, hx, hu, hS, hD, hda, hK, act_projectTensor, forceContribution, forceIntegrand]
    rw [projectCylindrical_comb]
    have hsrc : Q.cp.surf.gamma Q.cp.wdofs (Q.wPhis.getD (fp * k + p) 0) (Q.wThetas.getD t 0) = Q.source (fp * k + p) t := rfl
    rw [hsrc]
    ext <;> simp only [V3.add_x, V3.add_y, V3.add_z, V3.smul_x, V3.smul_y, V3.smul_z] <;> ring
  have hgrid := C59_sources_are_the_grid Q.cp c (fun p => Q.wPhis.getD p 0) (fun t => Q.wThetas.getD t 0)
    (fun p => Q.ePhis.getD p 0) (fun t => Q.eThetas.getD t 0) Q.wPhis.length Q.wThetas.length Q.windingDa h.nfp
    ⟨k, h.length⟩ (fun p t => if p = i ∧ t = j then 0 else comp (forceContribution Q c i j p t))
  simp only at hgrid
  rw [← hA, hk] at hgrid
  have hsB : B.sources = A.sources := rfl
  rw [hforce, (C59_removes_exactly_the_coincident_source B i j (by rw [show B.nPhiX = k from hk]; exact hi) hj hn0 comp hc).1, ← hgrid]
  rw [← sum_erase (s := A.sources) (a := (0, i, j)) (f := fun s => if s.1 * k + s.2.1 = i ∧ s.2.2 = j then 0
    else comp (forceContribution Q c i j (s.1 * k + s.2.1) s.2.2)) (by simp), hsB]
  refine sum_congr rfl fun s hs => ?_
  obtain ⟨fp, p, t⟩ := s
  simp only [ForceArrays.sources, mem_erase, mem_product, mem_range, hk, hnf, hth, ne_eq, Prod.mk.injEq] at hs
  obtain ⟨hne, hf, hp, ht⟩ := hs
  have hself : ¬ (fp * k + p = i ∧ t = j) := by
    rintro ⟨e, rfl⟩
    have : fp = 0 := by
      by_contra hfp
      have : k ≤ fp * k := Nat.le_mul_of_pos_left k (Nat.pos_of_ne_zero hfp)
      omega
    subst this
    exact hne ⟨rfl, by omega, rfl⟩
  rw [hsum fp p t hf hp, if_neg hself]

end Verif
