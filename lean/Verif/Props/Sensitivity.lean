import Verif.Lemmas.SmoothProblem
import Verif.Lemmas.StrictQuadratic
import Verif.Props.WellPosed

/-!
# C151: how the best potential depends on the inputs

The best potential is a differentiable function of all inputs, and the gradients computed by the code are the derivatives along the best
potentials.
-/

namespace Verif

open Filter Topology

/-- The objective of a call with objectives `f_B` and `f_K` of weights `w₁`, `w₂` and the units `None`. -/
noncomputable def weightedRelative (w₁ w₂ : ℝ) (Q : FieldProblem) (c : List ℝ) : ℝ :=
  w₁ * (Q.fB c / Q.fB (List.replicate c.length 0)) + w₂ * (Q.fK c / Q.fK (List.replicate c.length 0))

section
variable {E D : Type} [NormedAddCommGroup E] [NormedSpace ℝ E] [NormedAddCommGroup D] [NormedSpace ℝ D] {n : WithTop ℕ∞}

theorem SmoothList.comp {l : E → List ℝ} {g : D → E} {d0 : D} (h : SmoothList n l (g d0)) (hg : ContDiffAt ℝ n g d0) :
    SmoothList n (fun d => l (g d)) d0 := by
  obtain ⟨fs, hl, hf⟩ := h
  refine ⟨fs.map fun f d => f (g d), fun d => ?_, fun f hf' => ?_⟩
  · simp only [hl, List.map_map]
    rfl
  · obtain ⟨f', h', rfl⟩ := List.mem_map.1 hf'
    exact ContDiffAt.comp d0 (hf f' h') hg

theorem SmoothFamily.comp {Q : E → FieldProblem} {g : D → E} {d0 : D} (h : SmoothFamily n Q (g d0)) (hg : ContDiffAt ℝ n g d0) :
    SmoothFamily n (fun d => Q (g d)) d0 where
  surf _ := h.surf _
  mpol _ := h.mpol _
  ntor _ := h.ntor _
  stellsym _ := h.stellsym _
  wPhis _ := h.wPhis _
  wThetas _ := h.wThetas _
  ePhis _ := h.ePhis _
  eThetas _ := h.eThetas _
  shape _ := h.shape _
  phis _ := h.phis _
  thetas _ := h.thetas _
  G := ContDiffAt.comp (g := fun e => (Q e).cp.G) d0 h.G hg
  I := ContDiffAt.comp (g := fun e => (Q e).cp.I) d0 h.I hg
  wdofs := h.wdofs.comp hg
  pdofs := h.pdofs.comp hg
  bPlasma := h.bPlasma.comp hg

theorem smoothList_ofFn {L : ℕ} {f : D → Fin L → ℝ} {d0 : D} (h : ContDiffAt ℝ n f d0) : SmoothList n (fun d => List.ofFn (f d)) d0 := by
  refine ⟨List.ofFn fun i d => f d i, fun d => ?_, fun g hg => ?_⟩
  · rw [List.map_ofFn]
    rfl
  · obtain ⟨i, rfl⟩ := (List.mem_ofFn' _ _).1 hg
    exact contDiffAt_pi.1 h i

end

theorem eventually_list {Y β : Type} [TopologicalSpace Y] {y0 : Y} (l : List β) {p : Y → β → Prop} (h : ∀ b ∈ l, ∀ᶠ y in 𝓝 y0, p y b) :
    ∀ᶠ y in 𝓝 y0, ∀ b ∈ l, p y b := by
  induction l with
  | nil => exact Eventually.of_forall fun y b hb => by cases hb
  | cons b l ih =>
    filter_upwards [h b List.mem_cons_self, ih fun c hc => h c (List.mem_cons_of_mem _ hc)] with y h1 h2 c hc
    rcases List.mem_cons.1 hc with rfl | hc
    · exact h1
    · exact h2 c hc

theorem regTerms_definite {Q : FieldProblem} {A B : ℕ} (R : Resolved Q A B) {w : ℝ} (hw : 0 < w) :
    Definite (regTerms Q w (cpNdofs Q.cp.stellsym Q.cp.mpol Q.cp.ntor).1) := by
  intro x y h
  refine (R.definite hw).1 x y ?_
  have hn := regTerms_nonneg Q w (cpNdofs Q.cp.stellsym Q.cp.mpol Q.cp.ntor).1 hw.le R.plasma R.eval_nonneg
  refine List.sum_eq_zero fun z hz => ?_
  obtain ⟨t, ht, rfl⟩ := List.mem_map.1 hz
  have hall : ∀ z ∈ (regTerms Q w (cpNdofs Q.cp.stellsym Q.cp.mpol Q.cp.ntor).1).map fun t => t.1 * (t.2 x - t.2 y) ^ 2, 0 ≤ z := by
    intro z hz
    obtain ⟨t, ht, rfl⟩ := List.mem_map.1 hz
    exact mul_nonneg (hn t ht) (sq_nonneg _)
  exact (List.all_zero_of_le_zero_le_of_sum_eq_zero hall h) (List.mem_map.2 ⟨t, kTerms_subset _ _ _ t ht, rfl⟩)

theorem termsSq_differentiable {L : ℕ} (T : List (ℝ × ((Fin L → ℝ) → ℝ))) (hf : ∀ t ∈ T, IsAffineFn t.2) : Differentiable ℝ (termsSq T) := by
  induction T with
  | nil =>
    have e : termsSq ([] : List (ℝ × ((Fin L → ℝ) → ℝ))) = fun _ => 0 := by
      funext x
      simp [termsSq]
    rw [e]
    exact differentiable_const _
  | cons t T ih =>
    have h := ih fun t ht => hf t (by simp [ht])
    obtain ⟨S, hS⟩ := (hf t (by simp)).linear
    have h0 : Differentiable ℝ t.2 := by
      rw [funext hS]
      exact (LinearMap.toContinuousLinearMap S).differentiable.add_const _
    have e : termsSq (t :: T) = fun x => t.1 * t.2 x ^ 2 + termsSq T x := by
      funext x
      simp [termsSq]
    rw [e]
    exact ((h0.pow 2).const_mul _).add h

/-- With positive weights and units the objective is a strictly convex quadratic function of the scaled unknowns. -/
theorem weightedRelative_strict {Q : FieldProblem} {A B L : ℕ} (R : Resolved Q A B) (hL : L = (cpNdofs Q.cp.stellsym Q.cp.mpol Q.cp.ntor).1)
    {w₁ w₂ u : ℝ} (h1 : 0 < w₁) (h2 : 0 < w₂) (hu : u ≠ 0) (hB : 0 < Q.fB (List.replicate L 0)) (hK : 0 < Q.fK (List.replicate L 0)) :
    (StrictQuadratic fun x : Fin L → ℝ => weightedRelative w₁ w₂ Q (List.ofFn (u • x))) ∧
      (Differentiable ℝ fun x : Fin L → ℝ => weightedRelative w₁ w₂ Q (List.ofFn (u • x))) ∧
      ∃ c, IsBest (weightedRelative w₁ w₂ Q) L c := by
  subst hL
  set b := Q.fB (List.replicate _ 0) with hb
  set k := Q.fK (List.replicate _ 0) with hk
  have hw : 0 < w₂ * b / (w₁ * k) := by positivity
  have e : ∀ c : List ℝ, c.length = (cpNdofs Q.cp.stellsym Q.cp.mpol Q.cp.ntor).1 →
      weightedRelative w₁ w₂ Q c = w₁ / b * regObjective Q (w₂ * b / (w₁ * k)) c := by
    intro c hc
    simp only [weightedRelative, regObjective, hc]
    rw [← hb, ← hk]
    field_simp
  have e' : (fun x : Fin (cpNdofs Q.cp.stellsym Q.cp.mpol Q.cp.ntor).1 → ℝ => weightedRelative w₁ w₂ Q (List.ofFn (u • x))) =
      fun x => w₁ / b * termsSq (regTerms Q (w₂ * b / (w₁ * k)) _) (u • x) := by
    funext x
    rw [e _ (by simp), regObjective_eq]
    rfl
  have haff := regTerms_affine Q (w₂ * b / (w₁ * k)) (cpNdofs Q.cp.stellsym Q.cp.mpol Q.cp.ntor).1
  rw [e']
  refine ⟨?_, ?_, ?_⟩
  · exact ((termsSq_strict _ haff (regTerms_nonneg _ _ _ hw.le R.plasma R.eval_nonneg) (regTerms_definite R hw)).scale hu).mul (by positivity)
  · exact ((termsSq_differentiable _ haff).comp (differentiable_id.const_smul u)).const_mul _
  · obtain ⟨c, hc, hmin⟩ := C113_minimiser_exists Q _ hw.le (cpNdofs Q.cp.stellsym Q.cp.mpol Q.cp.ntor).1 R.plasma R.eval_nonneg
    refine ⟨c, hc, fun d hd => ?_⟩
    rw [e c hc, e d hd]
    exact mul_le_mul_of_nonneg_left (hmin d hd) (by positivity)

/-- What is required of the problem at which gradients are taken. -/
structure SmoothInputs {Y : Type} [NormedAddCommGroup Y] [NormedSpace ℝ Y] (Q : Y → FieldProblem) (w₁ w₂ : Y → ℝ) (y0 : Y) (A B L : ℕ) : Prop where
  family : SmoothFamily 2 Q y0
  regular : RegularProblem (Q y0)
  resolved : Resolved (Q y0) A B
  ndofs : L = (cpNdofs (Q y0).cp.stellsym (Q y0).cp.mpol (Q y0).cp.ntor).1
  smooth₁ : ContDiffAt ℝ 2 w₁ y0
  smooth₂ : ContDiffAt ℝ 2 w₂ y0
  pos₁ : 0 < w₁ y0
  pos₂ : 0 < w₂ y0
  unitB : 0 < (Q y0).fB (List.replicate L 0)
  unitK : 0 < (Q y0).fK (List.replicate L 0)

section
variable {Y : Type} [NormedAddCommGroup Y] [NormedSpace ℝ Y] {Q : Y → FieldProblem} {w₁ w₂ : Y → ℝ} {y0 : Y} {A B L : ℕ}

/-- The same resolution and symmetry for nearby inputs. -/
theorem SmoothFamily.resolved (h : SmoothFamily 2 Q y0) (R : Resolved (Q y0) A B) : ∀ᶠ y in 𝓝 y0, Resolved (Q y) A B := by
  have hreg : ∀ᶠ y in 𝓝 y0, ∀ q ∈ periodGrid (Q y0).cp A B, (Q y).cp.N q.1 q.2 ≠ 0 :=
    eventually_list _ fun q hq => (h.N q.1 q.2).continuousAt (R.regular q hq)
  filter_upwards [hreg] with y hy
  refine ⟨⟨?_, R.two_le_A, R.two_le_B, ?_, ?_, ?_, ?_, ?_, ?_⟩, ?_⟩
  · rw [h.surf]
    exact R.nfp
  · rw [h.ntor]
    exact R.ntor
  · rw [h.mpol]
    exact R.mpol
  · rw [h.ePhis, h.surf]
    exact R.ePhis
  · rw [h.eThetas]
    exact R.eThetas
  · rw [periodGrid, h.surf]
    exact hy
  · rw [h.phis, h.thetas]
    exact R.plasma
  · rw [h.stellsym]
    exact R.stellsym

theorem SmoothInputs.near (h : SmoothInputs Q w₁ w₂ y0 A B L) : ∀ᶠ y in 𝓝 y0, Resolved (Q y) A B ∧ 0 < w₁ y ∧ 0 < w₂ y ∧
    0 < (Q y).fB (List.replicate L 0) ∧ 0 < (Q y).fK (List.replicate L 0) := by
  have hc : SmoothList 2 (fun _ : Y => List.replicate L (0 : ℝ)) y0 := SmoothList.const _
  filter_upwards [h.family.resolved h.resolved, h.smooth₁.continuousAt.eventually_const_lt h.pos₁,
    h.smooth₂.continuousAt.eventually_const_lt h.pos₂,
    (h.family.fB h.regular hc).continuousAt.eventually_const_lt h.unitB,
    (h.family.fK hc h.regular.eval).continuousAt.eventually_const_lt h.unitK] with y h1 h2 h3 h4 h5
  exact ⟨h1, h2, h3, h4, h5⟩

theorem SmoothInputs.length (h : SmoothInputs Q w₁ w₂ y0 A B L) (y : Y) :
    L = (cpNdofs (Q y).cp.stellsym (Q y).cp.mpol (Q y).cp.ntor).1 := by
  rw [h.family.stellsym, h.family.mpol, h.family.ntor]
  exact h.ndofs

/-- The objective as a function of the scaled unknowns and the inputs. -/
noncomputable def scaledObjective (Q : Y → FieldProblem) (w₁ w₂ : Y → ℝ) (u : ℝ) (x : Fin L → ℝ) (y : Y) : ℝ :=
  weightedRelative (w₁ y) (w₂ y) (Q y) (List.ofFn (u • x))

/-- A metric as a function of the scaled unknowns and the inputs. -/
noncomputable def scaledMetric (Q : Y → FieldProblem) (m : FieldProblem → List ℝ → ℝ) (u : ℝ) (x : Fin L → ℝ) (y : Y) : ℝ :=
  m (Q y) (List.ofFn (u • x))

theorem smooth_unknowns (u : ℝ) (p : (Fin L → ℝ) × Y) : SmoothList 2 (fun e : (Fin L → ℝ) × Y => List.ofFn (u • e.1)) p :=
  smoothList_ofFn (contDiffAt_fst.const_smul u)

theorem SmoothInputs.fB (h : SmoothInputs Q w₁ w₂ y0 A B L) (u : ℝ) (x : Fin L → ℝ) :
    ContDiffAt ℝ 2 (Function.uncurry (scaledMetric (L := L) Q FieldProblem.fB u)) (x, y0) :=
  SmoothFamily.fB (Q := fun e : (Fin L → ℝ) × Y => Q e.2) (e0 := (x, y0)) (SmoothFamily.comp (d0 := (x, y0)) h.family contDiffAt_snd) h.regular
    (smooth_unknowns u (x, y0))

theorem SmoothInputs.fK (h : SmoothInputs Q w₁ w₂ y0 A B L) (u : ℝ) (x : Fin L → ℝ) :
    ContDiffAt ℝ 2 (Function.uncurry (scaledMetric (L := L) Q FieldProblem.fK u)) (x, y0) :=
  SmoothFamily.fK (Q := fun e : (Fin L → ℝ) × Y => Q e.2) (e0 := (x, y0)) (SmoothFamily.comp (d0 := (x, y0)) h.family contDiffAt_snd)
    (smooth_unknowns u (x, y0)) h.regular.eval

theorem SmoothInputs.objective (h : SmoothInputs Q w₁ w₂ y0 A B L) (u : ℝ) (x : Fin L → ℝ) :
    ContDiffAt ℝ 2 (Function.uncurry (scaledObjective (L := L) Q w₁ w₂ u)) (x, y0) := by
  have hs : ContDiffAt ℝ 2 (fun e : (Fin L → ℝ) × Y => e.2) (x, y0) := contDiffAt_snd
  have hfam := SmoothFamily.comp (d0 := (x, y0)) h.family hs
  have hz : SmoothList 2 (fun _ : (Fin L → ℝ) × Y => List.replicate L (0 : ℝ)) (x, y0) := SmoothList.const _
  have b0 := hfam.fB h.regular hz
  have k0 := hfam.fK hz h.regular.eval
  have v1 := ContDiffAt.comp (x, y0) h.smooth₁ hs
  have v2 := ContDiffAt.comp (x, y0) h.smooth₂ hs
  have := (v1.mul ((h.fB u x).div b0 h.unitB.ne')).add (v2.mul ((h.fK u x).div k0 h.unitK.ne'))
  refine this.congr_of_eventuallyEq (Eventually.of_forall fun e => ?_)
  simp only [Function.uncurry, scaledObjective, weightedRelative, List.length_ofFn]
  rfl

/-- **C151 (the best potential depends differentiably on all inputs, and the gradients are the derivatives along it).** Near inputs at
which the surfaces are regular and apart, the grid resolves the potential, and weights and units are positive, there is exactly one best
potential. It is a differentiable function of the inputs. For every metric that is continuously differentiable there and for every unit of
the potential, the linear system solved by the code has exactly one solution at all potentials near the best one, and the gradients
computed from it are as near as desired to the derivatives of the metric of the best potential. At the best potential they are equal. -/
theorem C151_gradients [CompleteSpace Y] (h : SmoothInputs Q w₁ w₂ y0 A B L) :
    ∃ best : Y → Fin L → ℝ, (∀ᶠ y in 𝓝 y0, ∀ c, IsBest (weightedRelative (w₁ y) (w₂ y) (Q y)) L c ↔ c = List.ofFn (best y)) ∧
      DifferentiableAt ℝ best y0 ∧ ∀ u ≠ 0, ∀ m : FieldProblem → List ℝ → ℝ,
        ContDiffAt ℝ 1 (Function.uncurry (scaledMetric (L := L) Q m u)) (u⁻¹ • best y0, y0) →
          (∀ v, SolvesHessian (scaledObjective Q w₁ w₂ u) (scaledMetric Q m u) (u⁻¹ • best y0) y0 v →
            ∀ dy, reportedGrad (scaledObjective Q w₁ w₂ u) (scaledMetric Q m u) (u⁻¹ • best y0) y0 v dy =
              fderiv ℝ (fun y => m (Q y) (List.ofFn (best y))) y0 dy) ∧
          ∀ dy, ∀ ε > 0, ∀ᶠ x in 𝓝 (u⁻¹ • best y0), (∃! v, SolvesHessian (scaledObjective Q w₁ w₂ u) (scaledMetric Q m u) x y0 v) ∧
            ∀ v, SolvesHessian (scaledObjective Q w₁ w₂ u) (scaledMetric Q m u) x y0 v →
              |reportedGrad (scaledObjective Q w₁ w₂ u) (scaledMetric Q m u) x y0 v dy -
                fderiv ℝ (fun y => m (Q y) (List.ofFn (best y))) y0 dy| < ε := by
  classical
  have hex : ∀ᶠ y in 𝓝 y0, ∃ x : Fin L → ℝ, IsBest (weightedRelative (w₁ y) (w₂ y) (Q y)) L (List.ofFn x) := by
    filter_upwards [h.near] with y ⟨hR, h1, h2, h3, h4⟩
    obtain ⟨-, -, c, hc⟩ := weightedRelative_strict hR (h.length y) h1 h2 one_ne_zero h3 h4
    obtain ⟨x, rfl⟩ := eq_ofFn c hc.1
    exact ⟨x, hc⟩
  let best : Y → Fin L → ℝ := fun y =>
    if hy : ∃ x : Fin L → ℝ, IsBest (weightedRelative (w₁ y) (w₂ y) (Q y)) L (List.ofFn x) then hy.choose else 0
  have hbest : ∀ᶠ y in 𝓝 y0, IsBest (weightedRelative (w₁ y) (w₂ y) (Q y)) L (List.ofFn (best y)) := by
    filter_upwards [hex] with y hy
    simp only [best, dif_pos hy]
    exact hy.choose_spec
  have hmin : ∀ u ≠ 0, ∀ᶠ y in 𝓝 y0, ∀ x : Fin L → ℝ, scaledObjective Q w₁ w₂ u (u⁻¹ • best y) y ≤ scaledObjective Q w₁ w₂ u x y := by
    intro u hu
    filter_upwards [hbest] with y hy x
    have := (isBest_iff (best y)).1 hy (u • x)
    simpa only [scaledObjective, smul_inv_smul₀ hu] using this
  have hquad : ∀ u ≠ 0, ∀ᶠ y in 𝓝 y0, (StrictQuadratic fun x : Fin L → ℝ => scaledObjective Q w₁ w₂ u x y) ∧
      Differentiable ℝ fun x : Fin L → ℝ => scaledObjective Q w₁ w₂ u x y := by
    intro u hu
    filter_upwards [h.near] with y ⟨hR, h1, h2, h3, h4⟩
    obtain ⟨q1, q2, -⟩ := weightedRelative_strict hR (h.length y) h1 h2 hu h3 h4
    exact ⟨q1, q2⟩
  have key := fun u (hu : u ≠ 0) => quadratic_gradient (best := fun y => u⁻¹ • best y) (h.objective u _) (hmin u hu) (hquad u hu)
  refine ⟨best, ?_, ?_, fun u hu m hm => ?_⟩
  · filter_upwards [hbest, hquad 1 one_ne_zero] with y hy hq c
    refine ⟨fun hc => ?_, fun hc => hc ▸ hy⟩
    obtain ⟨x, rfl⟩ := eq_ofFn c hc.1
    congr 1
    refine hq.1.unique (fun z => ?_) (fun z => ?_)
    · simpa [scaledObjective] using (isBest_iff _).1 hy z
    · simpa [scaledObjective] using (isBest_iff _).1 hc z
  · have := (key 1 one_ne_zero).1
    simpa using this
  · have e : (fun y => scaledMetric Q m u (u⁻¹ • best y) y) = fun y => m (Q y) (List.ofFn (best y)) := by
      funext y
      simp only [scaledMetric, smul_inv_smul₀ hu]
    rw [← e]
    exact ⟨((key u hu).2 (scaledMetric Q m u) (hm.differentiableAt (by norm_num))).2, fun dy ε hε =>
      quadratic_gradient_near (best := fun y => u⁻¹ • best y) (h.objective u _) (hmin u hu) (hquad u hu) hm dy hε⟩

end

end Verif
