import Verif.Props.ImplicitDiff
import Verif.Model.Solver
import Verif.Spec.Kkt
import Verif.Lemmas.NumReal

/-!
# Property C88: gradients of the metrics in constrained problems

The differentiation keeps the multipliers fixed. Along the true solutions they move, and the reported gradient is off by an
amount that is computed exactly here.
-/

namespace Verif

open Filter Topology

section
variable {X Y : Type} [NormedAddCommGroup X] [NormedSpace ℝ X] [NormedAddCommGroup Y] [NormedSpace ℝ Y] {m p : ℕ}

/-- The augmented Lagrangian near a point where the constraints with `act j = 1` are active and those with `act j = 0` are
not. -/
noncomputable def smoothLk (f : X × Y → ℝ) (g : Fin p → X × Y → ℝ) (h : Fin m → X × Y → ℝ) (act mu : Fin p → ℝ)
    (lam : Fin m → ℝ) (c : ℝ) (q : X × Y) : ℝ :=
  f q + ∑ i, lam i * h i q + ∑ j, act j * mu j * g j q + c / 2 * (∑ i, h i q ^ 2 + ∑ j, act j * g j q ^ 2)

theorem smoothLk_contDiffAt {f : X × Y → ℝ} {g : Fin p → X × Y → ℝ} {h : Fin m → X × Y → ℝ} {q : X × Y}
    (hf : ContDiffAt ℝ 2 f q) (hg : ∀ j, ContDiffAt ℝ 2 (g j) q) (hh : ∀ i, ContDiffAt ℝ 2 (h i) q)
    (act mu : Fin p → ℝ) (lam : Fin m → ℝ) (c : ℝ) : ContDiffAt ℝ 2 (smoothLk f g h act mu lam c) q := by
  unfold smoothLk
  refine ((hf.add (ContDiffAt.sum fun i _ => contDiffAt_const.mul (hh i))).add
    (ContDiffAt.sum fun j _ => contDiffAt_const.mul (hg j))).add (contDiffAt_const.mul
      ((ContDiffAt.sum fun i _ => (hh i).pow 2).add (ContDiffAt.sum fun j _ => contDiffAt_const.mul ((hg j).pow 2))))

theorem smoothLk_fderiv {f : X × Y → ℝ} {g : Fin p → X × Y → ℝ} {h : Fin m → X × Y → ℝ} {q : X × Y}
    (hf : DifferentiableAt ℝ f q) (hg : ∀ j, DifferentiableAt ℝ (g j) q) (hh : ∀ i, DifferentiableAt ℝ (h i) q)
    (act mu : Fin p → ℝ) (lam : Fin m → ℝ) (c : ℝ) (u : X × Y) :
    fderiv ℝ (smoothLk f g h act mu lam c) q u =
      fderiv ℝ f q u + ∑ i, lam i * fderiv ℝ (h i) q u + ∑ j, act j * mu j * fderiv ℝ (g j) q u
        + c * (∑ i, h i q * fderiv ℝ (h i) q u + ∑ j, act j * g j q * fderiv ℝ (g j) q u) := by
  have H : HasFDerivAt (smoothLk f g h act mu lam c)
      (fderiv ℝ f q + ∑ i, lam i • fderiv ℝ (h i) q + ∑ j, (act j * mu j) • fderiv ℝ (g j) q
        + (c / 2) • (∑ i, (2 * h i q) • fderiv ℝ (h i) q + ∑ j, act j • ((2 * g j q) • fderiv ℝ (g j) q))) q := by
    unfold smoothLk
    refine ((hf.hasFDerivAt.add (HasFDerivAt.fun_sum fun i _ => (hh i).hasFDerivAt.const_mul (lam i))).add
      (HasFDerivAt.fun_sum fun j _ => (hg j).hasFDerivAt.const_mul _)).add (HasFDerivAt.const_mul
        ((HasFDerivAt.fun_sum fun i _ => ?_).add (HasFDerivAt.fun_sum fun j _ => HasFDerivAt.const_mul ?_ _)) _)
    · simpa using (hh i).hasFDerivAt.pow 2
    · simpa using (hg j).hasFDerivAt.pow 2
  rw [H.fderiv]
  simp only [add_apply, sum_apply, smul_apply, smul_eq_mul, mul_add, Finset.mul_sum]
  congr 1
  congr 1
  · refine Finset.sum_congr rfl fun i _ => ?_
    ring
  · refine Finset.sum_congr rfl fun i _ => ?_
    ring

/-- 1 for a constraint that is active at the solution, 0 otherwise. -/
noncomputable def activeAt (g : X → Y → Fin p → ℝ) (x0 : X) (y0 : Y) (j : Fin p) : ℝ :=
  open Classical in if g x0 y0 j = 0 then 1 else 0

theorem activeAt_sq (g : X → Y → Fin p → ℝ) (x0 : X) (y0 : Y) (j : Fin p) :
    activeAt g x0 y0 j * activeAt g x0 y0 j = activeAt g x0 y0 j := by
  unfold activeAt
  split <;> simp

theorem activeAt_mu {f : X → Y → ℝ} {g : X → Y → Fin p → ℝ} {h : X → Y → Fin m → ℝ} {y0 : Y} {xs : Y → X}
    {lams : Y → Fin m → ℝ} {mus : Y → Fin p → ℝ} (hK : KktPath f g h y0 xs lams mus) (j : Fin p) :
    activeAt g (xs y0) y0 j * mus y0 j = mus y0 j := by
  unfold activeAt
  split
  · simp
  · rename_i h0
    rcases mul_eq_zero.1 (hK.complementary.self_of_nhds j) with h1 | h1
    · simp [h1]
    · exact absurd h1 h0

/-- Near an exact solution the Lagrangian with the mask is smooth. -/
theorem lk_eventually_smooth {f : X → Y → ℝ} {g : X → Y → Fin p → ℝ} {h : X → Y → Fin m → ℝ} {c : ℝ}
    (hc : 0 < c) {y0 : Y} {xs : Y → X} {lams : Y → Fin m → ℝ} {mus : Y → Fin p → ℝ}
    (hg : ∀ j, ContDiffAt ℝ 2 (fun q : X × Y => g q.1 q.2 j) (xs y0, y0)) (hK : KktPath f g h y0 xs lams mus) :
    ∀ᶠ q in 𝓝 (xs y0, y0), Function.uncurry (lk f g h gplusHard1 (mus y0) (lams y0) c) q =
      smoothLk (fun q => f q.1 q.2) (fun j q => g q.1 q.2 j) (fun i q => h q.1 q.2 i) (activeAt g (xs y0) y0)
        (mus y0) (lams y0) c q := by
  have hmask : ∀ j, ∀ᶠ q in 𝓝 (xs y0, y0),
      gplusHard1 (g q.1 q.2 j) (mus y0 j) c = activeAt g (xs y0) y0 j * g q.1 q.2 j := by
    intro j
    have hcont : ContinuousAt (fun q : X × Y => g q.1 q.2 j) (xs y0, y0) := (hg j).continuousAt
    by_cases h0 : g (xs y0) y0 j = 0
    · have hpos := hK.strict j h0
      have hlt : -mus y0 j / c < g (xs y0) y0 j := by
        rw [h0]
        exact div_neg_of_neg_of_pos (by linarith) hc
      filter_upwards [hcont.eventually (lt_mem_nhds hlt)] with q hq
      simp [gplusHard1, activeAt, h0, max_eq_left hq.le]
    · have hlt : g (xs y0) y0 j < 0 := lt_of_le_of_ne (hK.inequality.self_of_nhds j) h0
      have hmu0 : mus y0 j = 0 := by
        rcases mul_eq_zero.1 (hK.complementary.self_of_nhds j) with h1 | h1
        · exact h1
        · exact absurd h1 h0
      filter_upwards [hcont.eventually (gt_mem_nhds hlt)] with q hq
      simp [gplusHard1, activeAt, h0, hmu0, max_eq_right hq.le]
  filter_upwards [eventually_all.2 hmask] with q hq
  change lk f g h gplusHard1 (mus y0) (lams y0) c q.1 q.2 = _
  simp only [lk, lkTerms, Fin.sum_univ_three, hq, smoothLk]
  simp only [Matrix.cons_val_zero, Matrix.cons_val_one, Matrix.cons_val, mul_pow]
  have e1 : ∀ j, mus y0 j * (activeAt g (xs y0) y0 j * g q.1 q.2 j) =
      activeAt g (xs y0) y0 j * mus y0 j * g q.1 q.2 j := fun j => by ring
  have e2 : ∀ j, activeAt g (xs y0) y0 j ^ 2 * g q.1 q.2 j ^ 2 = activeAt g (xs y0) y0 j * g q.1 q.2 j ^ 2 :=
    fun j => by rw [pow_two, activeAt_sq]
  simp only [e1, e2]
  ring

/-- **C88.** Let the solution and its multipliers be exact at `y0` and depend differentiably on the inputs. The gradient
reported for a metric `F` differs from the derivative of `F` along the solutions by
`∑ (derivative of the constraint along vihp) * (derivative of the multiplier)`. -/
theorem C88_defect_partial (f : X → Y → ℝ) (g : X → Y → Fin p → ℝ) (h : X → Y → Fin m → ℝ) (F : X → Y → ℝ) (c : ℝ)
    (hc : 0 < c) (y0 : Y) (xs : Y → X) (lams : Y → Fin m → ℝ) (mus : Y → Fin p → ℝ)
    (hf : ContDiffAt ℝ 2 (fun q : X × Y => f q.1 q.2) (xs y0, y0))
    (hg : ∀ j, ContDiffAt ℝ 2 (fun q : X × Y => g q.1 q.2 j) (xs y0, y0))
    (hh : ∀ i, ContDiffAt ℝ 2 (fun q : X × Y => h q.1 q.2 i) (xs y0, y0))
    (hF : DifferentiableAt ℝ (Function.uncurry F) (xs y0, y0)) (hxs : DifferentiableAt ℝ xs y0)
    (hlams : ∀ i, DifferentiableAt ℝ (fun y => lams y i) y0) (hmus : ∀ j, DifferentiableAt ℝ (fun y => mus y j) y0)
    (hK : KktPath f g h y0 xs lams mus) (vihp : X)
    (hv : SolvesHessian (lk f g h gplusHard1 (mus y0) (lams y0) c) F (xs y0) y0 vihp) (dy : Y) :
    reportedGrad (lk f g h gplusHard1 (mus y0) (lams y0) c) F (xs y0) y0 vihp dy - fderiv ℝ (fun y => F (xs y) y) y0 dy =
      ∑ i, fderiv ℝ (fun x => h x y0 i) (xs y0) vihp * fderiv ℝ (fun y => lams y i) y0 dy +
      ∑ j, fderiv ℝ (fun x => g x y0 j) (xs y0) vihp * fderiv ℝ (fun y => mus y j) y0 dy := by
  set p0 : X × Y := (xs y0, y0) with hp0
  set f' : X × Y → ℝ := fun q => f q.1 q.2 with hf'
  set g' : Fin p → X × Y → ℝ := fun j q => g q.1 q.2 j with hg'
  set h' : Fin m → X × Y → ℝ := fun i q => h q.1 q.2 i with hh'
  set act : Fin p → ℝ := activeAt g (xs y0) y0 with hact
  set l := lk f g h gplusHard1 (mus y0) (lams y0) c with hl
  set S := smoothLk f' g' h' act (mus y0) (lams y0) c with hS
  have hactmu : ∀ j, act j * mus y0 j = mus y0 j := activeAt_mu hK
  have hlS : ∀ᶠ q in 𝓝 p0, Function.uncurry l q = S q := lk_eventually_smooth hc hg hK
  have hlC : ContDiffAt ℝ 2 (Function.uncurry l) p0 :=
    (smoothLk_contDiffAt hf hg hh act (mus y0) (lams y0) c).congr_of_eventuallyEq hlS
  have hdf : ∀ᶠ q in 𝓝 p0, DifferentiableAt ℝ f' q := by
    filter_upwards [hf.eventually (by simp)] with q hq
    exact hq.differentiableAt (by norm_num)
  have hdg : ∀ᶠ q in 𝓝 p0, ∀ j, DifferentiableAt ℝ (g' j) q := by
    refine eventually_all.2 fun j => ?_
    filter_upwards [(hg j).eventually (by simp)] with q hq
    exact hq.differentiableAt (by norm_num)
  have hdh : ∀ᶠ q in 𝓝 p0, ∀ i, DifferentiableAt ℝ (h' i) q := by
    refine eventually_all.2 fun i => ?_
    filter_upwards [(hh i).eventually (by simp)] with q hq
    exact hq.differentiableAt (by norm_num)
  have hcurve : HasFDerivAt (fun y => (xs y, y)) ((fderiv ℝ xs y0).prod (ContinuousLinearMap.id ℝ Y)) y0 :=
    hxs.hasFDerivAt.prodMk (hasFDerivAt_id y0)
  have hct : Tendsto (fun y => (xs y, y)) (𝓝 y0) (𝓝 p0) := hcurve.continuousAt
  -- the active constraints vanish along the path
  have hactg : ∀ᶠ y in 𝓝 y0, ∀ j, act j * g (xs y) y j = 0 := by
    have hpos : ∀ j, ∀ᶠ y in 𝓝 y0, g (xs y0) y0 j = 0 → 0 < mus y j := by
      intro j
      by_cases h0 : g (xs y0) y0 j = 0
      · have := (hmus j).continuousAt.eventually (lt_mem_nhds (hK.strict j h0))
        filter_upwards [this] with y hy _
        exact hy
      · exact Eventually.of_forall fun y h1 => absurd h1 h0
    filter_upwards [eventually_all.2 hpos, hK.complementary] with y hy hcomp j
    simp only [hact, activeAt]
    split
    · rename_i h0
      rcases mul_eq_zero.1 (hcomp j) with h1 | h1
      · exact absurd h1 (hy j h0).ne'
      · simp [h1]
    · simp
  -- the residual of stationarity with frozen multipliers
  have hres : ∀ w, (fun y => fderiv ℝ (fun x => l x y) (xs y) w) =ᶠ[𝓝 y0] fun y =>
      ∑ i, (lams y0 i - lams y i) * fderiv ℝ (h' i) (xs y, y) (w, 0) +
      ∑ j, (mus y0 j - mus y j) * fderiv ℝ (g' j) (xs y, y) (w, 0) := by
    intro w
    filter_upwards [hct.eventually hlS.eventually_nhds, hct.eventually hdf, hct.eventually hdg, hct.eventually hdh,
      hK.stationary, hK.equality, hactg] with y h1 h2 h3 h4 h5 h6 h7
    have hSd : DifferentiableAt ℝ S (xs y, y) := by
      have : DifferentiableAt ℝ (smoothLk f' g' h' act (mus y0) (lams y0) c) (xs y, y) := by
        unfold smoothLk
        exact ((h2.add (DifferentiableAt.fun_sum fun i _ => (h4 i).const_mul _)).add
          (DifferentiableAt.fun_sum fun j _ => (h3 j).const_mul _)).add (DifferentiableAt.const_mul
            ((DifferentiableAt.fun_sum fun i _ => (h4 i).pow 2).add
              (DifferentiableAt.fun_sum fun j _ => ((h3 j).pow 2).const_mul _)) _)
      exact this
    have hlx : (fun x => l x y) =ᶠ[𝓝 (xs y)] fun x => S (x, y) := by
      have hcx : ContinuousAt (fun x : X => (x, y)) (xs y) := by fun_prop
      exact hcx.eventually h1
    rw [hlx.fderiv_eq, fderiv_fst_eq hSd w, hS, smoothLk_fderiv h2 h3 h4]
    have hst := h5 w
    have e1 := fderiv_fst_eq h2 w
    have e2 := fun i => fderiv_fst_eq (h4 i) w
    have e3 := fun j => fderiv_fst_eq (h3 j) w
    simp only [hf', hg', hh'] at e1 e2 e3 ⊢
    rw [e1] at hst
    simp only [e2, e3] at hst
    have z1 : ∀ i, h (xs y) y i * fderiv ℝ (fun q : X × Y => h q.1 q.2 i) (xs y, y) (w, 0) = 0 := fun i => by
      rw [h6 i, zero_mul]
    have z2 : ∀ j, act j * g (xs y) y j * fderiv ℝ (fun q : X × Y => g q.1 q.2 j) (xs y, y) (w, 0) = 0 := fun j => by
      rw [h7 j, zero_mul]
    simp only [z1, z2, hactmu, Finset.sum_const_zero, add_zero, mul_zero, sub_mul, Finset.sum_sub_distrib]
    linarith
  have hD : ∀ (k : X × Y → ℝ), ContDiffAt ℝ 2 k p0 → ∀ u, DifferentiableAt ℝ (fun y => fderiv ℝ k (xs y, y) u) y0 := by
    intro k hk u
    have h1 : DifferentiableAt ℝ (fderiv ℝ k) p0 :=
      (hk.fderiv_right (m := 1) (by norm_num)).differentiableAt (by norm_num)
    have h2 : DifferentiableAt ℝ (fun y => fderiv ℝ k (xs y, y)) y0 :=
      DifferentiableAt.comp (f := fun y => (xs y, y)) (g := fderiv ℝ k) y0 h1 hcurve.differentiableAt
    exact h2.clm_apply (differentiableAt_const u)
  have hterm : ∀ (a : Y → ℝ) (k : X × Y → ℝ) (u : X × Y), DifferentiableAt ℝ a y0 → ContDiffAt ℝ 2 k p0 →
      HasFDerivAt (fun y => (a y0 - a y) * fderiv ℝ k (xs y, y) u) (-(fderiv ℝ k p0 u • fderiv ℝ a y0)) y0 := by
    intro a k u ha hk
    have := (ha.hasFDerivAt.const_sub (a y0)).mul (hD k hk u).hasFDerivAt
    refine this.congr_fderiv ?_
    simp [hp0]
  have hR : ∀ w, HasFDerivAt (fun y => fderiv ℝ (fun x => l x y) (xs y) w)
      (∑ i, -(fderiv ℝ (h' i) p0 (w, 0) • fderiv ℝ (fun y => lams y i) y0) +
        ∑ j, -(fderiv ℝ (g' j) p0 (w, 0) • fderiv ℝ (fun y => mus y j) y0)) y0 := by
    intro w
    refine HasFDerivAt.congr_of_eventuallyEq ?_ (hres w)
    exact (HasFDerivAt.fun_sum fun i _ => hterm _ _ _ (hlams i) (hh i)).add
      (HasFDerivAt.fun_sum fun j _ => hterm _ _ _ (hmus j) (hg j))
  have hmain := total_derivative_eq_reported_add l F y0 xs hlC hF hxs _ hR vihp hv dy
  rw [hmain]
  have e2 : ∀ i, fderiv ℝ (fun x => h x y0 i) (xs y0) vihp = fderiv ℝ (h' i) p0 (vihp, 0) :=
    fun i => fderiv_fst_eq ((hh i).differentiableAt (by norm_num)) vihp
  have e3 : ∀ j, fderiv ℝ (fun x => g x y0 j) (xs y0) vihp = fderiv ℝ (g' j) p0 (vihp, 0) :=
    fun j => fderiv_fst_eq ((hg j).differentiableAt (by norm_num)) vihp
  simp only [e2, e3, add_apply, sum_apply, neg_apply, smul_apply, smul_eq_mul, Finset.sum_neg_distrib]
  ring

/-- The second derivative of the masked Lagrangian at an exact solution: that of the Lagrangian plus the penalty on the active
constraints. -/
theorem lk_second_derivative {f : X → Y → ℝ} {g : X → Y → Fin p → ℝ} {h : X → Y → Fin m → ℝ} {c : ℝ}
    (hc : 0 < c) {y0 : Y} {xs : Y → X} {lams : Y → Fin m → ℝ} {mus : Y → Fin p → ℝ}
    (hf : ContDiffAt ℝ 2 (fun q : X × Y => f q.1 q.2) (xs y0, y0))
    (hg : ∀ j, ContDiffAt ℝ 2 (fun q : X × Y => g q.1 q.2 j) (xs y0, y0))
    (hh : ∀ i, ContDiffAt ℝ 2 (fun q : X × Y => h q.1 q.2 i) (xs y0, y0))
    (hK : KktPath f g h y0 xs lams mus) (v w : X) :
    fderiv ℝ (fun x1 => fderiv ℝ (fun x2 => lk f g h gplusHard1 (mus y0) (lams y0) c x2 y0) x1 w) (xs y0) v =
      fderiv ℝ (fun x1 => fderiv ℝ (fun x2 => f x2 y0 + ∑ i, lams y0 i * h x2 y0 i + ∑ j, mus y0 j * g x2 y0 j) x1 w)
        (xs y0) v
      + c * (∑ i, fderiv ℝ (fun x => h x y0 i) (xs y0) v * fderiv ℝ (fun x => h x y0 i) (xs y0) w
        + ∑ j, activeAt g (xs y0) y0 j *
          (fderiv ℝ (fun x => g x y0 j) (xs y0) v * fderiv ℝ (fun x => g x y0 j) (xs y0) w)) := by
  set x0 := xs y0 with hx0
  set act := activeAt g x0 y0 with hact
  -- everything as a function of x alone
  have hpar : ∀ k : X × Y → ℝ, ContDiffAt ℝ 2 k (x0, y0) → ContDiffAt ℝ 2 (fun x => k (x, y0)) x0 := by
    intro k hk
    exact ContDiffAt.comp (f := fun x : X => (x, y0)) (g := k) x0 hk (contDiffAt_id.prodMk contDiffAt_const)
  have hf1 : ContDiffAt ℝ 2 (fun x => f x y0) x0 := hpar _ hf
  have hg1 : ∀ j, ContDiffAt ℝ 2 (fun x => g x y0 j) x0 := fun j => hpar _ (hg j)
  have hh1 : ∀ i, ContDiffAt ℝ 2 (fun x => h x y0 i) x0 := fun i => hpar _ (hh i)
  have hev : ∀ k : X → ℝ, ContDiffAt ℝ 2 k x0 → ∀ᶠ x in 𝓝 x0, DifferentiableAt ℝ k x := by
    intro k hk
    filter_upwards [hk.eventually (by simp)] with x hx
    exact hx.differentiableAt (by norm_num)
  have hD2 : ∀ k : X → ℝ, ContDiffAt ℝ 2 k x0 → DifferentiableAt ℝ (fun x => fderiv ℝ k x w) x0 := by
    intro k hk
    have h1 : DifferentiableAt ℝ (fderiv ℝ k) x0 :=
      (hk.fderiv_right (m := 1) (by norm_num)).differentiableAt (by norm_num)
    exact h1.clm_apply (differentiableAt_const w)
  have hlx : ∀ᶠ x in 𝓝 x0, lk f g h gplusHard1 (mus y0) (lams y0) c x y0 =
      f x y0 + ∑ i, lams y0 i * h x y0 i + ∑ j, mus y0 j * g x y0 j
        + c / 2 * (∑ i, h x y0 i ^ 2 + ∑ j, act j * g x y0 j ^ 2) := by
    have hcx : ContinuousAt (fun x : X => (x, y0)) x0 := by fun_prop
    filter_upwards [hcx.eventually (lk_eventually_smooth hc hg hK)] with x hx
    have : lk f g h gplusHard1 (mus y0) (lams y0) c x y0 = _ := hx
    rw [this]
    simp only [smoothLk, activeAt_mu hK]
    rfl
  have hfirst : ∀ᶠ x in 𝓝 x0, fderiv ℝ (fun x2 => lk f g h gplusHard1 (mus y0) (lams y0) c x2 y0) x w =
      fderiv ℝ (fun x2 => f x2 y0 + ∑ i, lams y0 i * h x2 y0 i + ∑ j, mus y0 j * g x2 y0 j) x w
      + c * (∑ i, h x y0 i * fderiv ℝ (fun x => h x y0 i) x w
        + ∑ j, act j * (g x y0 j * fderiv ℝ (fun x => g x y0 j) x w)) := by
    filter_upwards [hlx.eventually_nhds, hev _ hf1, eventually_all.2 fun j => hev _ (hg1 j),
      eventually_all.2 fun i => hev _ (hh1 i)] with x h1 h2 h3 h4
    have h5 : (fun x2 => lk f g h gplusHard1 (mus y0) (lams y0) c x2 y0) =ᶠ[𝓝 x] _ := h1
    rw [h5.fderiv_eq]
    have hA : DifferentiableAt ℝ (fun x2 => f x2 y0 + ∑ i, lams y0 i * h x2 y0 i + ∑ j, mus y0 j * g x2 y0 j) x :=
      (h2.add (DifferentiableAt.fun_sum fun i _ => (h4 i).const_mul _)).add
        (DifferentiableAt.fun_sum fun j _ => (h3 j).const_mul _)
    have hB : HasFDerivAt (fun x2 => c / 2 * (∑ i, h x2 y0 i ^ 2 + ∑ j, act j * g x2 y0 j ^ 2))
        ((c / 2) • (∑ i, (2 * h x y0 i) • fderiv ℝ (fun x => h x y0 i) x
          + ∑ j, act j • ((2 * g x y0 j) • fderiv ℝ (fun x => g x y0 j) x))) x := by
      refine HasFDerivAt.const_mul ((HasFDerivAt.fun_sum fun i _ => ?_).add
        (HasFDerivAt.fun_sum fun j _ => HasFDerivAt.const_mul ?_ _)) _
      · simpa using (h4 i).hasFDerivAt.pow 2
      · simpa using (h3 j).hasFDerivAt.pow 2
    rw [(hA.hasFDerivAt.fun_add hB).fderiv]
    simp only [add_apply, sum_apply, smul_apply, smul_eq_mul, mul_add, Finset.mul_sum]
    congr 1
    congr 1
    · refine Finset.sum_congr rfl fun i _ => ?_
      ring
    · refine Finset.sum_congr rfl fun i _ => ?_
      ring
  have hfirst' : (fun x1 => fderiv ℝ (fun x2 => lk f g h gplusHard1 (mus y0) (lams y0) c x2 y0) x1 w) =ᶠ[𝓝 x0] _ := hfirst
  rw [hfirst'.fderiv_eq]
  have hAC : ContDiffAt ℝ 2 (fun x2 => f x2 y0 + ∑ i, lams y0 i * h x2 y0 i + ∑ j, mus y0 j * g x2 y0 j) x0 :=
    (hf1.add (ContDiffAt.sum fun i _ => contDiffAt_const.mul (hh1 i))).add
      (ContDiffAt.sum fun j _ => contDiffAt_const.mul (hg1 j))
  have hprod : ∀ k : X → ℝ, ContDiffAt ℝ 2 k x0 → HasFDerivAt (fun x => k x * fderiv ℝ k x w)
      (k x0 • fderiv ℝ (fun x => fderiv ℝ k x w) x0 + fderiv ℝ k x0 w • fderiv ℝ k x0) x0 := by
    intro k hk
    exact (hk.differentiableAt (by norm_num)).hasFDerivAt.mul (hD2 k hk).hasFDerivAt
  have hBd : HasFDerivAt (fun x => c * (∑ i, h x y0 i * fderiv ℝ (fun x => h x y0 i) x w
        + ∑ j, act j * (g x y0 j * fderiv ℝ (fun x => g x y0 j) x w)))
      (c • (∑ i, (h x0 y0 i • fderiv ℝ (fun x => fderiv ℝ (fun x => h x y0 i) x w) x0 +
          fderiv ℝ (fun x => h x y0 i) x0 w • fderiv ℝ (fun x => h x y0 i) x0)
        + ∑ j, act j • (g x0 y0 j • fderiv ℝ (fun x => fderiv ℝ (fun x => g x y0 j) x w) x0 +
          fderiv ℝ (fun x => g x y0 j) x0 w • fderiv ℝ (fun x => g x y0 j) x0))) x0 :=
    HasFDerivAt.const_mul ((HasFDerivAt.fun_sum fun i _ => hprod _ (hh1 i)).add
      (HasFDerivAt.fun_sum fun j _ => (hprod _ (hg1 j)).const_mul _)) _
  rw [((hD2 _ hAC).hasFDerivAt.fun_add hBd).fderiv]
  have hz : ∀ i, h x0 y0 i = 0 := hK.equality.self_of_nhds
  have hzg : ∀ j, act j * g x0 y0 j = 0 := by
    intro j
    simp only [hact, activeAt]
    split
    · rename_i h0
      simp [h0]
    · simp
  have hzg' : ∀ (j : Fin p) (t : ℝ), act j * (g x0 y0 j * t) = 0 := fun j t => by rw [← mul_assoc, hzg, zero_mul]
  simp only [add_apply, sum_apply, smul_apply, smul_eq_mul, hz, zero_mul, zero_add, mul_add, hzg']
  congr 1
  congr 1
  · congr 1
    refine Finset.sum_congr rfl fun i _ => ?_
    ring
  · congr 1
    refine Finset.sum_congr rfl fun i _ => ?_
    ring

/-- **C88.** If the Lagrangian is uniformly convex with constant `a`, the error of the reported gradient is at most
`‖dF/dx‖ ‖d(multipliers)‖ / (2 sqrt (a c))`: it vanishes as the penalty weight grows. -/
theorem C88_error_bound_partial (f : X → Y → ℝ) (g : X → Y → Fin p → ℝ) (h : X → Y → Fin m → ℝ) (F : X → Y → ℝ) (c : ℝ)
    (hc : 0 < c) (y0 : Y) (xs : Y → X) (lams : Y → Fin m → ℝ) (mus : Y → Fin p → ℝ)
    (hf : ContDiffAt ℝ 2 (fun q : X × Y => f q.1 q.2) (xs y0, y0))
    (hg : ∀ j, ContDiffAt ℝ 2 (fun q : X × Y => g q.1 q.2 j) (xs y0, y0))
    (hh : ∀ i, ContDiffAt ℝ 2 (fun q : X × Y => h q.1 q.2 i) (xs y0, y0))
    (hF : DifferentiableAt ℝ (Function.uncurry F) (xs y0, y0)) (hxs : DifferentiableAt ℝ xs y0)
    (hlams : ∀ i, DifferentiableAt ℝ (fun y => lams y i) y0) (hmus : ∀ j, DifferentiableAt ℝ (fun y => mus y j) y0)
    (hK : KktPath f g h y0 xs lams mus) (a : ℝ) (ha : 0 < a)
    (hconv : ∀ v, a * ‖v‖ ^ 2 ≤ fderiv ℝ (fun x1 => fderiv ℝ
      (fun x2 => f x2 y0 + ∑ i, lams y0 i * h x2 y0 i + ∑ j, mus y0 j * g x2 y0 j) x1 v) (xs y0) v) (vihp : X)
    (hv : SolvesHessian (lk f g h gplusHard1 (mus y0) (lams y0) c) F (xs y0) y0 vihp) (dy : Y) :
    |reportedGrad (lk f g h gplusHard1 (mus y0) (lams y0) c) F (xs y0) y0 vihp dy - fderiv ℝ (fun y => F (xs y) y) y0 dy| ≤
      ‖fderiv ℝ (fun x => F x y0) (xs y0)‖ / (2 * Real.sqrt (a * c)) *
        Real.sqrt (∑ i, (fderiv ℝ (fun y => lams y i) y0 dy) ^ 2 + ∑ j, (fderiv ℝ (fun y => mus y j) y0 dy) ^ 2) := by
  rw [C88_defect_partial f g h F c hc y0 xs lams mus hf hg hh hF hxs hlams hmus hK vihp hv dy]
  set act := activeAt g (xs y0) y0 with hact
  have hquad := lk_second_derivative hc hf hg hh hK vihp vihp
  rw [hv vihp] at hquad
  have hconv := hconv vihp
  set G := ‖fderiv ℝ (fun x => F x y0) (xs y0)‖ with hG
  have hGv : fderiv ℝ (fun x => F x y0) (xs y0) vihp ≤ G * ‖vihp‖ :=
    (le_abs_self _).trans ((fderiv ℝ (fun x => F x y0) (xs y0)).le_opNorm vihp)
  set u : Fin m → ℝ := fun i => fderiv ℝ (fun x => h x y0 i) (xs y0) vihp with hu
  set z : Fin p → ℝ := fun j => fderiv ℝ (fun x => g x y0 j) (xs y0) vihp with hz
  set dl : Fin m → ℝ := fun i => fderiv ℝ (fun y => lams y i) y0 dy with hdl
  set dm : Fin p → ℝ := fun j => fderiv ℝ (fun y => mus y j) y0 dy with hdm
  set P := ∑ i, u i ^ 2 + ∑ j, (act j * z j) ^ 2 with hP
  have hact2 : ∀ j, act j * act j = act j := activeAt_sq g (xs y0) y0
  have hPeq : ∑ i, u i * u i + ∑ j, act j * (z j * z j) = P := by
    rw [hP]
    congr 1
    · exact Finset.sum_congr rfl fun i _ => by ring
    · refine Finset.sum_congr rfl fun j _ => ?_
      rw [mul_pow, pow_two (act j), hact2]
      ring
  have hPnn : 0 ≤ P := add_nonneg (Finset.sum_nonneg fun i _ => sq_nonneg _) (Finset.sum_nonneg fun i _ => sq_nonneg _)
  -- multipliers of inactive constraints do not move
  have hdm0 : ∀ j, act j * dm j = dm j := by
    intro j
    simp only [hact, activeAt]
    split
    · simp
    · rename_i h0
      have hlt : g (xs y0) y0 j < 0 := lt_of_le_of_ne (hK.inequality.self_of_nhds j) h0
      have hcurve : ContinuousAt (fun y => (xs y, y)) y0 := hxs.continuousAt.prodMk continuousAt_id
      have hcont : ContinuousAt (fun y => g (xs y) y j) y0 :=
        ContinuousAt.comp (f := fun y => (xs y, y)) (g := fun q : X × Y => g q.1 q.2 j) (hg j).continuousAt hcurve
      have hev : (fun y => mus y j) =ᶠ[𝓝 y0] fun _ => 0 := by
        filter_upwards [hcont.eventually (gt_mem_nhds hlt), hK.complementary] with y h1 h2
        rcases mul_eq_zero.1 (h2 j) with h3 | h3
        · exact h3
        · exact absurd h3 h1.ne
      have : dm j = 0 := by
        simp only [hdm]
        rw [hev.fderiv_eq]
        simp
      simp [this]
  have hle : a * ‖vihp‖ ^ 2 + c * P ≤ G * ‖vihp‖ := by
    rw [← hPeq]
    linarith
  have hPb : P ≤ (G / (2 * Real.sqrt (a * c))) ^ 2 := by
    have hac : 0 < a * c := mul_pos ha hc
    rw [div_pow, mul_pow, Real.sq_sqrt hac.le, le_div_iff₀ (by positivity)]
    nlinarith [sq_nonneg (G - 2 * a * ‖vihp‖)]
  have hGnn : 0 ≤ G / (2 * Real.sqrt (a * c)) := by positivity
  have hsum : ∑ i, u i * dl i + ∑ j, z j * dm j = ∑ i, u i * dl i + ∑ j, (act j * z j) * dm j := by
    congr 1
    refine Finset.sum_congr rfl fun j _ => ?_
    rw [mul_comm (act j), mul_assoc, hdm0]
  rw [hsum]
  -- Cauchy-Schwarz on the disjoint union of the two families
  have hCS := Finset.sum_mul_sq_le_sq_mul_sq (Finset.univ : Finset (Fin m ⊕ Fin p))
    (Sum.elim u fun j => act j * z j) (Sum.elim dl dm)
  simp only [Fintype.sum_sum_type, Sum.elim_inl, Sum.elim_inr] at hCS
  rw [← hP] at hCS
  set D := ∑ i, dl i ^ 2 + ∑ j, dm j ^ 2 with hD
  have hDnn : 0 ≤ D := add_nonneg (Finset.sum_nonneg fun i _ => sq_nonneg _) (Finset.sum_nonneg fun i _ => sq_nonneg _)
  refine abs_le_of_sq_le_sq ?_ (mul_nonneg hGnn (Real.sqrt_nonneg _))
  rw [mul_pow, Real.sq_sqrt hDnn]
  exact hCS.trans (mul_le_mul_of_nonneg_right hPb hDnn)

end

/-- The Lagrangian that is differentiated is the one that the solver minimises. -/
theorem C88_same_lagrangian_partial {n m p : ℕ} {Y : Type} (P : Problem ℝ) (f : (Fin n → ℝ) → Y → ℝ)
    (g : (Fin n → ℝ) → Y → Fin p → ℝ) (h : (Fin n → ℝ) → Y → Fin m → ℝ) (mu : Fin p → ℝ) (lam : Fin m → ℝ) (c : ℝ)
    (x : Fin n → ℝ) (y : Y) (hf : P.f (List.ofFn x) = f x y) (hg : P.g (List.ofFn x) = List.ofFn (g x y))
    (hh : P.h (List.ofFn x) = List.ofFn (h x y)) :
    lk f g h gplusHard1 mu lam c x y = augLag P gplusHard (List.ofFn lam) (List.ofFn mu) c (List.ofFn x) := by
  simp only [augLag, hf, hg, hh, gplusHard, zipWith_ofFn, num_dot_ofFn, map_ofFn', num_sum, List.sum_ofFn, num_add, num_mul,
    num_div, num_max, num_neg, num_ofNat]
  simp only [lk, lkTerms, gplusHard1, Fin.sum_univ_three, Matrix.cons_val_zero, Matrix.cons_val_one, Matrix.cons_val]
  push_cast
  simp only [pow_two]
  ring

/-! ## A problem with a wrong gradient -/

/-- The problem `min x^2/2` subject to `x = y`: objective. -/
noncomputable def toyF (x _y : ℝ) : ℝ := x ^ 2 / 2
/-- Its constraint. -/
def toyH (x y : ℝ) (_ : Fin 1) : ℝ := x - y
/-- It has no inequality constraints. -/
def toyG (_ _ : ℝ) (_ : Fin 0) : ℝ := 0

theorem toyLk_eq (lam c x y : ℝ) : lk toyF toyG toyH gplusHard1 (fun _ => 0) (fun _ => lam) c x y =
    x ^ 2 / 2 + lam * (x - y) + c / 2 * (x - y) ^ 2 := by
  simp [lk, lkTerms, toyF, toyH, Fin.sum_univ_three]

theorem toyKkt : KktPath toyF toyG toyH 1 (fun y => y) (fun y _ => -y) (fun _ _ => 0) where
  stationary := by
    filter_upwards with y w
    have h1 : HasFDerivAt (fun x : ℝ => toyF x y) (y • ContinuousLinearMap.id ℝ ℝ) y := by
      have := ((hasFDerivAt_id (𝕜 := ℝ) y).pow 2).mul_const (1 / 2)
      refine (this.congr_fderiv ?_).congr_of_eventuallyEq (Eventually.of_forall fun x => ?_)
      · ext
        simp
      · simp [toyF]
        ring
    have h2 : HasFDerivAt (fun x : ℝ => toyH x y 0) (ContinuousLinearMap.id ℝ ℝ) y := (hasFDerivAt_id y).sub_const y
    simp only [Fin.sum_univ_one, Fin.sum_univ_zero, h1.fderiv, h2.fderiv]
    simp
  equality := by
    filter_upwards with y i
    simp [toyH]
  inequality := by
    filter_upwards with y j
    exact j.elim0
  complementary := by
    filter_upwards with y j
    exact j.elim0
  strict := fun j => j.elim0

theorem toySolves (c : ℝ) (hc : 0 < c) : SolvesHessian (lk toyF toyG toyH gplusHard1 (fun _ => 0) (fun _ => -1) c)
    (fun x _ => x) 1 1 (1 / (1 + c)) := by
  intro w
  have h1 : ∀ x : ℝ, fderiv ℝ (fun x2 => lk toyF toyG toyH gplusHard1 (fun _ => 0) (fun _ => -1) c x2 1) x w =
      (x - 1 + c * (x - 1)) * w := by
    intro x
    have : HasFDerivAt (fun x2 => lk toyF toyG toyH gplusHard1 (fun _ => 0) (fun _ => -1) c x2 1)
        ((x - 1 + c * (x - 1)) • ContinuousLinearMap.id ℝ ℝ) x := by
      simp only [toyLk_eq]
      have h3 := ((((hasFDerivAt_id (𝕜 := ℝ) x).pow 2).mul_const (1 / 2)).add
        (((hasFDerivAt_id (𝕜 := ℝ) x).sub_const 1).const_mul (-1))).add
        ((((hasFDerivAt_id (𝕜 := ℝ) x).sub_const 1).pow 2).const_mul (c / 2))
      refine (h3.congr_fderiv ?_).congr_of_eventuallyEq (Eventually.of_forall fun t => ?_)
      · ext
        simp
        ring
      · simp
        ring
    rw [this.fderiv]
    simp
  simp only [h1]
  have h2 : HasFDerivAt (fun x : ℝ => (x - 1 + c * (x - 1)) * w) (((1 + c) * w) • ContinuousLinearMap.id ℝ ℝ) 1 := by
    have h3 := (((hasFDerivAt_id (𝕜 := ℝ) (1 : ℝ)).sub_const 1).const_mul (1 + c)).mul_const w
    refine (h3.congr_fderiv ?_).congr_of_eventuallyEq (Eventually.of_forall fun t => ?_)
    · ext
      simp
      ring
    · simp only [id]
      ring
  have h4 : HasFDerivAt (fun x : ℝ => x) (ContinuousLinearMap.id ℝ ℝ) 1 := hasFDerivAt_id _
  rw [h2.fderiv, h4.fderiv]
  have : (1 + c) ≠ 0 := by positivity
  simp
  field_simp

/-- **C88 is false of the code.** For `min x^2/2` subject to `x = y` and the metric `x`, the solution is `x = y` and the
derivative of the metric is 1. At the exact solution with the exact multiplier the reported gradient is `c/(1+c)`. -/
theorem C88_violated_partial (c : ℝ) (hc : 0 < c) :
    fderiv ℝ (fun y : ℝ => (fun x _ => x : ℝ → ℝ → ℝ) ((fun y => y : ℝ → ℝ) y) y) 1 1 = 1 ∧
    reportedGrad (lk toyF toyG toyH gplusHard1 (fun _ => 0) (fun _ => -1) c) (fun x _ => x) 1 1 (1 / (1 + c)) 1 =
      c / (1 + c) ∧ c / (1 + c) ≠ 1 := by
  have hne : (1 + c) ≠ 0 := by positivity
  have hid : HasFDerivAt (fun y : ℝ => y) (ContinuousLinearMap.id ℝ ℝ) 1 := hasFDerivAt_id _
  have htrue : fderiv ℝ (fun y : ℝ => (fun x _ => x : ℝ → ℝ → ℝ) ((fun y => y : ℝ → ℝ) y) y) 1 1 = 1 := by
    change fderiv ℝ (fun y : ℝ => y) 1 1 = 1
    rw [hid.fderiv]
    simp
  refine ⟨htrue, ?_, ?_⟩
  · have h := C88_defect_partial toyF toyG toyH (fun x _ => x) c hc 1 (fun y => y) (fun y _ => -y) (fun _ _ => 0)
      (by simp only [toyF]; fun_prop) (fun j => j.elim0) (fun i => by simp only [toyH]; fun_prop)
      (by change DifferentiableAt ℝ (fun q : ℝ × ℝ => q.1) _; fun_prop) differentiableAt_id
      (fun i => by fun_prop) (fun j => j.elim0) toyKkt _ (toySolves c hc) 1
    have h2 : HasFDerivAt (fun x : ℝ => toyH x 1 0) (ContinuousLinearMap.id ℝ ℝ) 1 := (hasFDerivAt_id 1).sub_const 1
    have h3 : HasFDerivAt (fun y : ℝ => -y) (-ContinuousLinearMap.id ℝ ℝ) 1 := hid.neg
    rw [htrue] at h
    simp only [Fin.sum_univ_one, Fin.sum_univ_zero, h2.fderiv, h3.fderiv] at h
    simp at h
    have : c / (1 + c) = 1 - (1 + c)⁻¹ := by field_simp; ring
    rw [this, one_div]
    linarith
  · intro h
    rw [div_eq_one_iff_eq hne] at h
    linarith

/-- The hypotheses of the error bound hold in the same problem, with convexity constant 1. -/
example (c : ℝ) (hc : 0 < c) :
    |reportedGrad (lk toyF toyG toyH gplusHard1 (fun _ => 0) (fun _ => -1) c) (fun x _ => x) 1 1 (1 / (1 + c)) 1 - 1| ≤
      1 / (2 * Real.sqrt c) := by
  have hid : HasFDerivAt (fun y : ℝ => y) (ContinuousLinearMap.id ℝ ℝ) 1 := hasFDerivAt_id _
  have hneg : HasFDerivAt (fun y : ℝ => -y) (-ContinuousLinearMap.id ℝ ℝ) 1 := hid.neg
  have hconv : ∀ v : ℝ, 1 * ‖v‖ ^ 2 ≤ fderiv ℝ (fun x1 => fderiv ℝ
      (fun x2 => toyF x2 1 + ∑ i : Fin 1, (fun y _ => -y : ℝ → Fin 1 → ℝ) 1 i * toyH x2 1 i
        + ∑ j : Fin 0, (fun _ _ => 0 : ℝ → Fin 0 → ℝ) 1 j * toyG x2 1 j) x1 v) ((fun y => y : ℝ → ℝ) 1) v := by
    intro v
    have h1 : ∀ x : ℝ, fderiv ℝ (fun x2 : ℝ => toyF x2 1 + ∑ i : Fin 1, (fun y _ => -y : ℝ → Fin 1 → ℝ) 1 i * toyH x2 1 i
        + ∑ j : Fin 0, (fun _ _ => 0 : ℝ → Fin 0 → ℝ) 1 j * toyG x2 1 j) x v = (x - 1) * v := by
      intro x
      have h3 := (((hasFDerivAt_id (𝕜 := ℝ) x).pow 2).mul_const (1 / 2)).add
        (((hasFDerivAt_id (𝕜 := ℝ) x).sub_const 1).const_mul (-1))
      have h4 : HasFDerivAt (fun x2 : ℝ => toyF x2 1 + ∑ i : Fin 1, (fun y _ => -y : ℝ → Fin 1 → ℝ) 1 i * toyH x2 1 i
          + ∑ j : Fin 0, (fun _ _ => 0 : ℝ → Fin 0 → ℝ) 1 j * toyG x2 1 j) ((x - 1) • ContinuousLinearMap.id ℝ ℝ) x := by
        refine (h3.congr_fderiv ?_).congr_of_eventuallyEq (Eventually.of_forall fun t => ?_)
        · ext
          simp
          ring
        · simp [toyF, toyH]
          ring
      rw [h4.fderiv]
      simp
    simp only [h1]
    have h5 : HasFDerivAt (fun x : ℝ => (x - 1) * v) (v • ContinuousLinearMap.id ℝ ℝ) 1 := by
      refine (((hasFDerivAt_id (𝕜 := ℝ) (1 : ℝ)).sub_const 1).mul_const v).congr_fderiv ?_
      ext
      simp
    rw [h5.fderiv]
    simp [pow_two]
  have h := C88_error_bound_partial toyF toyG toyH (fun x _ => x) c hc 1 (fun y => y) (fun y _ => -y) (fun _ _ => 0)
      (by simp only [toyF]; fun_prop) (fun j => j.elim0) (fun i => by simp only [toyH]; fun_prop)
      (by change DifferentiableAt ℝ (fun q : ℝ × ℝ => q.1) _; fun_prop) differentiableAt_id
      (fun i => by fun_prop) (fun j => j.elim0) toyKkt 1 one_pos hconv _ (toySolves c hc) 1
  simp only [Fin.sum_univ_one, Fin.sum_univ_zero, hid.fderiv, hneg.fderiv] at h
  simpa using h

/-- A path with an active inequality: `min x^2/2` subject to `y - x <= 0` near `y = 1`. -/
example : KktPath toyF (fun x y (_ : Fin 1) => y - x) (fun _ _ (_ : Fin 0) => 0) 1 (fun y => y) (fun _ _ => 0)
    (fun y _ => y) where
  stationary := by
    filter_upwards with y w
    have h1 : HasFDerivAt (fun x : ℝ => toyF x y) (y • ContinuousLinearMap.id ℝ ℝ) y := by
      have := ((hasFDerivAt_id (𝕜 := ℝ) y).pow 2).mul_const (1 / 2)
      refine (this.congr_fderiv ?_).congr_of_eventuallyEq (Eventually.of_forall fun x => ?_)
      · ext
        simp
      · simp [toyF]
        ring
    have h2 : HasFDerivAt (fun x : ℝ => y - x) (-ContinuousLinearMap.id ℝ ℝ) y := (hasFDerivAt_id y).const_sub y
    simp only [Fin.sum_univ_one, Fin.sum_univ_zero, h1.fderiv, h2.fderiv]
    simp
  equality := by
    filter_upwards with y i
    rfl
  inequality := by
    filter_upwards with y j
    simp
  complementary := by
    filter_upwards with y j
    simp
  strict := fun j _ => one_pos

end Verif
