import Verif.Props.ConstrainedGrad
import Mathlib.Analysis.SpecialFunctions.Log.Deriv
import Mathlib.Analysis.SpecialFunctions.ExpDeriv

/-!
# C175: the mask that the caller chooses is not the one that the problem is solved with

`quadcoil` passes no `gplus_mask` to `solve_constrained` (quadcoil.py 691-712), so the solver always uses `gplus_hard`
(solver.py 363, 392), while the gradients are computed with the mask of the caller (quadcoil.py 808-818). `gplus_elu` and
`gplus_softplus` are used with their scale as a parameter.
-/

namespace Verif

open Filter Topology

/-! ## What is differentiated -/

/-- With `gplus_elu` a constraint above `-mu/c` counts as with `gplus_hard`. -/
theorem gplusElu_active {g mu c scale : ℝ} (hc : 0 < c) (h : -mu / c ≤ g) : gplusElu g mu c scale = gplusHard1 g mu c := by
  have h1 : ¬ g + mu / c < 0 := by
    rw [neg_div] at h
    linarith
  unfold gplusElu gplusHard1
  rw [if_neg h1, max_eq_left h]
  ring

section
variable {X Y : Type} [NormedAddCommGroup X] [NormedSpace ℝ X] [NormedAddCommGroup Y] [NormedSpace ℝ Y] {m p : ℕ}

/-- The equation for `vihp` and the reported gradient only depend on the Lagrangian near the solution. -/
theorem solvesHessian_congr {l l' F : X → Y → ℝ} {x : X} {y : Y}
    (h : ∀ᶠ q : X × Y in 𝓝 (x, y), l q.1 q.2 = l' q.1 q.2) (v : X) :
    SolvesHessian l F x y v ↔ SolvesHessian l' F x y v := by
  have hx : ∀ᶠ x1 in 𝓝 x, ∀ᶠ x2 in 𝓝 x1, l x2 y = l' x2 y := by
    have h1 : ∀ᶠ x1 in 𝓝 x, l x1 y = l' x1 y :=
      (Continuous.tendsto (f := fun x1 : X => (x1, y)) (by fun_prop) x).eventually h
    exact h1.eventually_nhds
  have h2 : ∀ w, (fun x1 => fderiv ℝ (fun x2 => l x2 y) x1 w) =ᶠ[𝓝 x] fun x1 => fderiv ℝ (fun x2 => l' x2 y) x1 w := by
    intro w
    filter_upwards [hx] with x1 h3
    rw [Filter.EventuallyEq.fderiv_eq (f₁ := fun x2 => l x2 y) (f := fun x2 => l' x2 y) h3]
  refine forall_congr' fun w => ?_
  rw [(h2 w).fderiv_eq]

theorem reportedGrad_congr {l l' F : X → Y → ℝ} {x : X} {y : Y}
    (h : ∀ᶠ q : X × Y in 𝓝 (x, y), l q.1 q.2 = l' q.1 q.2) (v : X) (dy : Y) :
    reportedGrad l F x y v dy = reportedGrad l' F x y v dy := by
  have h1 : (fun x1 => fderiv ℝ (fun y1 => l x1 y1) y dy) =ᶠ[𝓝 x] fun x1 => fderiv ℝ (fun y1 => l' x1 y1) y dy := by
    rw [nhds_prod_eq] at h
    filter_upwards [h.curry] with x1 h3
    rw [Filter.EventuallyEq.fderiv_eq (f₁ := fun y1 => l x1 y1) (f := fun y1 => l' x1 y1) h3]
  unfold reportedGrad
  rw [h1.fderiv_eq]

/-- **C175.** Where every inequality is active with a positive multiplier, or violated, `gplus_elu` and `gplus_hard` report the
same gradient. -/
theorem C175_elu_active_partial (f F : X → Y → ℝ) (g : X → Y → Fin p → ℝ) (h : X → Y → Fin m → ℝ) (mu : Fin p → ℝ)
    (lam : Fin m → ℝ) (c scale : ℝ) (hc : 0 < c) (x : X) (y : Y)
    (hg : ∀ j, ContinuousAt (fun q : X × Y => g q.1 q.2 j) (x, y)) (hact : ∀ j, -mu j / c < g x y j) (v : X) (dy : Y) :
    (SolvesHessian (lk f g h (fun g mu c => gplusElu g mu c scale) mu lam c) F x y v ↔
      SolvesHessian (lk f g h gplusHard1 mu lam c) F x y v) ∧
    reportedGrad (lk f g h (fun g mu c => gplusElu g mu c scale) mu lam c) F x y v dy =
      reportedGrad (lk f g h gplusHard1 mu lam c) F x y v dy := by
  have h1 : ∀ᶠ q : X × Y in 𝓝 (x, y), ∀ j, -mu j / c < g q.1 q.2 j := by
    rw [eventually_all]
    exact fun j => (hg j).eventually_const_lt (hact j)
  have h2 : ∀ᶠ q : X × Y in 𝓝 (x, y), lk f g h (fun g mu c => gplusElu g mu c scale) mu lam c q.1 q.2 =
      lk f g h gplusHard1 mu lam c q.1 q.2 := by
    filter_upwards [h1] with q hq
    simp only [lk, lkTerms, fun j => gplusElu_active (scale := scale) hc (hq j).le]
  exact ⟨solvesHessian_congr h2 v, reportedGrad_congr h2 v dy⟩

/-- **C175.** With `gplus_hard` the limits that are not reached do not enter: if at the solution all inequalities are strictly
satisfied with multipliers 0, the equation for `vihp` and the reported gradient are those of the problem without them. -/
theorem C175_hard_partial (f F : X → Y → ℝ) (g : X → Y → Fin p → ℝ) (h : X → Y → Fin m → ℝ) (lam : Fin m → ℝ) (c : ℝ)
    (x : X) (y : Y) (hg : ∀ j, ContinuousAt (fun q : X × Y => g q.1 q.2 j) (x, y)) (hin : ∀ j, g x y j < 0) (v : X) (dy : Y) :
    (SolvesHessian (lk f g h gplusHard1 (fun _ => 0) lam c) F x y v ↔
      SolvesHessian (lk f (fun _ _ (j : Fin 0) => j.elim0) h gplusHard1 (fun j => j.elim0) lam c) F x y v) ∧
    reportedGrad (lk f g h gplusHard1 (fun _ => 0) lam c) F x y v dy =
      reportedGrad (lk f (fun _ _ (j : Fin 0) => j.elim0) h gplusHard1 (fun j => j.elim0) lam c) F x y v dy := by
  have h1 : ∀ᶠ q : X × Y in 𝓝 (x, y), ∀ j, g q.1 q.2 j < 0 := by
    rw [eventually_all]
    exact fun j => (hg j).eventually_lt_const (hin j)
  have h2 : ∀ᶠ q : X × Y in 𝓝 (x, y), lk f g h gplusHard1 (fun _ => 0) lam c q.1 q.2 =
      lk f (fun _ _ (j : Fin 0) => j.elim0) h gplusHard1 (fun j => j.elim0) lam c q.1 q.2 := by
    filter_upwards [h1] with q hq
    have h3 : ∀ j, gplusHard1 (g q.1 q.2 j) 0 c = 0 := by
      intro j
      unfold gplusHard1
      rw [neg_zero, zero_div]
      exact max_eq_right (hq j).le
    simp [lk, lkTerms, h3]
  exact ⟨solvesHessian_congr h2 v, reportedGrad_congr h2 v dy⟩

end

/-! ## A limit that is not reached -/

/-- The problem `min (x-y)^2/2` subject to `x <= b`: objective. -/
noncomputable def nearF (x y : ℝ) : ℝ := (x - y) ^ 2 / 2
/-- Its limit. -/
def nearG (b x _y : ℝ) (_ : Fin 1) : ℝ := x - b
/-- It has no equality constraints. -/
def nearH (_ _ : ℝ) (_ : Fin 0) : ℝ := 0

/-- For `y < b` the solution of the problem is `x = y`, and the metric `x` has derivative 1. -/
theorem nearF_solution (b y : ℝ) (h : y < b) :
    IsMinOn (fun x => nearF x y) {x | nearG b x y 0 ≤ 0} y ∧ y ∈ {x | nearG b x y 0 ≤ 0} ∧
      ∀ x, nearF x y ≤ nearF y y → x = y := by
  refine ⟨fun x _ => ?_, ?_, fun x hx => ?_⟩
  · change nearF y y ≤ nearF x y
    simp only [nearF, sub_self]
    have := sq_nonneg (x - y)
    linarith
  · change nearG b y y 0 ≤ 0
    simp only [nearG]
    linarith
  · simp only [nearF, sub_self] at hx
    nlinarith [sq_nonneg (x - y)]

/-- The reported derivative of the metric `x` when the Lagrangian is `(x-y)^2/2` plus a term of second derivative `d` at the
solution. -/
theorem near_reported {l : ℝ → ℝ → ℝ} {P P' : ℝ → ℝ} {y0 d : ℝ} (hl : ∀ x y, l x y = nearF x y + P x)
    (hP : ∀ᶠ x in 𝓝 y0, HasDerivAt P (P' x) x) (hP' : HasDerivAt P' d y0) (v : ℝ) :
    (SolvesHessian l (fun x _ => x) y0 y0 v ↔ (1 + d) * v = 1) ∧ reportedGrad l (fun x _ => x) y0 y0 v 1 = v := by
  have hn : ∀ x y : ℝ, HasDerivAt (fun x => nearF x y) (x - y) x := by
    intro x y
    have := (((hasDerivAt_id x).sub_const y).pow 2).div_const 2
    refine (this.congr_deriv ?_)
    simp
  have hx : ∀ w : ℝ, (fun x1 => fderiv ℝ (fun x2 => l x2 y0) x1 w) =ᶠ[𝓝 y0] fun x1 => (x1 - y0 + P' x1) * w := by
    intro w
    filter_upwards [hP] with x1 h1
    have h2 : HasDerivAt (fun x2 => l x2 y0) (x1 - y0 + P' x1) x1 := by
      simp only [hl]
      exact (hn x1 y0).add h1
    rw [h2.hasFDerivAt.fderiv]
    simp [mul_comm]
  have hd : ∀ w : ℝ, HasDerivAt (fun x1 => (x1 - y0 + P' x1) * w) ((1 + d) * w) y0 := fun w =>
    (((hasDerivAt_id y0).sub_const y0).add hP').mul_const w
  have hF : ∀ w : ℝ, fderiv ℝ (fun x1 : ℝ => x1) y0 w = w := by
    intro w
    have h1 : HasFDerivAt (fun x1 : ℝ => x1) (ContinuousLinearMap.id ℝ ℝ) y0 := hasFDerivAt_id y0
    rw [h1.fderiv]
    rfl
  constructor
  · have h5 : ∀ w, fderiv ℝ (fun x1 => fderiv ℝ (fun x2 => l x2 y0) x1 w) y0 v = v * ((1 + d) * w) := by
      intro w
      rw [(hx w).fderiv_eq, (hd w).hasFDerivAt.fderiv]
      simp
    unfold SolvesHessian
    constructor
    · intro h
      have := h 1
      rw [h5, hF] at this
      linarith
    · intro h w
      rw [h5, hF]
      linear_combination w * h
  · have hy : (fun x1 => fderiv ℝ (fun y1 => l x1 y1) y0 (1 : ℝ)) = fun x1 => -(x1 - y0) := by
      funext x1
      have h2 : HasDerivAt (fun y1 => l x1 y1) (-(x1 - y0)) y0 := by
        simp only [hl, nearF]
        have := ((((hasDerivAt_id y0).const_sub x1).pow 2).div_const 2).add_const (P x1)
        refine this.congr_deriv ?_
        simp
        ring
      rw [h2.hasFDerivAt.fderiv]
      simp
    have h3 : HasDerivAt (fun x1 : ℝ => -(x1 - y0)) (-1) y0 := ((hasDerivAt_id y0).sub_const y0).neg
    unfold reportedGrad
    rw [hy, h3.hasFDerivAt.fderiv, fderiv_const_apply]
    simp

theorem near_lk (mask : ℝ → ℝ → ℝ → ℝ) (b c x y : ℝ) :
    lk nearF (nearG b) nearH mask (fun _ => 0) (fun j => j.elim0) c x y = nearF x y + c / 2 * mask (x - b) 0 c ^ 2 := by
  simp [lk, lkTerms, nearG, nearH, Fin.sum_univ_three]

/-- The reported derivative with `gplus_hard` is the true one, 1. -/
theorem near_hard (b c y0 v : ℝ) (h : y0 < b) :
    (SolvesHessian (lk nearF (nearG b) nearH gplusHard1 (fun _ => 0) (fun j => j.elim0) c) (fun x _ => x) y0 y0 v ↔ v = 1) ∧
    reportedGrad (lk nearF (nearG b) nearH gplusHard1 (fun _ => 0) (fun j => j.elim0) c) (fun x _ => x) y0 y0 v 1 = v := by
  have h1 : ∀ᶠ x in 𝓝 y0, HasDerivAt (fun x => c / 2 * gplusHard1 (x - b) 0 c ^ 2) ((fun _ => 0 : ℝ → ℝ) x) x := by
    filter_upwards [(eventually_lt_nhds h).eventually_nhds] with x hx
    refine (hasDerivAt_const x (0 : ℝ)).congr_of_eventuallyEq ?_
    filter_upwards [hx] with t ht
    have : gplusHard1 (t - b) 0 c = 0 := by
      unfold gplusHard1
      rw [neg_zero, zero_div]
      exact max_eq_right (by linarith)
    simp [this]
  have := near_reported (near_lk gplusHard1 b c) h1 (hasDerivAt_const y0 (0 : ℝ)) v
  simpa using this

/-- **C175 is false of the code.** Minimise `(x-y)^2/2` subject to `x <= b` for `y < b`: the solution is `x = y`, the limit is
not reached, its multiplier is 0, and the metric `x` has derivative 1. With `gplus_elu` the equation that is solved for `vihp` is
`(1 + c (2 t^2 - t)) vihp = 1` with `t = exp(scale (y-b))`, and the reported derivative is `vihp`: right only if `t = 1/2`. -/
theorem C175_elu_violated_partial (b c scale y0 v : ℝ) (hs : 0 < scale) (hc : 0 < c) (h : y0 < b) :
    (SolvesHessian (lk nearF (nearG b) nearH (fun g mu c => gplusElu g mu c scale) (fun _ => 0) (fun j => j.elim0) c)
      (fun x _ => x) y0 y0 v ↔
        (1 + c * (2 * Real.exp (scale * (y0 - b)) ^ 2 - Real.exp (scale * (y0 - b)))) * v = 1) ∧
    reportedGrad (lk nearF (nearG b) nearH (fun g mu c => gplusElu g mu c scale) (fun _ => 0) (fun j => j.elim0) c)
      (fun x _ => x) y0 y0 v 1 = v ∧
    (SolvesHessian (lk nearF (nearG b) nearH (fun g mu c => gplusElu g mu c scale) (fun _ => 0) (fun j => j.elim0) c)
      (fun x _ => x) y0 y0 1 ↔ Real.exp (scale * (y0 - b)) = 1 / 2) := by
  have he : ∀ x : ℝ, HasDerivAt (fun x => Real.exp (scale * (x - b))) (Real.exp (scale * (x - b)) * scale) x := by
    intro x
    have := (((hasDerivAt_id x).sub_const b).const_mul scale).exp
    refine this.congr_deriv ?_
    simp
  have h1 : ∀ᶠ x in 𝓝 y0, HasDerivAt (fun x => c / 2 * gplusElu (x - b) 0 c scale ^ 2)
      ((fun x => c * ((Real.exp (scale * (x - b)) - 1) / scale * Real.exp (scale * (x - b)))) x) x := by
    filter_upwards [(eventually_lt_nhds h).eventually_nhds] with x hx
    have h2 : HasDerivAt (fun x => c / 2 * ((Real.exp (scale * (x - b)) - 1) / scale) ^ 2)
        (c * ((Real.exp (scale * (x - b)) - 1) / scale * Real.exp (scale * (x - b)))) x := by
      have := (((((he x).sub_const 1).div_const scale).pow 2).const_mul (c / 2))
      refine this.congr_deriv ?_
      simp only [Nat.cast_ofNat, Nat.add_one_sub_one, pow_one]
      field_simp
    refine h2.congr_of_eventuallyEq ?_
    filter_upwards [hx] with t ht
    have : gplusElu (t - b) 0 c scale = (Real.exp (scale * (t - b)) - 1) / scale := by
      unfold gplusElu
      rw [zero_div, add_zero, if_pos (by linarith), sub_zero]
    simp [this]
  have h2 : HasDerivAt (fun x => c * ((Real.exp (scale * (x - b)) - 1) / scale * Real.exp (scale * (x - b))))
      (c * (2 * Real.exp (scale * (y0 - b)) ^ 2 - Real.exp (scale * (y0 - b)))) y0 := by
    have := ((((he y0).sub_const 1).div_const scale).mul (he y0)).const_mul c
    refine this.congr_deriv ?_
    field_simp
    ring
  have h3 := fun v => near_reported (near_lk (fun g mu c => gplusElu g mu c scale) b c) h1 h2 v
  refine ⟨(h3 v).1, (h3 v).2, ?_⟩
  rw [(h3 1).1]
  have hp := Real.exp_pos (scale * (y0 - b))
  generalize Real.exp (scale * (y0 - b)) = t at *
  constructor
  · intro h4
    have h5 : c * t * (2 * t - 1) = 0 := by linear_combination h4
    rcases mul_eq_zero.1 h5 with h6 | h6
    · exact absurd h6 (mul_pos hc hp).ne'
    · linarith
  · intro h4
    rw [h4]
    ring

/-- **C175 is false of the code.** In the same problem with `gplus_softplus` the reported derivative is below the true one, 1,
however far the limit is and for every penalty weight. -/
theorem C175_softplus_violated_partial (b c scale y0 : ℝ) (hs : 0 < scale) (hc : 0 < c) (v : ℝ) (q : ℝ)
    (hq : q = Real.exp (scale * (y0 - b)) / (1 + Real.exp (scale * (y0 - b)))) :
    (SolvesHessian (lk nearF (nearG b) nearH (fun g mu c => gplusSoftplus g mu c scale) (fun _ => 0) (fun j => j.elim0) c)
      (fun x _ => x) y0 y0 v ↔
        (1 + c * (q ^ 2 + Real.log (1 + Real.exp (scale * (y0 - b))) * (q * (1 - q)))) * v = 1) ∧
    reportedGrad (lk nearF (nearG b) nearH (fun g mu c => gplusSoftplus g mu c scale) (fun _ => 0) (fun j => j.elim0) c)
      (fun x _ => x) y0 y0 v 1 = v ∧
    (SolvesHessian (lk nearF (nearG b) nearH (fun g mu c => gplusSoftplus g mu c scale) (fun _ => 0) (fun j => j.elim0) c)
      (fun x _ => x) y0 y0 v → 0 < v ∧ v ≤ 1 / (1 + c * q ^ 2) ∧ 1 / (1 + c * q ^ 2) < 1) := by
  have he : ∀ x : ℝ, HasDerivAt (fun x => Real.exp (scale * (x - b))) (Real.exp (scale * (x - b)) * scale) x := by
    intro x
    have := (((hasDerivAt_id x).sub_const b).const_mul scale).exp
    refine this.congr_deriv ?_
    simp
  have hp : ∀ x : ℝ, 0 < 1 + Real.exp (scale * (x - b)) := fun x => by positivity
  have hL : ∀ x : ℝ, HasDerivAt (fun x => Real.log (1 + Real.exp (scale * (x - b))))
      (Real.exp (scale * (x - b)) * scale / (1 + Real.exp (scale * (x - b)))) x := fun x =>
    ((he x).const_add 1).log (hp x).ne'
  have h1 : ∀ x, HasDerivAt (fun x => c / 2 * gplusSoftplus (x - b) 0 c scale ^ 2)
      ((fun x => c * (Real.log (1 + Real.exp (scale * (x - b))) / scale *
        (Real.exp (scale * (x - b)) / (1 + Real.exp (scale * (x - b)))))) x) x := by
    intro x
    have h2 := (((hL x).div_const scale).pow 2).const_mul (c / 2)
    have h3 : (fun x => c / 2 * gplusSoftplus (x - b) 0 c scale ^ 2) =
        fun x => c / 2 * (Real.log (1 + Real.exp (scale * (x - b))) / scale) ^ 2 := by
      funext t
      simp [gplusSoftplus]
    rw [h3]
    refine h2.congr_deriv ?_
    have := (hp x).ne'
    simp only [Nat.cast_ofNat, Nat.add_one_sub_one, pow_one]
    field_simp
  have h2 : HasDerivAt (fun x => c * (Real.log (1 + Real.exp (scale * (x - b))) / scale *
        (Real.exp (scale * (x - b)) / (1 + Real.exp (scale * (x - b))))))
      (c * (q ^ 2 + Real.log (1 + Real.exp (scale * (y0 - b))) * (q * (1 - q)))) y0 := by
    have := (((hL y0).div_const scale).mul ((he y0).div ((he y0).const_add 1) (hp y0).ne')).const_mul c
    refine this.congr_deriv ?_
    have h5 := (hp y0).ne'
    simp only [Pi.div_apply]
    rw [hq]
    clear * - h5 hs
    generalize Real.exp (scale * (y0 - b)) = t at *
    generalize Real.log (1 + t) = u
    field_simp
  have h3 := near_reported (near_lk (fun g mu c => gplusSoftplus g mu c scale) b c) (Eventually.of_forall h1) h2 v
  refine ⟨h3.1, h3.2, fun h4 => ?_⟩
  rw [h3.1] at h4
  have hE := Real.exp_pos (scale * (y0 - b))
  have hq0 : 0 < q := by
    rw [hq]
    exact div_pos hE (hp y0)
  have hq1 : q < 1 := by
    rw [hq, div_lt_one (hp y0)]
    linarith
  have hlog : 0 < Real.log (1 + Real.exp (scale * (y0 - b))) := Real.log_pos (by linarith)
  have ha : 0 ≤ c * (Real.log (1 + Real.exp (scale * (y0 - b))) * (q * (1 - q))) :=
    mul_nonneg hc.le (mul_nonneg hlog.le (mul_nonneg hq0.le (by linarith)))
  have hb : 0 < c * q ^ 2 := by positivity
  have hK : 0 < 1 + c * (q ^ 2 + Real.log (1 + Real.exp (scale * (y0 - b))) * (q * (1 - q))) := by
    rw [mul_add]
    linarith
  have hv : 0 < v := by
    by_contra h5
    push Not at h5
    nlinarith
  refine ⟨hv, ?_, ?_⟩
  · rw [le_div_iff₀ (by linarith)]
    nlinarith
  · rw [div_lt_one (by linarith)]
    linarith

/-- The solution is not even a stationary point of what is differentiated: with `gplus_elu` the slope at the solution is
`c (t - 1) t / scale < 0`, so the differentiated Lagrangian has lower values towards the limit. -/
theorem C175_not_stationary_partial (b c scale y0 : ℝ) (hs : 0 < scale) (hc : 0 < c) (h : y0 < b) :
    HasDerivAt (fun x => lk nearF (nearG b) nearH (fun g mu c => gplusElu g mu c scale) (fun _ => 0) (fun j => j.elim0) c x y0)
      (c * ((Real.exp (scale * (y0 - b)) - 1) / scale * Real.exp (scale * (y0 - b)))) y0 ∧
    c * ((Real.exp (scale * (y0 - b)) - 1) / scale * Real.exp (scale * (y0 - b))) < 0 := by
  have he : HasDerivAt (fun x => Real.exp (scale * (x - b))) (Real.exp (scale * (y0 - b)) * scale) y0 := by
    have := (((hasDerivAt_id y0).sub_const b).const_mul scale).exp
    refine this.congr_deriv ?_
    simp
  constructor
  · simp only [near_lk]
    have hn : HasDerivAt (fun x => nearF x y0) 0 y0 := by
      have := (((hasDerivAt_id y0).sub_const y0).pow 2).div_const 2
      refine (this.congr_deriv ?_)
      simp
    have h2 : HasDerivAt (fun x => c / 2 * ((Real.exp (scale * (x - b)) - 1) / scale) ^ 2)
        (c * ((Real.exp (scale * (y0 - b)) - 1) / scale * Real.exp (scale * (y0 - b)))) y0 := by
      have := ((((he.sub_const 1).div_const scale).pow 2).const_mul (c / 2))
      refine this.congr_deriv ?_
      simp only [Nat.cast_ofNat, Nat.add_one_sub_one, pow_one]
      field_simp
    have h3 := hn.add h2
    rw [zero_add] at h3
    refine h3.congr_of_eventuallyEq ?_
    filter_upwards [eventually_lt_nhds h] with t ht
    have : gplusElu (t - b) 0 c scale = (Real.exp (scale * (t - b)) - 1) / scale := by
      unfold gplusElu
      rw [zero_div, add_zero, if_pos (by linarith), sub_zero]
    simp [this]
  · have h1 : Real.exp (scale * (y0 - b)) < 1 := by
      rw [← Real.exp_zero]
      exact Real.exp_lt_exp.2 (mul_neg_of_pos_of_neg hs (by linarith))
    have h2 := Real.exp_pos (scale * (y0 - b))
    exact mul_neg_of_pos_of_neg hc (mul_neg_of_neg_of_pos (div_neg_of_neg_of_pos (by linarith) hs) h2)

/-- The hypotheses of `C175_hard_partial` and of the counterexamples hold for the limit 1 at the input 0; those of
`C175_elu_active_partial` for the multiplier 1 of an active limit. -/
example : (∀ j, ContinuousAt (fun q : ℝ × ℝ => nearG 1 q.1 q.2 j) (0, 0)) ∧ (∀ j, nearG 1 0 0 j < 0) ∧
    (∀ j : Fin 1, -((fun _ => 1 : Fin 1 → ℝ) j) / 2 < nearG 1 1 5 j) :=
  ⟨fun _ => by unfold nearG; fun_prop, fun _ => by norm_num [nearG], fun _ => by norm_num [nearG]⟩

end Verif
