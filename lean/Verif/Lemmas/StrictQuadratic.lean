import Verif.Lemmas.ImplicitMinimiser
import Verif.Lemmas.Growth
import Mathlib.Analysis.Calculus.LocalExtr.Basic

/-!
# Strictly convex quadratic functions

Along every line they are parabolas that open upwards. Stationary points are unique minimisers and the Hessian is not degenerate.
-/

namespace Verif

open Filter Topology

section
variable {X : Type} [NormedAddCommGroup X] [NormedSpace ℝ X]

/-- Along every line a parabola that opens upwards. -/
def StrictQuadratic (f : X → ℝ) : Prop :=
  ∃ q : X → X → ℝ, (∀ x v, v ≠ 0 → 0 < q x v) ∧ ∀ x v (t : ℝ), f (x + t • v) = t * f (x + v) + (1 - t) * f x - t * (1 - t) * q x v

theorem StrictQuadratic.mul {f : X → ℝ} (h : StrictQuadratic f) {s : ℝ} (hs : 0 < s) : StrictQuadratic fun x => s * f x := by
  obtain ⟨q, hq, hl⟩ := h
  refine ⟨fun x v => s * q x v, fun x v hv => mul_pos hs (hq x v hv), fun x v t => ?_⟩
  simp only [hl]
  ring

theorem StrictQuadratic.scale {f : X → ℝ} (h : StrictQuadratic f) {u : ℝ} (hu : u ≠ 0) : StrictQuadratic fun x => f (u • x) := by
  obtain ⟨q, hq, hl⟩ := h
  refine ⟨fun x v => q (u • x) (u • v), fun x v hv => hq _ _ (smul_ne_zero hu hv), fun x v t => ?_⟩
  have := hl (u • x) (u • v) t
  simp only [smul_add]
  rw [smul_comm u t v, this]

/-- The derivative along a line. -/
theorem StrictQuadratic.deriv_line {f : X → ℝ} {q : X → X → ℝ}
    (hl : ∀ x v (t : ℝ), f (x + t • v) = t * f (x + v) + (1 - t) * f x - t * (1 - t) * q x v) (hd : Differentiable ℝ f) (x v : X) (t : ℝ) :
    fderiv ℝ f (x + t • v) v = f (x + v) - f x - (1 - 2 * t) * q x v := by
  have h1 : HasDerivAt (fun s : ℝ => f (x + s • v)) (fderiv ℝ f (x + t • v) v) t := by
    have hline : HasDerivAt (fun s : ℝ => x + s • v) v t := by
      simpa using ((hasDerivAt_id t).smul_const v).const_add x
    exact HasFDerivAt.comp_hasDerivAt t (hd (x + t • v)).hasFDerivAt hline
  have h2 : HasDerivAt (fun s : ℝ => f (x + s • v)) (f (x + v) - f x - (1 - 2 * t) * q x v) t := by
    have e : (fun s : ℝ => f (x + s • v)) = fun s => s * f (x + v) + (1 - s) * f x - s * (1 - s) * q x v := funext fun s => hl x v s
    rw [e]
    have hi := hasDerivAt_id t
    have hi' := hi.const_sub 1
    have := ((hi.mul_const (f (x + v))).add (hi'.mul_const (f x))).sub ((hi.mul hi').mul_const (q x v))
    refine this.congr_deriv ?_
    simp only [id]
    ring
  exact h1.unique h2

/-- A stationary point is the only minimiser. -/
theorem StrictQuadratic.stationary {f : X → ℝ} (h : StrictQuadratic f) (hd : Differentiable ℝ f) {x : X} (hx : ∀ w, fderiv ℝ f x w = 0) :
    ∀ z, z ≠ x → f x < f z := by
  obtain ⟨q, hq, hl⟩ := h
  intro z hz
  have hv : z - x ≠ 0 := sub_ne_zero.2 hz
  have := StrictQuadratic.deriv_line hl hd x (z - x) 0
  rw [zero_smul, add_zero, hx, add_sub_cancel] at this
  have := hq x _ hv
  linarith

/-- There is at most one minimiser. -/
theorem StrictQuadratic.unique {f : X → ℝ} (h : StrictQuadratic f) {x z : X} (hx : ∀ y, f x ≤ f y) (hz : ∀ y, f z ≤ f y) : z = x := by
  obtain ⟨q, hq, hl⟩ := h
  by_contra hne
  have hp := hq x (z - x) (sub_ne_zero.2 hne)
  have h1 := hl x (z - x) (1 / 2)
  rw [add_sub_cancel] at h1
  have h2 := hx (x + (1 / 2 : ℝ) • (z - x))
  have h3 := hz x
  nlinarith

end

section
variable {X Y : Type} [NormedAddCommGroup X] [NormedSpace ℝ X] [FiniteDimensional ℝ X] [NormedAddCommGroup Y] [NormedSpace ℝ Y]

theorem StrictQuadratic.hessian {l : X → Y → ℝ} {x0 : X} {y0 : Y} (hl : ContDiffAt ℝ 2 (Function.uncurry l) (x0, y0))
    (h : StrictQuadratic fun x => l x y0) (hd : Differentiable ℝ fun x => l x y0) : ∀ v, (∀ w, hessian l x0 y0 v w = 0) → v = 0 := by
  obtain ⟨q, hq, hlin⟩ := h
  refine hessian_of_monotone hl (q := fun v => 2 * q x0 v) (fun v hv => by have := hq x0 v hv; positivity) fun v => Eventually.of_forall fun t => ?_
  have h1 := StrictQuadratic.deriv_line hlin hd x0 v t
  have h0 := StrictQuadratic.deriv_line hlin hd x0 v 0
  rw [zero_smul, add_zero] at h0
  rw [map_smul, map_smul, h1, h0, smul_eq_mul, smul_eq_mul]
  apply le_of_eq
  ring

/-- **The gradient along the minimisers of strictly convex quadratic functions.** -/
theorem quadratic_gradient [CompleteSpace Y] {l : X → Y → ℝ} {y0 : Y} {best : Y → X}
    (hl : ContDiffAt ℝ 2 (Function.uncurry l) (best y0, y0)) (hbest : ∀ᶠ y in 𝓝 y0, ∀ x, l (best y) y ≤ l x y)
    (hq : ∀ᶠ y in 𝓝 y0, (StrictQuadratic fun x => l x y) ∧ Differentiable ℝ fun x => l x y) :
    DifferentiableAt ℝ best y0 ∧ ∀ F : X → Y → ℝ, DifferentiableAt ℝ (Function.uncurry F) (best y0, y0) →
      (∃! v, SolvesHessian l F (best y0) y0 v) ∧ ∀ v, SolvesHessian l F (best y0) y0 v →
        ∀ dy, reportedGrad l F (best y0) y0 v dy = fderiv ℝ (fun y => F (best y) y) y0 dy := by
  refine gradient_along_best hl (hq.self_of_nhds.1.hessian hl hq.self_of_nhds.2) (fun w => ?_) ?_
  · have hmin : IsLocalMin (fun x => l x y0) (best y0) := Eventually.of_forall hbest.self_of_nhds
    rw [hmin.fderiv_eq_zero]
    rfl
  · filter_upwards [hbest, hq] with y hb hy x hx
    by_contra hne
    have := hy.1.stationary hy.2 hx (best y) (Ne.symm hne)
    linarith [hb x]

/-- The gradients near the minimiser are near those at the minimiser. -/
theorem quadratic_gradient_near [CompleteSpace Y] {l : X → Y → ℝ} {y0 : Y} {best : Y → X}
    (hl : ContDiffAt ℝ 2 (Function.uncurry l) (best y0, y0)) (hbest : ∀ᶠ y in 𝓝 y0, ∀ x, l (best y) y ≤ l x y)
    (hq : ∀ᶠ y in 𝓝 y0, (StrictQuadratic fun x => l x y) ∧ Differentiable ℝ fun x => l x y)
    {F : X → Y → ℝ} (hF : ContDiffAt ℝ 1 (Function.uncurry F) (best y0, y0)) (dy : Y) {ε : ℝ} (hε : 0 < ε) :
    ∀ᶠ x in 𝓝 (best y0), (∃! v, SolvesHessian l F x y0 v) ∧ ∀ v, SolvesHessian l F x y0 v →
      |reportedGrad l F x y0 v dy - fderiv ℝ (fun y => F (best y) y) y0 dy| < ε := by
  obtain ⟨⟨v0, hv0, -⟩, hgrad⟩ := (quadratic_gradient hl hbest hq).2 F (hF.differentiableAt (by norm_num))
  obtain ⟨h1, h2⟩ := reportedGrad_continuous hl hF (hq.self_of_nhds.1.hessian hl hq.self_of_nhds.2)
  filter_upwards [h1, h2 v0 hv0 dy ε hε] with x hx hv
  rw [← hgrad v0 hv0 dy]
  exact ⟨hx, hv⟩

end

/-- Sums of squares of affine functions that separate points are strictly convex quadratic functions. -/
theorem termsSq_strict {L : ℕ} (T : List (ℝ × ((Fin L → ℝ) → ℝ))) (hf : ∀ t ∈ T, IsAffineFn t.2) (hw : ∀ t ∈ T, 0 ≤ t.1) (hd : Definite T) :
    StrictQuadratic (termsSq T) := by
  refine ⟨fun x v => diffSq T (x + v) x, fun x v hv => ?_, fun x v t => ?_⟩
  · refine lt_of_le_of_ne (diffSq_nonneg T hw _ _) fun h => hv ?_
    have := hd _ _ h.symm
    simpa using this
  · rw [← termsSq_comb T hf]
    congr 1
    funext i
    simp only [Pi.add_apply, Pi.smul_apply, smul_eq_mul]
    ring

end Verif
