import Verif.Lemmas.SmoothConvex
import Verif.Lemmas.Lse
import Mathlib.Analysis.SpecialFunctions.Trigonometric.DerivHyp
import Mathlib.Analysis.SpecialFunctions.Log.Deriv
import Mathlib.Analysis.SpecialFunctions.ExpDeriv
import Mathlib.Analysis.Convex.SpecificFunctions.Basic
import Mathlib.Algebra.BigOperators.Group.List.Basic

/-! The smooth maximum of smooth convex functions is smooth and convex. -/

namespace Verif

variable {N : ℕ}

theorem exp_maxLse {xs : List ℝ} {eps : ℝ} (he : 0 < eps) (hne : xs ≠ []) :
    Real.exp (maxLse xs eps / eps) = (xs.map fun x => Real.exp (x / eps)).sum := by
  rw [maxLse, mul_div_cancel_left₀ _ he.ne', Real.exp_log (sum_exp_pos hne eps)]

theorem ConvexFn.maxLse (fs : List ((Fin N → ℝ) → ℝ)) (h : ∀ f ∈ fs, ConvexFn f) {eps : ℝ} (he : 0 < eps) :
    ConvexFn fun x => Verif.maxLse (fs.map fun f => f x) eps := by
  intro x y a h0 h1
  by_cases hne : fs = []
  · subst hne
    simp [Verif.maxLse]
  have hne' : ∀ z, (fs.map fun f => f z) ≠ [] := fun z => by simpa using hne
  set A := Verif.maxLse (fs.map fun f => f x) eps with hA
  set B := Verif.maxLse (fs.map fun f => f y) eps with hB
  have hx : (fs.map fun f => Real.exp ((f x - A) / eps)).sum = 1 := by
    have := exp_maxLse he (hne' x)
    rw [List.map_map] at this
    have e : (fs.map fun f => Real.exp ((f x - A) / eps)) = fs.map fun f => Real.exp (-(A / eps)) * Real.exp (f x / eps) :=
      List.map_congr_left fun f _ => by rw [← Real.exp_add]; congr 1; ring
    rw [e, List.sum_map_mul_left]
    have e2 : (fs.map fun f => Real.exp (f x / eps)).sum = Real.exp (A / eps) := this.symm
    rw [e2, ← Real.exp_add]
    simp
  have hy : (fs.map fun f => Real.exp ((f y - B) / eps)).sum = 1 := by
    have := exp_maxLse he (hne' y)
    rw [List.map_map] at this
    have e : (fs.map fun f => Real.exp ((f y - B) / eps)) = fs.map fun f => Real.exp (-(B / eps)) * Real.exp (f y / eps) :=
      List.map_congr_left fun f _ => by rw [← Real.exp_add]; congr 1; ring
    rw [e, List.sum_map_mul_left]
    have e2 : (fs.map fun f => Real.exp (f y / eps)).sum = Real.exp (B / eps) := this.symm
    rw [e2, ← Real.exp_add]
    simp
  have key : ∀ f ∈ fs, Real.exp (f (fun i => a * x i + (1 - a) * y i) / eps) ≤ Real.exp ((a * A + (1 - a) * B) / eps) *
      (a * Real.exp ((f x - A) / eps) + (1 - a) * Real.exp ((f y - B) / eps)) := by
    intro f hf
    have h2 := convexOn_exp.2 (Set.mem_univ ((f x - A) / eps)) (Set.mem_univ ((f y - B) / eps)) h0 (by linarith : 0 ≤ 1 - a) (by ring)
    simp only [smul_eq_mul] at h2
    refine le_trans ?_ (mul_le_mul_of_nonneg_left h2 (Real.exp_pos _).le)
    rw [← Real.exp_add]
    refine Real.exp_le_exp.2 ?_
    have h3 := h f hf x y a h0 h1
    have : (a * A + (1 - a) * B) / eps + (a * ((f x - A) / eps) + (1 - a) * ((f y - B) / eps)) = (a * f x + (1 - a) * f y) / eps := by
      ring
    rw [this]
    exact div_le_div_of_nonneg_right h3 he.le
  have hsum : (fs.map fun f => Real.exp (f (fun i => a * x i + (1 - a) * y i) / eps)).sum ≤ Real.exp ((a * A + (1 - a) * B) / eps) := by
    refine (List.sum_le_sum key).trans ?_
    rw [List.sum_map_mul_left, List.sum_map_add, List.sum_map_mul_left, List.sum_map_mul_left, hx, hy]
    simp
  have hpos : 0 < (fs.map fun f => Real.exp (f (fun i => a * x i + (1 - a) * y i) / eps)).sum := by
    have := sum_exp_pos (hne' (fun i => a * x i + (1 - a) * y i)) eps
    rwa [List.map_map] at this
  have hlog := Real.log_le_log hpos hsum
  rw [Real.log_exp, le_div_iff₀ he, mul_comm] at hlog
  show Verif.maxLse _ eps ≤ a * A + (1 - a) * B
  rw [Verif.maxLse, List.map_map]
  exact hlog

theorem SmoothConvex.maxLse (fs : List ((Fin N → ℝ) → ℝ)) (h : ∀ f ∈ fs, SmoothConvex f) {eps : ℝ} (he : 0 < eps) :
    SmoothConvex fun x => Verif.maxLse (fs.map fun f => f x) eps := by
  refine ⟨ConvexFn.maxLse fs (fun f hf => (h f hf).convex) he, ?_⟩
  by_cases hne : fs = []
  · subst hne
    simp [Verif.maxLse]
  have hd : Differentiable ℝ fun x => (fs.map fun f => Real.exp (f x / eps)).sum := by
    clear hne
    induction fs with
    | nil => simp
    | cons f fs ih =>
      simp only [List.map_cons, List.sum_cons]
      have h1 : Differentiable ℝ fun x => Real.exp (f x / eps) := by
        simp only [div_eq_mul_inv]
        exact Real.differentiable_exp.comp ((h f (by simp)).diff.mul_const eps⁻¹)
      exact h1.add (ih fun f hf => h f (by simp [hf]))
  have hpos : ∀ x, (fs.map fun f => Real.exp (f x / eps)).sum ≠ 0 := fun x => by
    have := sum_exp_pos (xs := fs.map fun f => f x) (by simpa using hne) eps
    rw [List.map_map] at this
    exact this.ne'
  have := (hd.log hpos).const_mul eps
  simpa only [Verif.maxLse, List.map_map, Function.comp_def] using this

/-- The smooth maximum of a list of functions. -/
theorem EachFn.maxLse {F : (Fin N → ℝ) → List ℝ} (h : EachFn SmoothConvex F) {eps : ℝ} (he : 0 < eps) :
    SmoothConvex fun x => Verif.maxLse (F x) eps := by
  obtain ⟨fs, e, hf⟩ := h
  simp only [e]
  exact SmoothConvex.maxLse fs hf he

theorem absLse_eq (x eps : ℝ) : absLse x eps = eps * Real.log (2 * Real.cosh (x / eps)) := by
  simp only [absLse, Verif.maxLse, List.map_cons, List.map_nil, List.sum_cons, List.sum_nil, add_zero, Real.cosh_eq, neg_div]
  congr 2
  ring

theorem absLse_mono {x y eps : ℝ} (he : 0 < eps) (h : |x| ≤ |y|) : absLse x eps ≤ absLse y eps := by
  rw [absLse_eq, absLse_eq]
  refine mul_le_mul_of_nonneg_left (Real.log_le_log (by have := Real.cosh_pos (x / eps); positivity) ?_) he.le
  refine mul_le_mul_of_nonneg_left (Real.cosh_le_cosh.2 ?_) (by norm_num)
  rw [abs_div, abs_div]
  exact div_le_div_of_nonneg_right h (abs_nonneg _)

theorem absLse_convex (s t a : ℝ) {eps : ℝ} (he : 0 < eps) (h0 : 0 ≤ a) (h1 : a ≤ 1) :
    absLse (a * s + (1 - a) * t) eps ≤ a * absLse s eps + (1 - a) * absLse t eps := by
  have := ConvexFn.maxLse (N := 1) [fun x => x 0, fun x => -x 0] (by
    intro f hf
    simp only [List.mem_cons, List.not_mem_nil, or_false] at hf
    rcases hf with rfl | rfl
    · exact (IsAffineFn.coord 0).smoothConvex.convex
    · exact (IsAffineFn.coord 0).neg.smoothConvex.convex) he (fun _ => s) (fun _ => t) a h0 h1
  simpa [absLse] using this

theorem absLse_differentiable {eps : ℝ} : Differentiable ℝ fun x => absLse x eps := by
  simp only [absLse_eq]
  refine ((((Real.differentiable_cosh.comp (differentiable_id.div_const eps)).const_mul 2)).log fun x => ?_).const_mul eps
  have := Real.cosh_pos (x / eps)
  simp only [Function.comp_apply]
  positivity

theorem IsAffineFn.absLse {f : (Fin N → ℝ) → ℝ} (h : IsAffineFn f) {eps : ℝ} (he : 0 < eps) :
    SmoothConvex fun x => Verif.absLse (f x) eps := by
  refine ⟨fun x y a h0 h1 => ?_, absLse_differentiable.comp h.smoothConvex.diff⟩
  simp only [h x y a]
  exact absLse_convex _ _ a he h0 h1

theorem SmoothConvex.absLse {f : (Fin N → ℝ) → ℝ} (h : SmoothConvex f) (hn : ∀ x, 0 ≤ f x) {eps : ℝ} (he : 0 < eps) :
    SmoothConvex fun x => Verif.absLse (f x) eps := by
  refine ⟨fun x y a h0 h1 => ?_, absLse_differentiable.comp h.diff⟩
  refine (absLse_mono he ?_).trans (absLse_convex (f x) (f y) a he h0 h1)
  rw [abs_of_nonneg (hn _)]
  exact (h.convex x y a h0 h1).trans (le_abs_self _)

theorem linfLse_nonneg {xs : List ℝ} {eps : ℝ} (he : 0 < eps) : 0 ≤ linfLse xs eps := by
  cases xs with
  | nil => simp [linfLse, Verif.maxLse]
  | cons x xs => exact (abs_nonneg x).trans (le_linfLse he (by simp))

theorem SmoothConvex.sq {f : (Fin N → ℝ) → ℝ} (h : SmoothConvex f) (hn : ∀ x, 0 ≤ f x) : SmoothConvex fun x => f x ^ 2 := by
  refine ⟨fun x y a h0 h1 => ?_, h.diff.pow 2⟩
  have h2 := h.convex x y a h0 h1
  have h3 := hn (fun i => a * x i + (1 - a) * y i)
  have h4 : f (fun i => a * x i + (1 - a) * y i) ^ 2 ≤ (a * f x + (1 - a) * f y) ^ 2 := pow_le_pow_left₀ h3 h2 2
  nlinarith [mul_nonneg (mul_nonneg h0 (by linarith : 0 ≤ 1 - a)) (sq_nonneg (f x - f y))]

end Verif
