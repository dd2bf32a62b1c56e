import Verif.Model.AutoDiff
import Verif.Model.ImplicitDiff
import Verif.Props.MaskGrad

/-!
# C177: the gradients that automatic differentiation computes are numbers
-/

namespace Verif

open Filter Topology

namespace XR

theorem nan_add (a : XR) : add nan a = nan := by cases a <;> rfl
theorem add_nan (a : XR) : add a nan = nan := by cases a <;> rfl
theorem nan_mul (a : XR) : mul nan a = nan := by cases a <;> rfl
theorem mul_nan (a : XR) : mul a nan = nan := by cases a <;> rfl
theorem nan_div (a : XR) : div nan a = nan := by cases a <;> rfl
theorem zero_mul_pinf : mul (fin 0) pinf = nan := by simp [mul, signed]
theorem signed_zero : signed 0 = nan := by simp [signed]
theorem div_fin {a b : ℝ} (hb : b ≠ 0) : div (fin a) (fin b) = fin (a / b) := by simp [div, hb]
theorem exp_fin {L x : ℝ} (h : x ≤ L) : exp L (fin x) = fin (Real.exp x) := by simp [exp, h]
theorem exp_over {L x : ℝ} (h : L < x) : exp L (fin x) = pinf := by simp [exp, h]
theorem log_fin {x : ℝ} (h : 0 < x) : log (fin x) = fin (Real.log x) := by simp [log, h]
theorem sqrt_fin {x : ℝ} (h : 0 ≤ x) : sqrt (fin x) = fin (Real.sqrt x) := by simp [sqrt, h]

theorem max_fin (a b : ℝ) : max (fin a) (fin b) = fin (Max.max a b) := by
  by_cases h : a < b
  · simp [max, lt, h, max_eq_right h.le]
  · simp [max, lt, h, max_eq_left (not_lt.1 h)]

theorem balanced_fin (a m b : ℝ) : balanced (fin a) (fin m) (fin b) =
    fin (if a = m then (if b = m then 1 / 2 else 1) else 0) := by
  simp only [balanced, fin.injEq, ne_eq, reduceCtorEq, not_false_eq_true, and_true]
  by_cases h1 : a = m <;> by_cases h2 : b = m <;> simp [h1, h2, div]

end XR

namespace Ex

/-- At this number no part of the expression overflows, divides by zero, or is at a point where it is not differentiable. -/
def Regular (L : ℝ) : Ex → ℝ → Prop
  | var, _ | const _, _ => True
  | add a b, x | mul a b, x => a.Regular L x ∧ b.Regular L x
  | div a b, x => a.Regular L x ∧ b.Regular L x ∧ b.real x ≠ 0
  | neg a, x => a.Regular L x
  | exp a, x => a.Regular L x ∧ a.real x ≤ L
  | log a, x | sqrt a, x => a.Regular L x ∧ 0 < a.real x
  | max a b, x => a.Regular L x ∧ b.Regular L x ∧ a.real x ≠ b.real x
  | whereLt u v a b, x | whereNe u v a b, x =>
      u.Regular L x ∧ v.Regular L x ∧ u.real x ≠ v.real x ∧ a.Regular L x ∧ b.Regular L x
  | mask _ a b, x => a.Regular L x ∧ b.Regular L x

end Ex

open Ex in
/-- **C177 (regular points).** Where no part of an expression is irregular, the rules give the value and the derivative. -/
theorem C177_regular_partial (L : ℝ) (e : Ex) (x : ℝ) (h : e.Regular L x) : e.eval L (.fin x) = .fin (e.real x) ∧
    ∃ D, HasDerivAt e.real D x ∧ ∀ ct, e.bwd L (.fin x) (.fin ct) = .fin (ct * D) := by
  induction e with
  | var => exact ⟨rfl, 1, hasDerivAt_id x, fun ct => by simp [bwd]⟩
  | const r => exact ⟨rfl, 0, hasDerivAt_const x r, fun ct => by simp [bwd]⟩
  | add a b iha ihb =>
    obtain ⟨ea, Da, ha, ba⟩ := iha h.1
    obtain ⟨eb, Db, hb, bb⟩ := ihb h.2
    refine ⟨by simp [eval, ea, eb, XR.add, real], Da + Db, ha.add hb, fun ct => ?_⟩
    simp only [bwd, ba, bb, XR.add, mul_add]
  | mul a b iha ihb =>
    obtain ⟨ea, Da, ha, ba⟩ := iha h.1
    obtain ⟨eb, Db, hb, bb⟩ := ihb h.2
    refine ⟨by simp [eval, ea, eb, XR.mul, real], Da * b.real x + a.real x * Db, ha.mul hb, fun ct => ?_⟩
    simp only [bwd, ea, eb, XR.mul, ba, bb, XR.add]
    ring_nf
  | div a b iha ihb =>
    obtain ⟨ea, Da, ha, ba⟩ := iha h.1
    obtain ⟨eb, Db, hb, bb⟩ := ihb h.2.1
    refine ⟨by simp [eval, ea, eb, XR.div_fin h.2.2, real], _, ha.div hb h.2.2, fun ct => ?_⟩
    have h2 := h.2.2
    simp only [bwd, ea, eb, XR.mul, XR.div_fin h.2.2, XR.div_fin (mul_ne_zero h.2.2 h.2.2), XR.neg, ba, bb, XR.add]
    congr 1
    field_simp
    ring
  | neg a iha =>
    obtain ⟨ea, Da, ha, ba⟩ := iha h
    refine ⟨by simp [eval, ea, XR.neg, real], -Da, ha.neg, fun ct => ?_⟩
    simp only [bwd, XR.neg, ba]
    ring_nf
  | exp a iha =>
    obtain ⟨ea, Da, ha, ba⟩ := iha h.1
    refine ⟨by simp [eval, ea, XR.exp_fin h.2, real], _, ha.exp, fun ct => ?_⟩
    simp only [bwd, ea, XR.exp_fin h.2, XR.mul, ba]
    ring_nf
  | log a iha =>
    obtain ⟨ea, Da, ha, ba⟩ := iha h.1
    refine ⟨by simp [eval, ea, XR.log_fin h.2, real], _, ha.log h.2.ne', fun ct => ?_⟩
    simp only [bwd, ea, XR.div_fin h.2.ne', ba]
    ring_nf
  | sqrt a iha =>
    obtain ⟨ea, Da, ha, ba⟩ := iha h.1
    have hs : Real.sqrt (a.real x) ≠ 0 := (Real.sqrt_pos.2 h.2).ne'
    refine ⟨by simp [eval, ea, XR.sqrt_fin h.2.le, real], _, ha.sqrt h.2.ne', fun ct => ?_⟩
    simp only [bwd, ea, XR.sqrt_fin h.2.le, XR.div_fin hs, XR.mul, ba]
    congr 1
    field_simp
  | max a b iha ihb =>
    obtain ⟨ea, Da, ha, ba⟩ := iha h.1
    obtain ⟨eb, Db, hb, bb⟩ := ihb h.2.1
    refine ⟨by simp [eval, ea, eb, XR.max_fin, real], ?_⟩
    rcases lt_or_gt_of_ne h.2.2 with h1 | h1
    · refine ⟨Db, hb.congr_of_eventuallyEq ?_, fun ct => ?_⟩
      · filter_upwards [ha.continuousAt.eventually_lt hb.continuousAt h1] with t ht
        exact max_eq_right ht.le
      · simp only [bwd, ea, eb, XR.max_fin, XR.balanced_fin, max_eq_right h1.le, h1.ne, if_false, if_true, XR.mul, ba, bb, XR.add]
        ring_nf
    · refine ⟨Da, ha.congr_of_eventuallyEq ?_, fun ct => ?_⟩
      · filter_upwards [hb.continuousAt.eventually_lt ha.continuousAt h1] with t ht
        exact max_eq_left ht.le
      · simp only [bwd, ea, eb, XR.max_fin, XR.balanced_fin, max_eq_left h1.le, h1.ne, if_false, if_true, XR.mul, ba, bb, XR.add]
        ring_nf
  | whereLt u v a b ihu ihv iha ihb =>
    obtain ⟨hu, hv, huv, hra, hrb⟩ := h
    obtain ⟨eu, Du, hu, -⟩ := ihu hu
    obtain ⟨ev, Dv, hv, -⟩ := ihv hv
    obtain ⟨ea, Da, ha, ba⟩ := iha hra
    obtain ⟨eb, Db, hb, bb⟩ := ihb hrb
    rcases lt_or_gt_of_ne huv with h1 | h1
    · refine ⟨by simp [eval, eu, ev, ea, XR.lt, h1, real], Da, ha.congr_of_eventuallyEq ?_, fun ct => ?_⟩
      · filter_upwards [hu.continuousAt.eventually_lt hv.continuousAt h1] with t ht
        simp [real, ht]
      · simp [bwd, eu, ev, XR.lt, h1, ba, bb, XR.add]
    · refine ⟨by simp [eval, eu, ev, eb, XR.lt, not_lt.2 h1.le, real], Db, hb.congr_of_eventuallyEq ?_, fun ct => ?_⟩
      · filter_upwards [hv.continuousAt.eventually_lt hu.continuousAt h1] with t ht
        simp [real, not_lt.2 ht.le]
      · simp [bwd, eu, ev, XR.lt, not_lt.2 h1.le, ba, bb, XR.add]
  | whereNe u v a b ihu ihv iha ihb =>
    obtain ⟨hu, hv, huv, hra, hrb⟩ := h
    obtain ⟨eu, Du, hu, -⟩ := ihu hu
    obtain ⟨ev, Dv, hv, -⟩ := ihv hv
    obtain ⟨ea, Da, ha, ba⟩ := iha hra
    obtain ⟨eb, Db, hb, bb⟩ := ihb hrb
    refine ⟨by simp [eval, eu, ev, ea, huv, real], Da, ha.congr_of_eventuallyEq ?_, fun ct => ?_⟩
    · filter_upwards [(hu.continuousAt.sub hv.continuousAt).eventually_ne (sub_ne_zero.2 huv)] with t ht
      simp [real, sub_ne_zero.1 ht]
    · simp [bwd, eu, ev, huv, ba, bb, XR.add]
  | mask m a b iha ihb =>
    obtain ⟨ea, Da, ha, ba⟩ := iha h.1
    obtain ⟨eb, Db, hb, bb⟩ := ihb h.2
    cases m
    · refine ⟨by simp [eval, eb, real], Db, ?_, fun ct => by simp [bwd, ba, bb, XR.add]⟩
      simpa [real] using hb
    · refine ⟨by simp [eval, ea, real], Da, ?_, fun ct => by simp [bwd, ba, bb, XR.add]⟩
      simpa [real] using ha

/-- `sqrt (x * x)` at 3. -/
example (L : ℝ) : ∃ D, (Ex.sqrt (.mul .var .var)).grad L 3 = .fin D := by
  obtain ⟨-, D, -, h⟩ := C177_regular_partial L (.sqrt (.mul .var .var)) 3 ⟨⟨trivial, trivial⟩, by norm_num [Ex.real]⟩
  exact ⟨D, by rw [Ex.grad, h, one_mul]⟩

/-! ## The masks -/

theorem hardEx_real (mu c g : ℝ) : (hardEx mu c).real g = gplusHard1 g mu c := rfl

theorem eluEx_real (mu c scale g : ℝ) : (eluEx mu c scale).real g = gplusElu g mu c scale := by
  simp only [eluEx, shiftedEx, Ex.real, Ex.sub, gplusElu, ← sub_eq_add_neg]

theorem softplusEx_real (mu c scale g : ℝ) : (softplusEx mu c scale).real g = gplusSoftplus g mu c scale := by
  simp only [softplusEx, shiftedEx, Ex.real, Ex.sub, gplusSoftplus, ← sub_eq_add_neg]

/-- **C177 (`gplus_hard`).** Value and gradient are numbers at every value of the constraint, also at the kink. -/
theorem C177_hard_partial (L mu c g : ℝ) : (hardEx mu c).eval L (.fin g) = .fin (gplusHard1 g mu c) ∧
    (hardEx mu c).grad L g = .fin (if g < -mu / c then 0 else if g = -mu / c then 1 / 2 else 1) := by
  refine ⟨by simp [hardEx, Ex.eval, XR.max_fin, gplusHard1], ?_⟩
  simp only [hardEx, Ex.grad, Ex.bwd, Ex.eval, XR.max_fin, XR.balanced_fin, XR.mul, XR.add, one_mul, add_zero]
  congr 1
  rcases lt_trichotomy g (-mu / c) with h | h | h
  · rw [if_pos h, if_neg]
    rw [max_eq_right h.le]
    exact h.ne
  · simp [h]
  · rw [if_neg h.not_gt, if_neg h.ne', max_eq_left h.le, if_pos rfl, if_neg h.ne]

/-- **C177 (`gplus_elu`).** The value is a number at every value of the constraint; the gradient is the derivative as long as
`scale * (g + mu/c)` does not exceed the largest exponent. -/
theorem C177_elu_partial {L mu c scale g : ℝ} (hL : 0 ≤ L) (hs : 0 < scale) :
    (eluEx mu c scale).eval L (.fin g) = .fin (gplusElu g mu c scale) ∧
    (scale * (g + mu / c) ≤ L → (eluEx mu c scale).grad L g = .fin (if g + mu / c < 0 then Real.exp (scale * (g + mu / c)) else 1)) := by
  constructor
  · by_cases h : g + mu / c < 0
    · have h1 : scale * (g + mu / c) ≤ L := (mul_nonpos_of_nonneg_of_nonpos hs.le h.le).trans hL
      simp [eluEx, shiftedEx, Ex.eval, Ex.sub, XR.add, XR.mul, XR.neg, XR.lt, h, XR.exp_fin h1, XR.div_fin hs.ne', gplusElu, sub_eq_add_neg]
    · simp [eluEx, shiftedEx, Ex.eval, Ex.sub, XR.add, XR.neg, XR.lt, h, gplusElu]
  · intro h1
    have h2 : scale * scale ≠ 0 := (mul_pos hs hs).ne'
    by_cases h : g + mu / c < 0
    · simp [Ex.grad, eluEx, shiftedEx, Ex.bwd, Ex.eval, Ex.sub, XR.add, XR.mul, XR.neg, XR.lt, h, XR.exp_fin h1, XR.div_fin hs.ne',
        XR.div_fin h2]
      field_simp
    · simp [Ex.grad, eluEx, shiftedEx, Ex.bwd, Ex.eval, Ex.sub, XR.add, XR.mul, XR.neg, XR.lt, h, XR.exp_fin h1, XR.div_fin hs.ne',
        XR.div_fin h2]

/-- Beyond the largest exponent the gradient of `gplus_elu` is NaN. -/
theorem eluEx_bwd_nan {L mu c scale g : ℝ} (hL : 0 ≤ L) (hs : 0 < scale) (h : L < scale * (g + mu / c)) (ct : ℝ) :
    (eluEx mu c scale).bwd L (.fin g) (.fin ct) = .nan := by
  have h1 : ¬ g + mu / c < 0 := by
    intro h1
    have := mul_neg_of_pos_of_neg hs h1
    linarith
  simp [eluEx, shiftedEx, Ex.bwd, Ex.eval, Ex.sub, XR.add, XR.mul, XR.lt, h1, XR.exp_over h, XR.div_fin hs.ne', XR.signed_zero,
    XR.mul_nan, XR.add_nan, XR.nan_add]

/-- The expression of the constraint term is what `l_k_terms` computes for one inequality constraint whose value is the unknown: its
second and third term together, and the first one is the objective. -/
theorem C177_lk_terms_partial (f : ℝ → ℝ) (e : Ex) (mask : ℝ → ℝ → ℝ → ℝ) (mu c x : ℝ) (h : e.real x = mask x mu c) :
    ∑ i, lkTerms (m := 0) (p := 1) (fun x (_ : ℝ) => f x) (fun x _ _ => x) (fun _ _ i => i.elim0) mask (fun _ => mu) (fun i => i.elim0) c
      x 0 i = f x + (lkConstraintEx e mu c).real x := by
  simp only [Fin.sum_univ_three, lkTerms, lkConstraintEx, Ex.real, h]
  simp
  ring

/-- With `gplus_elu`, multiplier 1, `c = 2` and violation 3 the constraint adds `1 * 3 + 2 / 2 * 3 ^ 2 = 12`. -/
example : (lkConstraintEx (eluEx 1 2 1) 1 2).real 3 = 12 := by
  have h := C177_lk_terms_partial (fun _ => 0) (eluEx 1 2 1) (fun g mu c => gplusElu g mu c 1) 1 2 3 (eluEx_real 1 2 1 3)
  rw [zero_add] at h
  rw [← h]
  simp [Fin.sum_univ_three, lkTerms, gplusElu]
  norm_num

/-- **C177, false of `gplus_elu`.** Where the constraint is violated so much, or the multiplier is so large, that `scale * (g + mu/c)`
exceeds the largest exponent, the mask is the identity with derivative 1, and the gradient is NaN: the exponential in the branch that is
not selected is infinite, and `jnp.where` passes 0 to it. The gradient of the augmented Lagrangian is NaN then, whatever the other
terms are. -/
theorem C177_elu_violated_partial {L mu c scale g : ℝ} (hL : 0 ≤ L) (hs : 0 < scale) (h : L < scale * (g + mu / c)) :
    (eluEx mu c scale).eval L (.fin g) = .fin g ∧ HasDerivAt (fun g => gplusElu g mu c scale) 1 g ∧
      (eluEx mu c scale).grad L g = .nan ∧ ∀ rest : Ex, (Ex.add rest (lkConstraintEx (eluEx mu c scale) mu c)).grad L g = .nan := by
  have h0 : 0 < g + mu / c := by
    by_contra h1
    have := mul_nonpos_of_nonneg_of_nonpos hs.le (not_lt.1 h1)
    linarith
  have hval : (eluEx mu c scale).eval L (.fin g) = .fin g := by
    rw [(C177_elu_partial hL hs).1]
    simp [gplusElu, h0.le.not_gt]
  refine ⟨hval, ?_, eluEx_bwd_nan hL hs h 1, fun rest => ?_⟩
  · refine (hasDerivAt_id g).congr_of_eventuallyEq ?_
    have h1 : ContinuousAt (fun t : ℝ => t + mu / c) g := by fun_prop
    filter_upwards [h1.eventually (lt_mem_nhds h0)] with t ht
    simp [gplusElu, ht.le.not_gt]
  · have hm : (Ex.mul (.const mu) (eluEx mu c scale)).bwd L (.fin g) (.fin 1) = .nan := by
      simp only [Ex.bwd, Ex.eval, XR.mul, eluEx_bwd_nan hL hs h, XR.add_nan]
    simp only [Ex.grad, Ex.bwd, lkConstraintEx] at hm ⊢
    rw [hm, XR.nan_add, XR.add_nan]

/-- Constraint value 800, multiplier 0, default scale: beyond the largest exponent of 64 bit numbers. -/
example : (eluEx 0 1 1).grad 710 800 = .nan :=
  (C177_elu_violated_partial (L := 710) (mu := 0) (c := 1) (scale := 1) (g := 800) (by norm_num) (by norm_num) (by norm_num)).2.2.1

example : (eluEx 0 1 1).grad 710 700 = .fin 1 := by
  rw [(C177_elu_partial (L := 710) (mu := 0) (c := 1) (scale := 1) (g := 700) (by norm_num) (by norm_num)).2 (by norm_num)]
  norm_num

/-- **C177 (`gplus_softplus`).** Value and gradient are the true ones as long as `scale * (g + mu/c)` does not exceed the largest
exponent. -/
theorem C177_softplus_partial {L mu c scale g : ℝ} (hs : 0 < scale) (h : scale * (g + mu / c) ≤ L) :
    (softplusEx mu c scale).eval L (.fin g) = .fin (gplusSoftplus g mu c scale) ∧
      ∃ D, HasDerivAt (fun g => gplusSoftplus g mu c scale) D g ∧ (softplusEx mu c scale).grad L g = .fin D := by
  have hreg : (softplusEx mu c scale).Regular L g := by
    simp only [softplusEx, shiftedEx, Ex.sub, Ex.Regular, Ex.real, true_and, and_true]
    exact ⟨⟨h, by positivity⟩, hs.ne'⟩
  obtain ⟨h1, D, h2, h3⟩ := C177_regular_partial L _ g hreg
  refine ⟨by rw [h1, softplusEx_real], D, ?_, by rw [Ex.grad, h3, one_mul]⟩
  rwa [show (softplusEx mu c scale).real = fun g => gplusSoftplus g mu c scale from funext (softplusEx_real mu c scale)] at h2

/-- **C177, false of `gplus_softplus`.** Beyond the largest exponent the value is infinite and the gradient NaN, while the function itself
is within `log 2/scale` of the constraint. -/
theorem C177_softplus_violated_partial {L mu c scale g : ℝ} (hL : 0 ≤ L) (hs : 0 < scale) (h : L < scale * (g + mu / c)) :
    (softplusEx mu c scale).eval L (.fin g) = .pinf ∧ (softplusEx mu c scale).grad L g = .nan ∧
      g ≤ gplusSoftplus g mu c scale ∧ gplusSoftplus g mu c scale ≤ g + Real.log 2 / scale := by
  have hpos : 0 < scale * (g + mu / c) := hL.trans_lt h
  have he : (0 : ℝ) < Real.exp (scale * (g + mu / c)) := Real.exp_pos _
  refine ⟨?_, ?_, ?_, ?_⟩
  · simp [softplusEx, shiftedEx, Ex.eval, Ex.sub, XR.add, XR.mul, XR.neg, XR.exp_over h, XR.log, XR.div, hs.le.not_gt]
  · simp [Ex.grad, softplusEx, shiftedEx, Ex.eval, Ex.bwd, Ex.sub, XR.add, XR.mul, XR.exp_over h, XR.log, XR.div, hs.ne', XR.signed_zero,
      XR.mul_nan, XR.add_nan, XR.nan_add]
  · have h1 : scale * (g + mu / c) ≤ Real.log (1 + Real.exp (scale * (g + mu / c))) := by
      rw [Real.le_log_iff_exp_le (by positivity)]
      linarith
    have h2 : g + mu / c ≤ Real.log (1 + Real.exp (scale * (g + mu / c))) / scale := by
      rw [le_div_iff₀ hs]
      linarith
    unfold gplusSoftplus
    linarith
  · have h1 : Real.log (1 + Real.exp (scale * (g + mu / c))) ≤ Real.log 2 + scale * (g + mu / c) := by
      rw [Real.log_le_iff_le_exp (by positivity), Real.exp_add, Real.exp_log (by norm_num)]
      have := Real.one_lt_exp_iff.2 hpos
      linarith
    have h2 : Real.log (1 + Real.exp (scale * (g + mu / c))) / scale ≤ Real.log 2 / scale + (g + mu / c) := by
      rw [div_le_iff₀ hs]
      field_simp
      linarith
    unfold gplusSoftplus
    linarith

example : (softplusEx 0 1 1).eval 710 (.fin 800) = .pinf :=
  (C177_softplus_violated_partial (L := 710) (mu := 0) (c := 1) (scale := 1) (g := 800) (by norm_num) (by norm_num) (by norm_num)).1

end Verif
