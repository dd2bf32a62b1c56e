import Verif.Lemmas.Linking
import Mathlib.Analysis.SpecialFunctions.Integrals.Basic

/-!
# The linking integral of a circle about the axis and a poloidal circle around it

For the circle of radius `a` and the poloidal circle of radius `r` about the distance `R` with `R^2 = a^2 + r^2` the integrand separates.
The integral does not depend on `r`, since the circle can be moved; its value is the limit for large `r`.
-/

namespace Verif

open Filter Topology MeasureTheory

/-- A circle about the axis, of radius `a` at the height 0, and its tangent. -/
noncomputable def axisCircle (a s : ℝ) : V3 := ⟨a * Real.cos (2 * Real.pi * s), a * Real.sin (2 * Real.pi * s), 0⟩

noncomputable def axisTangent (a s : ℝ) : V3 := ⟨-(2 * Real.pi * a * Real.sin (2 * Real.pi * s)), 2 * Real.pi * a * Real.cos (2 * Real.pi * s), 0⟩

/-- A circle in the plane `y = 0` of radius `r` about the distance `R` from the axis, and its tangent. -/
noncomputable def crossCircle (R r t : ℝ) : V3 := ⟨R + r * Real.cos (2 * Real.pi * t), 0, r * Real.sin (2 * Real.pi * t)⟩

noncomputable def crossTangent (r t : ℝ) : V3 := ⟨-(2 * Real.pi * r * Real.sin (2 * Real.pi * t)), 0, 2 * Real.pi * r * Real.cos (2 * Real.pi * t)⟩

theorem cos_turn (u : ℝ) : HasDerivAt (fun u => Real.cos (2 * Real.pi * u)) (-(2 * Real.pi * Real.sin (2 * Real.pi * u))) u := by
  have := ((hasDerivAt_id' u).const_mul (2 * Real.pi)).cos
  refine this.congr_deriv ?_
  ring

theorem sin_turn (u : ℝ) : HasDerivAt (fun u => Real.sin (2 * Real.pi * u)) (2 * Real.pi * Real.cos (2 * Real.pi * u)) u := by
  have := ((hasDerivAt_id' u).const_mul (2 * Real.pi)).sin
  refine this.congr_deriv ?_
  ring

theorem axisCircle_loop (a : ℝ) : IsLoop (axisCircle a) (axisTangent a) where
  deriv s := ⟨((cos_turn s).const_mul a).congr_deriv (by simp only [axisTangent]; ring),
    ((sin_turn s).const_mul a).congr_deriv (by simp only [axisTangent]; ring), hasDerivAt_const _ _⟩
  cont := by
    simp only [axisTangent]
    exact ⟨by fun_prop, by fun_prop, by fun_prop⟩
  closed := by simp [axisCircle]

/-- The two circles, when `R^2 = a^2 + r^2`: the distance separates. -/
theorem circle_distance (a r R s t : ℝ) (h : R ^ 2 = a ^ 2 + r ^ 2) :
    (crossCircle R r t - axisCircle a s).normSq = 2 * (R + r * Real.cos (2 * Real.pi * t)) * (R - a * Real.cos (2 * Real.pi * s)) := by
  have h1 := Real.sin_sq_add_cos_sq (2 * Real.pi * t)
  have h2 := Real.sin_sq_add_cos_sq (2 * Real.pi * s)
  simp only [V3.normSq, V3.sub_x, V3.sub_y, V3.sub_z, crossCircle, axisCircle]
  linear_combination r ^ 2 * h1 + a ^ 2 * h2 - h

theorem circle_triple (a r R s t : ℝ) (h : R ^ 2 = a ^ 2 + r ^ 2) :
    V3.dot (crossCircle R r t - axisCircle a s) (V3.cross (crossTangent r t) (axisTangent a s)) = (2 * Real.pi) ^ 2 *
      (R * (R + r * Real.cos (2 * Real.pi * t)) * (R - a * Real.cos (2 * Real.pi * s)) - r ^ 2 * (R + r * Real.cos (2 * Real.pi * t)) -
        a ^ 2 * (R - a * Real.cos (2 * Real.pi * s))) := by
  have h1 := Real.sin_sq_add_cos_sq (2 * Real.pi * t)
  have h2 := Real.sin_sq_add_cos_sq (2 * Real.pi * s)
  simp only [V3.dot, V3.cross, V3.sub_x, V3.sub_y, V3.sub_z, crossCircle, axisCircle, crossTangent, axisTangent]
  generalize Real.sin (2 * Real.pi * t) = st at *
  generalize Real.cos (2 * Real.pi * t) = ct at *
  generalize Real.sin (2 * Real.pi * s) = ss at *
  generalize Real.cos (2 * Real.pi * s) = cs at *
  linear_combination (2 * Real.pi) ^ 2 * (a ^ 2 * r * ct * h2 - a * r ^ 2 * cs * h1 - (R + r * ct - a * cs) * h)

/-! ## Integrals of powers of `c + b cos` -/

/-- `c + b cos` of a full turn. -/
noncomputable def wave (c b u : ℝ) : ℝ := c + b * Real.cos (2 * Real.pi * u)

theorem wave_bounds (c b u : ℝ) : c - |b| ≤ wave c b u ∧ wave c b u ≤ c + |b| := by
  have h := Real.abs_cos_le_one (2 * Real.pi * u)
  have k : |b * Real.cos (2 * Real.pi * u)| ≤ |b| := by
    rw [abs_mul]
    exact mul_le_of_le_one_right (abs_nonneg b) h
  rw [abs_le] at k
  rw [wave]
  exact ⟨by linarith [k.1], by linarith [k.2]⟩

theorem wave_pos {c b : ℝ} (h : |b| < c) (u : ℝ) : 0 < wave c b u := by linarith [(wave_bounds c b u).1]

theorem wave_cont (c b : ℝ) : Continuous (wave c b) := by
  unfold wave
  fun_prop

theorem wave_sqrt_cont {c b : ℝ} (h : |b| < c) (n : ℕ) : Continuous fun u => 1 / Real.sqrt (wave c b u) ^ n :=
  continuous_const.div (((wave_cont c b).sqrt).pow n) fun u => pow_ne_zero _ (Real.sqrt_pos.2 (wave_pos h u)).ne'

theorem wave_identity {c b : ℝ} (h : |b| < c) :
    (c ^ 2 - b ^ 2) * ∫ u in (0 : ℝ)..1, 1 / Real.sqrt (wave c b u) ^ 3 = ∫ u in (0 : ℝ)..1, Real.sqrt (wave c b u) := by
  have hd : ∀ u, HasDerivAt (fun u => b * Real.sin (2 * Real.pi * u) / Real.sqrt (wave c b u))
      (Real.pi * (Real.sqrt (wave c b u) - (c ^ 2 - b ^ 2) * (1 / Real.sqrt (wave c b u) ^ 3))) u := by
    intro u
    have hp := wave_pos h u
    have hs := Real.sqrt_pos.2 hp
    have hq := Real.sq_sqrt hp.le
    have w : HasDerivAt (wave c b) (-(2 * Real.pi * b * Real.sin (2 * Real.pi * u))) u := by
      have := ((cos_turn u).const_mul b).const_add c
      exact this.congr_deriv (by ring)
    refine (((sin_turn u).const_mul b).fun_div (w.sqrt hp.ne') hs.ne').congr_deriv ?_
    have h1 := Real.sin_sq_add_cos_sq (2 * Real.pi * u)
    have hw : wave c b u = c + b * Real.cos (2 * Real.pi * u) := rfl
    generalize Real.sqrt (wave c b u) = q at *
    generalize wave c b u = W at *
    generalize Real.sin (2 * Real.pi * u) = sn at *
    generalize Real.cos (2 * Real.pi * u) = cs at *
    field_simp
    rw [hw] at hq
    linear_combination (2 * b * cs - q ^ 2 - (c + b * cs)) * hq + b ^ 2 * h1
  have hc1 : Continuous fun u => Real.sqrt (wave c b u) := (wave_cont c b).sqrt
  have hc2 := wave_sqrt_cont h 3
  have hc : Continuous fun u => Real.pi * (Real.sqrt (wave c b u) - (c ^ 2 - b ^ 2) * (1 / Real.sqrt (wave c b u) ^ 3)) :=
    continuous_const.mul (hc1.sub (continuous_const.mul hc2))
  have h0 := intervalIntegral.integral_eq_sub_of_hasDerivAt (fun u _ => hd u) (hc.intervalIntegrable 0 1)
  have hz : b * Real.sin (2 * Real.pi * 1) / Real.sqrt (wave c b 1) - b * Real.sin (2 * Real.pi * 0) / Real.sqrt (wave c b 0) = 0 := by simp
  have hk : Continuous fun u => (c ^ 2 - b ^ 2) * (1 / Real.sqrt (wave c b u) ^ 3) := continuous_const.mul hc2
  rw [hz, intervalIntegral.integral_const_mul, intervalIntegral.integral_sub (hc1.intervalIntegrable _ _) (hk.intervalIntegrable _ _),
    intervalIntegral.integral_const_mul] at h0
  have := (mul_eq_zero.1 h0).resolve_left Real.pi_ne_zero
  linarith

/-! ## The linking integral as a product -/

theorem circle_linking (a r R : ℝ) (h : R ^ 2 = a ^ 2 + r ^ 2) (ha : |a| < R) (hr : |r| < R) :
    linking (axisCircle a) (axisTangent a) (crossCircle R r) (crossTangent r) = Real.pi / (2 * Real.sqrt 2) *
      ((∫ t in (0 : ℝ)..1, 1 / Real.sqrt (wave R r t)) * ((R * ∫ s in (0 : ℝ)..1, 1 / Real.sqrt (wave R (-a) s)) -
        ∫ s in (0 : ℝ)..1, Real.sqrt (wave R (-a) s)) -
        (∫ t in (0 : ℝ)..1, Real.sqrt (wave R r t)) * ∫ s in (0 : ℝ)..1, 1 / Real.sqrt (wave R (-a) s)) := by
  have ha' : |-a| < R := by rwa [abs_neg]
  have h2 : (0 : ℝ) < Real.sqrt 2 := Real.sqrt_pos.2 (by norm_num)
  have key : ∀ s t, V3.dot (crossCircle R r t - axisCircle a s) (V3.cross (crossTangent r t) (axisTangent a s)) /
      (crossCircle R r t - axisCircle a s).norm ^ 3 = (2 * Real.pi) ^ 2 / (2 * Real.sqrt 2) *
      ((R * (1 / Real.sqrt (wave R (-a) s) ^ 1) - r ^ 2 * (1 / Real.sqrt (wave R (-a) s) ^ 3)) * (1 / Real.sqrt (wave R r t) ^ 1) -
        1 / Real.sqrt (wave R (-a) s) ^ 1 * (a ^ 2 * (1 / Real.sqrt (wave R r t) ^ 3))) := by
    intro s t
    have p1 := wave_pos hr t
    have p2 := wave_pos ha' s
    have e1 : R + r * Real.cos (2 * Real.pi * t) = wave R r t := rfl
    have e2 : R - a * Real.cos (2 * Real.pi * s) = wave R (-a) s := by
      rw [wave]
      ring
    have q1 := Real.sq_sqrt p1.le
    have q2 := Real.sq_sqrt p2.le
    have s1 := Real.sqrt_pos.2 p1
    have s2 := Real.sqrt_pos.2 p2
    rw [circle_triple a r R s t h, V3.norm, circle_distance a r R s t h, e1, e2, Real.sqrt_mul (by positivity), Real.sqrt_mul (by positivity)]
    have q3 : Real.sqrt 2 ^ 2 = 2 := Real.sq_sqrt (by norm_num)
    generalize Real.sqrt (wave R r t) = u at *
    generalize Real.sqrt (wave R (-a) s) = v at *
    generalize wave R r t = U at *
    generalize wave R (-a) s = V at *
    subst q1 q2
    generalize Real.sqrt 2 = w at *
    field_simp
    rw [q3]
    ring
  have i1 : IntervalIntegrable (fun t => 1 / Real.sqrt (wave R r t) ^ 1) volume 0 1 := (wave_sqrt_cont hr 1).intervalIntegrable _ _
  have i3 : IntervalIntegrable (fun t => 1 / Real.sqrt (wave R r t) ^ 3) volume 0 1 := (wave_sqrt_cont hr 3).intervalIntegrable _ _
  have j1 : IntervalIntegrable (fun t => 1 / Real.sqrt (wave R (-a) t) ^ 1) volume 0 1 := (wave_sqrt_cont ha' 1).intervalIntegrable _ _
  have j3 : IntervalIntegrable (fun t => 1 / Real.sqrt (wave R (-a) t) ^ 3) volume 0 1 := (wave_sqrt_cont ha' 3).intervalIntegrable _ _
  have w1 := wave_identity hr
  have w2 := wave_identity ha'
  rw [show R ^ 2 - r ^ 2 = a ^ 2 by linarith] at w1
  rw [show R ^ 2 - (-a) ^ 2 = r ^ 2 by rw [neg_sq]; linarith] at w2
  have inner : ∀ s, ∫ t in (0 : ℝ)..1, ((2 * Real.pi) ^ 2 / (2 * Real.sqrt 2) *
      ((R * (1 / Real.sqrt (wave R (-a) s) ^ 1) - r ^ 2 * (1 / Real.sqrt (wave R (-a) s) ^ 3)) * (1 / Real.sqrt (wave R r t) ^ 1) -
        1 / Real.sqrt (wave R (-a) s) ^ 1 * (a ^ 2 * (1 / Real.sqrt (wave R r t) ^ 3)))) = (2 * Real.pi) ^ 2 / (2 * Real.sqrt 2) *
      ((R * (1 / Real.sqrt (wave R (-a) s) ^ 1) - r ^ 2 * (1 / Real.sqrt (wave R (-a) s) ^ 3)) * (∫ t in (0 : ℝ)..1, 1 / Real.sqrt (wave R r t) ^ 1) -
        1 / Real.sqrt (wave R (-a) s) ^ 1 * ∫ t in (0 : ℝ)..1, Real.sqrt (wave R r t)) := by
    intro s
    rw [intervalIntegral.integral_const_mul, intervalIntegral.integral_sub (i1.const_mul _) ((i3.const_mul _).const_mul _),
      intervalIntegral.integral_const_mul, intervalIntegral.integral_const_mul, intervalIntegral.integral_const_mul, w1]
  rw [linking]
  simp only [key, inner]
  rw [intervalIntegral.integral_const_mul, intervalIntegral.integral_sub (((j1.const_mul _).sub (j3.const_mul _)).mul_const _) (j1.mul_const _),
    intervalIntegral.integral_mul_const, intervalIntegral.integral_mul_const, intervalIntegral.integral_sub (j1.const_mul _) (j3.const_mul _),
    intervalIntegral.integral_const_mul, intervalIntegral.integral_const_mul, w2]
  simp only [pow_one]
  have := Real.pi_ne_zero
  field_simp
  ring

/-! ## The poloidal circle can be moved -/

theorem one_or_neg_one {x : ℝ} (h : x ^ 2 = 1) : x = 1 ∨ x = -1 := by
  have : (x - 1) * (x + 1) = 0 := by linear_combination h
  rcases mul_eq_zero.1 this with k | k
  · exact .inl (by linarith)
  · exact .inr (by linarith)

/-- The circle around `(a, 0)` leaves `(-a, 0)` outside. -/
def Around (a R r : ℝ) : Prop := R - r < a ∧ a < R + r ∧ r - R < a

theorem circle_off {a R r : ℝ} (ha : 0 < a) (h : Around a R r) (t s : ℝ) : axisCircle a s ≠ crossCircle R r t := by
  obtain ⟨h1, h2, h3⟩ := h
  intro e
  have ex := congrArg V3.x e
  have ey := congrArg V3.y e
  have ez := congrArg V3.z e
  simp only [axisCircle, crossCircle] at ex ey ez
  have hs := Real.sin_sq_add_cos_sq (2 * Real.pi * s)
  have ht := Real.sin_sq_add_cos_sq (2 * Real.pi * t)
  have hr : 0 < r := by linarith
  have s0 : Real.sin (2 * Real.pi * s) = 0 := (mul_eq_zero.1 ey).resolve_left ha.ne'
  have t0 : Real.sin (2 * Real.pi * t) = 0 := (mul_eq_zero.1 ez.symm).resolve_left hr.ne'
  rw [s0] at hs
  rw [t0] at ht
  have cs : Real.cos (2 * Real.pi * s) = 1 ∨ Real.cos (2 * Real.pi * s) = -1 := one_or_neg_one (by linarith)
  have ct : Real.cos (2 * Real.pi * t) = 1 ∨ Real.cos (2 * Real.pi * t) = -1 := one_or_neg_one (by linarith)
  rcases cs with cs | cs <;> rcases ct with ct | ct <;> rw [cs, ct] at ex <;> linarith

/-- A path from 0 to 1. -/
noncomputable def pathParam (p : ℝ) : ℝ := (1 - Real.cos p) / 2

theorem pathParam_bounds (p : ℝ) : 0 ≤ pathParam p ∧ pathParam p ≤ 1 := by
  rw [pathParam]
  exact ⟨by linarith [Real.cos_le_one p], by linarith [Real.neg_one_le_cos p]⟩

theorem pathParam_deriv (p : ℝ) : HasDerivAt pathParam (Real.sin p / 2) p := by
  have := ((Real.hasDerivAt_cos p).const_sub 1).div_const 2
  refine HasDerivAt.congr_deriv (f := pathParam) this ?_
  ring

theorem circle_sheet (R r R' r' : ℝ) : Sheet (fun p t => crossCircle (R + pathParam p * R') (r + pathParam p * r') t)
    (fun p t => ⟨Real.sin p / 2 * R' + Real.sin p / 2 * r' * Real.cos (2 * Real.pi * t), 0, Real.sin p / 2 * r' * Real.sin (2 * Real.pi * t)⟩)
    (fun p t => crossTangent (r + pathParam p * r') t) (fun p t => crossTangent (Real.sin p / 2 * r') t) where
  cX := by
    simp only [C1, crossCircle, pathParam]
    exact ⟨by fun_prop, by fun_prop, by fun_prop⟩
  cA := by
    simp only [C1]
    exact ⟨by fun_prop, by fun_prop, by fun_prop⟩
  cB := by
    simp only [C1, crossTangent, pathParam]
    exact ⟨by fun_prop, by fun_prop, by fun_prop⟩
  dA p t := by
    have h := pathParam_deriv p
    exact ⟨((h.mul_const R').const_add R).add (((h.mul_const r').const_add r).mul_const _), hasDerivAt_const _ _,
      ((h.mul_const r').const_add r).mul_const _⟩
  dB p t := ⟨(((cos_turn t).const_mul (r + pathParam p * r')).const_add (R + pathParam p * R')).congr_deriv (by simp only [crossTangent]; ring),
    hasDerivAt_const _ _, ((sin_turn t).const_mul (r + pathParam p * r')).congr_deriv (by simp only [crossTangent]; ring)⟩
  mA p t := by
    have h := (((pathParam_deriv p).mul_const r').const_add r).const_mul (2 * Real.pi)
    exact ⟨(h.mul_const (Real.sin (2 * Real.pi * t))).neg, hasDerivAt_const _ _, h.mul_const (Real.cos (2 * Real.pi * t))⟩
  mB p t := ⟨(((cos_turn t).const_mul (Real.sin p / 2 * r')).const_add (Real.sin p / 2 * R')).congr_deriv (by simp only [crossTangent]; ring),
    hasDerivAt_const _ _, ((sin_turn t).const_mul (Real.sin p / 2 * r')).congr_deriv (by simp only [crossTangent]; ring)⟩
  pX p := by simp [crossCircle]
  pA p := by simp

theorem circle_homotopy {a R r R' r' : ℝ} (ha : 0 < a) (h : Around a R r) (h' : Around a R' r') :
    linking (axisCircle a) (axisTangent a) (crossCircle R r) (crossTangent r) =
      linking (axisCircle a) (axisTangent a) (crossCircle R' r') (crossTangent r') := by
  have h0 : (4 * Real.pi * 1e-7 : ℝ) ≠ 0 := by positivity
  have hA : ∀ p, Around a (R + pathParam p * (R' - R)) (r + pathParam p * (r' - r)) := by
    intro p
    obtain ⟨b0, b1⟩ := pathParam_bounds p
    obtain ⟨h1, h2, h3⟩ := h
    obtain ⟨k1, k2, k3⟩ := h'
    generalize pathParam p = l at *
    have conv : ∀ x y : ℝ, x < a → y < a → (1 - l) * x + l * y < a := by
      intro x y hx hy
      rcases b0.eq_or_lt with rfl | hl
      · simpa using hx
      · have := mul_lt_mul_of_pos_left hy hl
        have := mul_le_mul_of_nonneg_left hx.le (sub_nonneg.2 b1)
        linarith
    refine ⟨by linarith [conv _ _ h1 k1], ?_, by linarith [conv _ _ h3 k3]⟩
    have := conv (2 * a - (R + r)) (2 * a - (R' + r')) (by linarith) (by linarith)
    linarith
  have h1 := work_homotopy (circle_sheet R r (R' - R) (r' - r)) (axisCircle_loop a) (fun p t s => circle_off ha (hA p) t s) 0 Real.pi
  rw [work_linking, work_linking] at h1
  have e0 : pathParam 0 = 0 := by simp [pathParam]
  have e1 : pathParam Real.pi = 1 := by simp [pathParam]
  have := mul_left_cancel₀ h0 h1
  simp only [e0, e1, zero_mul, add_zero, one_mul, add_sub_cancel] at this
  exact this.symm

/-! ## Far away -/

theorem wave_scale (R b u : ℝ) (hR : 0 < R) : Real.sqrt (wave R b u) = Real.sqrt R * Real.sqrt (wave 1 (b / R) u) := by
  rw [← Real.sqrt_mul hR.le]
  congr 1
  simp only [wave]
  field_simp

theorem scaled_linking (a r R : ℝ) (h : R ^ 2 = a ^ 2 + r ^ 2) (ha : |a| < R) (hr : |r| < R) :
    linking (axisCircle a) (axisTangent a) (crossCircle R r) (crossTangent r) = Real.pi / (2 * Real.sqrt 2) *
      ((∫ t in (0 : ℝ)..1, 1 / Real.sqrt (wave 1 (r / R) t)) * ((∫ s in (0 : ℝ)..1, 1 / Real.sqrt (wave 1 (-a / R) s)) -
        ∫ s in (0 : ℝ)..1, Real.sqrt (wave 1 (-a / R) s)) -
        (∫ t in (0 : ℝ)..1, Real.sqrt (wave 1 (r / R) t)) * ∫ s in (0 : ℝ)..1, 1 / Real.sqrt (wave 1 (-a / R) s)) := by
  have hR : 0 < R := (abs_nonneg a).trans_lt ha
  have hs := Real.sqrt_pos.2 hR
  have hq := Real.sq_sqrt hR.le
  rw [circle_linking a r R h ha hr]
  have e : ∀ x : ℝ, 1 / (Real.sqrt R * x) = 1 / Real.sqrt R * (1 / x) := by
    intro x
    rw [one_div_mul_one_div]
  simp only [wave_scale R _ _ hR, e, intervalIntegral.integral_const_mul]
  generalize Real.sqrt R = w at *
  rw [← hq]
  field_simp

/-- For a small circle the distance is nearly constant. -/
theorem far_bounds (k : ℝ) (h0 : 0 < k) (h1 : k ≤ 1 / 2) :
    (0 ≤ (∫ s in (0 : ℝ)..1, 1 / Real.sqrt (wave 1 (-k) s)) - ∫ s in (0 : ℝ)..1, Real.sqrt (wave 1 (-k) s)) ∧
    ((∫ s in (0 : ℝ)..1, 1 / Real.sqrt (wave 1 (-k) s)) - ∫ s in (0 : ℝ)..1, Real.sqrt (wave 1 (-k) s)) ≤ 2 * k ^ 2 ∧
    1 - 2 * k ≤ (∫ s in (0 : ℝ)..1, 1 / Real.sqrt (wave 1 (-k) s)) ∧ (∫ s in (0 : ℝ)..1, 1 / Real.sqrt (wave 1 (-k) s)) ≤ 1 + 2 * k := by
  have hk : |-k| < 1 := by
    rw [abs_neg, abs_of_pos h0]
    linarith
  have c1 : Continuous fun u => 1 / Real.sqrt (wave 1 (-k) u) := by simpa using wave_sqrt_cont hk 1
  have c2 : Continuous fun u => Real.sqrt (wave 1 (-k) u) := (wave_cont 1 (-k)).sqrt
  have c3 : Continuous fun u => k * Real.cos (2 * Real.pi * u) := by fun_prop
  have z : ∫ u in (0 : ℝ)..1, k * Real.cos (2 * Real.pi * u) = 0 := by
    have := intervalIntegral.integral_eq_sub_of_hasDerivAt (f := fun u => k / (2 * Real.pi) * Real.sin (2 * Real.pi * u))
      (fun u _ => ((sin_turn u).const_mul (k / (2 * Real.pi))).congr_deriv (g' := k * Real.cos (2 * Real.pi * u)) (by
        have := Real.pi_ne_zero
        field_simp)) (c3.intervalIntegrable 0 1)
    rw [this]
    simp
  have key : ∀ u, 0 ≤ 1 / Real.sqrt (wave 1 (-k) u) - Real.sqrt (wave 1 (-k) u) - k * Real.cos (2 * Real.pi * u) ∧
      1 / Real.sqrt (wave 1 (-k) u) - Real.sqrt (wave 1 (-k) u) - k * Real.cos (2 * Real.pi * u) ≤ 2 * k ^ 2 ∧
      1 - 2 * k ≤ 1 / Real.sqrt (wave 1 (-k) u) ∧ 1 / Real.sqrt (wave 1 (-k) u) ≤ 1 + 2 * k := by
    intro u
    have hb := (wave_bounds 1 (-k) u).1
    rw [abs_neg, abs_of_pos h0] at hb
    have hp : 0 < wave 1 (-k) u := wave_pos hk u
    have hv := Real.sqrt_pos.2 hp
    have hq := Real.sq_sqrt hp.le
    have hw : wave 1 (-k) u = 1 - k * Real.cos (2 * Real.pi * u) := by
      rw [wave]
      ring
    have hc := Real.cos_le_one (2 * Real.pi * u)
    have hc' := Real.neg_one_le_cos (2 * Real.pi * u)
    rw [hw] at hb hq
    rw [hw] at hv ⊢
    generalize Real.cos (2 * Real.pi * u) = c at *
    generalize Real.sqrt (1 - k * c) = v at *
    have hv2 : 1 / 2 ≤ v := by nlinarith
    have ev : 1 / v - v - k * c = (k * c) ^ 2 / (v * (1 + v)) := by
      field_simp
      nlinarith
    have ev' : 1 / v - 1 = k * c / (v * (1 + v)) := by
      field_simp
      nlinarith
    have hd : 3 / 4 ≤ v * (1 + v) := by nlinarith
    have hcc : c ^ 2 ≤ 1 := by nlinarith
    refine ⟨by rw [ev]; positivity, ?_, ?_, ?_⟩
    · rw [ev, div_le_iff₀ (by positivity)]
      nlinarith [pow_pos h0 2]
    · have : -(2 * k) ≤ k * c / (v * (1 + v)) := by
        rw [le_div_iff₀ (by positivity)]
        nlinarith
      linarith
    · have : k * c / (v * (1 + v)) ≤ 2 * k := by
        rw [div_le_iff₀ (by positivity)]
        nlinarith
      linarith
  have hi : ∫ u in (0 : ℝ)..1, (1 / Real.sqrt (wave 1 (-k) u) - Real.sqrt (wave 1 (-k) u) - k * Real.cos (2 * Real.pi * u)) =
      (∫ s in (0 : ℝ)..1, 1 / Real.sqrt (wave 1 (-k) s)) - ∫ s in (0 : ℝ)..1, Real.sqrt (wave 1 (-k) s) := by
    have c12 : Continuous fun u => 1 / Real.sqrt (wave 1 (-k) u) - Real.sqrt (wave 1 (-k) u) := c1.sub c2
    rw [intervalIntegral.integral_sub (c12.intervalIntegrable _ _) (c3.intervalIntegrable _ _),
      intervalIntegral.integral_sub (c1.intervalIntegrable _ _) (c2.intervalIntegrable _ _), z, sub_zero]
  have cD := ((c1.sub c2).sub c3).intervalIntegrable (μ := volume) 0 1
  have m : ∀ x : ℝ, ∫ _ in (0 : ℝ)..1, x = x := by
    intro x
    simp
  refine ⟨?_, ?_, ?_, ?_⟩
  · rw [← hi]
    exact intervalIntegral.integral_nonneg (by norm_num) fun u _ => (key u).1
  · rw [← hi]
    exact (intervalIntegral.integral_mono (by norm_num) cD (continuous_const.intervalIntegrable _ _) fun u => (key u).2.1).trans_eq (m _)
  · exact (m _).symm.trans_le (intervalIntegral.integral_mono (by norm_num) (continuous_const.intervalIntegrable _ _)
      (c1.intervalIntegrable _ _) fun u => (key u).2.2.1)
  · exact (intervalIntegral.integral_mono (by norm_num) (c1.intervalIntegrable _ _) (continuous_const.intervalIntegrable _ _)
      fun u => (key u).2.2.2).trans_eq (m _)

theorem near_bounds (q k : ℝ) (hq : 0 < q) (hk : 0 < k) (h : q ^ 2 + k ^ 2 = 1) :
    0 ≤ (∫ t in (0 : ℝ)..1, 1 / Real.sqrt (wave 1 q t)) ∧ (∫ t in (0 : ℝ)..1, 1 / Real.sqrt (wave 1 q t)) ≤ 2 / k := by
  have q1 : q < 1 := by nlinarith [pow_pos hk 2]
  have hq' : |q| < 1 := by rwa [abs_of_pos hq]
  have c1 : Continuous fun u => 1 / Real.sqrt (wave 1 q u) := by simpa using wave_sqrt_cont hq' 1
  refine ⟨intervalIntegral.integral_nonneg (by norm_num) fun u _ => by positivity, ?_⟩
  have m : ∫ _ in (0 : ℝ)..1, (2 / k) = 2 / k := by simp
  refine (intervalIntegral.integral_mono (by norm_num) (c1.intervalIntegrable _ _) (continuous_const.intervalIntegrable _ _) fun u => ?_).trans_eq m
  have hb := (wave_bounds 1 q u).1
  rw [abs_of_pos hq] at hb
  have hp : 0 < wave 1 q u := wave_pos hq' u
  have hs : k / 2 ≤ Real.sqrt (wave 1 q u) := by
    apply Real.le_sqrt_of_sq_le
    nlinarith
  calc 1 / Real.sqrt (wave 1 q u) ≤ 1 / (k / 2) := one_div_le_one_div_of_le (by positivity) hs
    _ = 2 / k := by field_simp

theorem half_turn : ∫ t in (0 : ℝ)..1, Real.sqrt (wave 1 1 t) = 2 * Real.sqrt 2 / Real.pi := by
  have hw : ∀ t, Real.sqrt (wave 1 1 t) = Real.sqrt 2 * |Real.cos (Real.pi * t)| := by
    intro t
    have : wave 1 1 t = 2 * Real.cos (Real.pi * t) ^ 2 := by
      rw [wave, show 2 * Real.pi * t = 2 * (Real.pi * t) by ring, Real.cos_two_mul]
      ring
    rw [this, Real.sqrt_mul (by norm_num), Real.sqrt_sq_eq_abs]
  have hd : ∀ t, HasDerivAt (fun t => 1 / Real.pi * Real.sin (Real.pi * t)) (Real.cos (Real.pi * t)) t := by
    intro t
    refine ((((hasDerivAt_id' t).const_mul Real.pi).sin).const_mul (1 / Real.pi)).congr_deriv ?_
    have := Real.pi_ne_zero
    field_simp
  have hc : Continuous fun t => Real.cos (Real.pi * t) := by fun_prop
  have h1 : ∫ t in (0 : ℝ)..(1 / 2), |Real.cos (Real.pi * t)| = 1 / Real.pi := by
    rw [intervalIntegral.integral_congr (g := fun t => Real.cos (Real.pi * t)), intervalIntegral.integral_eq_sub_of_hasDerivAt (fun t _ => hd t)
      (hc.intervalIntegrable _ _), show Real.pi * (1 / 2) = Real.pi / 2 by ring]
    · simp
    · intro t ht
      rw [Set.uIcc_of_le (by norm_num)] at ht
      refine abs_of_nonneg (Real.cos_nonneg_of_neg_pi_div_two_le_of_le ?_ ?_) <;> nlinarith [Real.pi_pos, ht.1, ht.2]
  have h2 : ∫ t in (1 / 2 : ℝ)..1, |Real.cos (Real.pi * t)| = 1 / Real.pi := by
    rw [intervalIntegral.integral_congr (g := fun t => -Real.cos (Real.pi * t)), intervalIntegral.integral_neg,
      intervalIntegral.integral_eq_sub_of_hasDerivAt (fun t _ => hd t) (hc.intervalIntegrable _ _), show Real.pi * (1 / 2) = Real.pi / 2 by ring]
    · simp
    · intro t ht
      rw [Set.uIcc_of_le (by norm_num)] at ht
      refine abs_of_nonpos (Real.cos_nonpos_of_pi_div_two_le_of_le ?_ ?_) <;> nlinarith [Real.pi_pos, ht.1, ht.2]
  have ca : Continuous fun t => |Real.cos (Real.pi * t)| := hc.abs
  simp only [hw]
  rw [intervalIntegral.integral_const_mul, ← intervalIntegral.integral_add_adjacent_intervals (b := 1 / 2) (ca.intervalIntegrable _ _)
    (ca.intervalIntegrable _ _), h1, h2]
  ring

theorem root_cont : Continuous fun q => ∫ t in (0 : ℝ)..1, Real.sqrt (wave 1 q t) :=
  integral_cont (fun q t => Real.sqrt (wave 1 q t)) (by
    unfold wave
    fun_prop)

/-- A circle about the axis and a poloidal circle around it are linked once, with a negative sign. -/
theorem circle_linking_number {a R r : ℝ} (ha : 0 < a) (h : Around a R r) :
    linking (axisCircle a) (axisTangent a) (crossCircle R r) (crossTangent r) = -1 := by
  have e : ∀ k ∈ Set.Ioc (0 : ℝ) (1 / 2), linking (axisCircle a) (axisTangent a) (crossCircle R r) (crossTangent r) =
      Real.pi / (2 * Real.sqrt 2) * ((∫ t in (0 : ℝ)..1, 1 / Real.sqrt (wave 1 (Real.sqrt (1 - k ^ 2)) t)) *
        ((∫ s in (0 : ℝ)..1, 1 / Real.sqrt (wave 1 (-k) s)) - ∫ s in (0 : ℝ)..1, Real.sqrt (wave 1 (-k) s)) -
        (∫ t in (0 : ℝ)..1, Real.sqrt (wave 1 (Real.sqrt (1 - k ^ 2)) t)) * ∫ s in (0 : ℝ)..1, 1 / Real.sqrt (wave 1 (-k) s)) := by
    intro k ⟨h0, h1⟩
    have hp : 0 < 1 - k ^ 2 := by nlinarith
    have hq := Real.sqrt_pos.2 hp
    have hs := Real.sq_sqrt hp.le
    have hlt : Real.sqrt (1 - k ^ 2) < 1 := by nlinarith [pow_pos h0 2]
    have hR : 0 < a / k := by positivity
    have hsum : 1 < k + Real.sqrt (1 - k ^ 2) := by nlinarith
    have hA : Around a (a / k) (a / k * Real.sqrt (1 - k ^ 2)) := by
      have ek : a = a / k * k := by field_simp
      refine ⟨?_, ?_, ?_⟩
      · nlinarith
      · nlinarith
      · nlinarith
    rw [circle_homotopy ha h hA, scaled_linking]
    · rw [mul_div_cancel_left₀ _ hR.ne', show -a / (a / k) = -k by field_simp]
    · rw [mul_pow, hs]
      field_simp
      ring
    · rw [abs_of_pos ha, lt_div_iff₀ h0]
      nlinarith
    · rw [abs_of_pos (by positivity)]
      nlinarith
  have hev : ∀ᶠ k in 𝓝[>] (0 : ℝ), k ∈ Set.Ioc (0 : ℝ) (1 / 2) := Ioc_mem_nhdsGT (by norm_num)
  have hid : Tendsto (fun k : ℝ => k) (𝓝[>] 0) (𝓝 0) := tendsto_nhdsWithin_of_tendsto_nhds tendsto_id
  have t1 : Tendsto (fun k => (∫ t in (0 : ℝ)..1, 1 / Real.sqrt (wave 1 (Real.sqrt (1 - k ^ 2)) t)) *
      ((∫ s in (0 : ℝ)..1, 1 / Real.sqrt (wave 1 (-k) s)) - ∫ s in (0 : ℝ)..1, Real.sqrt (wave 1 (-k) s))) (𝓝[>] 0) (𝓝 0) := by
    refine tendsto_of_tendsto_of_tendsto_of_le_of_le' tendsto_const_nhds (by simpa using hid.const_mul 4) ?_ ?_
    · filter_upwards [hev] with k hk
      have hp : 0 < 1 - k ^ 2 := by nlinarith [hk.1, hk.2]
      exact mul_nonneg (near_bounds _ k (Real.sqrt_pos.2 hp) hk.1 (by rw [Real.sq_sqrt hp.le]; ring)).1 (far_bounds k hk.1 hk.2).1
    · filter_upwards [hev] with k hk
      have hp : 0 < 1 - k ^ 2 := by nlinarith [hk.1, hk.2]
      obtain ⟨n0, n1⟩ := near_bounds _ k (Real.sqrt_pos.2 hp) hk.1 (by rw [Real.sq_sqrt hp.le]; ring)
      obtain ⟨f0, f1, -⟩ := far_bounds k hk.1 hk.2
      have hk0 := hk.1
      refine (mul_le_mul n1 f1 f0 (by positivity)).trans_eq ?_
      field_simp
      ring
  have t2 : Tendsto (fun k => ∫ s in (0 : ℝ)..1, 1 / Real.sqrt (wave 1 (-k) s)) (𝓝[>] 0) (𝓝 1) := by
    refine tendsto_of_tendsto_of_tendsto_of_le_of_le' (g := fun k => 1 - 2 * k) (h := fun k => 1 + 2 * k)
      (by simpa using (hid.const_mul 2).const_sub 1) (by simpa using (hid.const_mul 2).const_add 1) ?_ ?_
    · filter_upwards [hev] with k hk
      exact (far_bounds k hk.1 hk.2).2.2.1
    · filter_upwards [hev] with k hk
      exact (far_bounds k hk.1 hk.2).2.2.2
  have t3 : Tendsto (fun k => ∫ t in (0 : ℝ)..1, Real.sqrt (wave 1 (Real.sqrt (1 - k ^ 2)) t)) (𝓝[>] 0) (𝓝 (2 * Real.sqrt 2 / Real.pi)) := by
    rw [← half_turn]
    have hc : Continuous fun k : ℝ => ∫ t in (0 : ℝ)..1, Real.sqrt (wave 1 (Real.sqrt (1 - k ^ 2)) t) :=
      root_cont.comp (by fun_prop : Continuous fun k : ℝ => Real.sqrt (1 - k ^ 2))
    have := hc.tendsto 0
    simp only [ne_eq, OfNat.ofNat_ne_zero, not_false_eq_true, zero_pow, sub_zero, Real.sqrt_one] at this
    exact tendsto_nhdsWithin_of_tendsto_nhds this
  have lim := (t1.sub (t3.mul t2)).const_mul (Real.pi / (2 * Real.sqrt 2))
  have hconst := (tendsto_const_nhds (x := linking (axisCircle a) (axisTangent a) (crossCircle R r) (crossTangent r)) (f := 𝓝[>] (0 : ℝ))).congr'
    (hev.mono fun k hk => e k hk)
  rw [tendsto_nhds_unique hconst lim]
  have := Real.pi_ne_zero
  have h2 : Real.sqrt 2 ≠ 0 := (Real.sqrt_pos.2 (by norm_num)).ne'
  field_simp
  ring

/-- A circle about the axis is not linked with a poloidal circle that leaves it outside. -/
theorem circle_unlinked {a R r : ℝ} (ha : 0 < a) (hr : 0 < r) (hR : r < R) (h : r < |a - R|) :
    linking (axisCircle a) (axisTangent a) (crossCircle R r) (crossTangent r) = 0 := by
  have h0 : (4 * Real.pi * 1e-7 : ℝ) ≠ 0 := by positivity
  have hoff : ∀ p t s, axisCircle a s ≠ crossCircle (R + pathParam p * 0) (r + pathParam p * (-r)) t := by
    intro p t s e
    obtain ⟨b0, b1⟩ := pathParam_bounds p
    have ex := congrArg V3.x e
    have ey := congrArg V3.y e
    simp only [axisCircle, crossCircle, mul_zero, add_zero] at ex ey
    have hs := Real.sin_sq_add_cos_sq (2 * Real.pi * s)
    have s0 : Real.sin (2 * Real.pi * s) = 0 := (mul_eq_zero.1 ey).resolve_left ha.ne'
    rw [s0] at hs
    have c1 := Real.cos_le_one (2 * Real.pi * t)
    have c2 := Real.neg_one_le_cos (2 * Real.pi * t)
    generalize Real.cos (2 * Real.pi * t) = c at *
    have k0 : 0 ≤ r + pathParam p * (-r) := by nlinarith
    have k1 : r + pathParam p * (-r) ≤ r := by nlinarith
    generalize r + pathParam p * (-r) = q at *
    have u : |q * c| ≤ r := by
      rw [abs_mul, abs_of_nonneg k0]
      exact (mul_le_of_le_one_right k0 (abs_le.2 ⟨c2, c1⟩)).trans k1
    rcases one_or_neg_one (show Real.cos (2 * Real.pi * s) ^ 2 = 1 by linarith) with cs | cs <;> rw [cs] at ex
    · rw [show a - R = q * c by linarith] at h
      linarith
    · have := (abs_le.1 u).1
      linarith
  have h1 := work_homotopy (circle_sheet R r 0 (-r)) (axisCircle_loop a) hoff 0 Real.pi
  rw [work_linking, work_linking] at h1
  have e0 : pathParam 0 = 0 := by simp [pathParam]
  have e1 : pathParam Real.pi = 1 := by simp [pathParam]
  have := mul_left_cancel₀ h0 h1
  simp only [e0, e1, zero_mul, add_zero, one_mul, mul_zero, add_neg_cancel] at this
  rw [← this, linking]
  simp [crossTangent, V3.cross, V3.dot]

/-- Two circles about the axis at the same height are not linked. -/
theorem coaxial_unlinked (a b : ℝ) : linking (axisCircle a) (axisTangent a) (axisCircle b) (axisTangent b) = 0 := by
  rw [linking]
  simp [axisCircle, axisTangent, V3.cross, V3.dot]

end Verif
