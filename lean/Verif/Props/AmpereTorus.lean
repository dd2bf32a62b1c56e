import Verif.Lemmas.LinkingCircle
import Verif.Props.Ampere
import Verif.Model.Io
import Verif.Lemmas.ForcePeriod

/-!
# C180 on a circular torus: the size and the sign of the toroidal field
-/

namespace Verif

open CpParams Filter Topology

theorem torus_poloidal (R b : ℝ) : (fun t => circularTorus.surf.gamma [R, b, b] 0 t) = crossCircle R b ∧
    (fun t => circularTorus.surf.gammadash [R, b, b] 0 1 0 t) = crossTangent b := by
  have e : (fun t => circularTorus.surf.gamma [R, b, b] 0 t) = crossCircle R b := by
    funext t
    rw [torus_gamma]
    simp [crossCircle]
  refine ⟨e, funext fun t => ?_⟩
  have h : HasDerivV3 (fun t => circularTorus.surf.gamma [R, b, b] 0 t) (circularTorus.surf.gammadash [R, b, b] 0 1 0 t) t :=
    C38_gammadash_theta circularTorus.surf [R, b, b] 0 0 0 t
  rw [e] at h
  refine HasDerivV3.uniq h ⟨((cos_turn t).const_mul b).const_add R |>.congr_deriv ?_, hasDerivAt_const _ _, ((sin_turn t).const_mul b).congr_deriv ?_⟩
  · simp only [crossTangent]
    ring
  · simp only [crossTangent]
    ring

theorem torus_toroidal (R b : ℝ) : (fun p => circularTorus.surf.gamma [R, b, b] p 0) = axisCircle (R + b) ∧
    (fun p => circularTorus.surf.gammadash [R, b, b] 1 0 p 0) = axisTangent (R + b) := by
  have e : (fun p => circularTorus.surf.gamma [R, b, b] p 0) = axisCircle (R + b) := by
    funext p
    rw [torus_gamma]
    simp [axisCircle]
  refine ⟨e, funext fun p => ?_⟩
  have h : HasDerivV3 (fun p => circularTorus.surf.gamma [R, b, b] p 0) (circularTorus.surf.gammadash [R, b, b] 1 0 p 0) p :=
    C38_gammadash_phi circularTorus.surf [R, b, b] 0 0 p 0
  rw [e] at h
  exact HasDerivV3.uniq h ((axisCircle_loop (R + b)).deriv p)

theorem torus_axis_off {R a b : ℝ} (ha : 0 < a) (hb : 0 < b) (hR : b < R) (h : b ≠ |a - R|) (p t s : ℝ) :
    axisCircle a s ≠ circularTorus.surf.gamma [R, b, b] p t := by
  intro e
  rw [torus_gamma] at e
  have ex := congrArg V3.x e
  have ey := congrArg V3.y e
  have ez := congrArg V3.z e
  simp only [axisCircle] at ex ey ez
  have hs := Real.sin_sq_add_cos_sq (2 * Real.pi * s)
  have hp := Real.sin_sq_add_cos_sq (2 * Real.pi * p)
  have ht := Real.sin_sq_add_cos_sq (2 * Real.pi * t)
  have t0 : Real.sin (2 * Real.pi * t) = 0 := (mul_eq_zero.1 ez.symm).resolve_left hb.ne'
  rw [t0] at ht
  have hsq : a ^ 2 = (R + b * Real.cos (2 * Real.pi * t)) ^ 2 := by
    have e1 := congrArg (· ^ 2) ex
    have e2 := congrArg (· ^ 2) ey
    simp only [mul_pow] at e1 e2
    linear_combination e1 + e2 - a ^ 2 * hs + (R + b * Real.cos (2 * Real.pi * t)) ^ 2 * hp
  apply h
  rcases one_or_neg_one (show Real.cos (2 * Real.pi * t) ^ 2 = 1 by linarith) with ct | ct <;> rw [ct] at hsq
  · have : a = R + b * 1 := (sq_eq_sq₀ ha.le (by linarith)).1 hsq
    rw [this, show R + b * 1 - R = b by ring, abs_of_pos hb]
  · have : a = R + b * -1 := (sq_eq_sq₀ ha.le (by linarith)).1 hsq
    rw [this, show R + b * -1 - R = -b by ring, abs_neg, abs_of_pos hb]

/-- **C180 (circular torus).** On a circular torus, the circulation of the computed field along a circle about the axis tends to
`-mu0 G` inside the torus and to 0 outside: a positive net poloidal current makes a toroidal field against the direction of `phi`. -/
theorem C180_torus (Q : ℕ → FieldProblem) (P : CpParams) (m n : ℕ → ℕ) (hQ : ∀ k, (Q k).cp = P)
    (hp : ∀ k, (Q k).wPhis = linspace0 1 (m k)) (ht : ∀ k, (Q k).wThetas = linspace0 1 (n k)) (hm : Tendsto m atTop atTop)
    (hn : Tendsto n atTop atTop) (c : List ℝ) (R b a : ℝ) (hS : P.surf = circularTorus.surf) (hd : P.wdofs = [R, b, b]) (ha : 0 < a)
    (hb : 0 < b) (hR : b < R) :
    (|a - R| < b → Tendsto (fun k => circulation ((Q k).windingB c) (axisCircle a) (axisTangent a)) atTop (𝓝 (-(4 * Real.pi * 1e-7 * P.G)))) ∧
      (b < |a - R| → Tendsto (fun k => circulation ((Q k).windingB c) (axisCircle a) (axisTangent a)) atTop (𝓝 0)) := by
  have main : b ≠ |a - R| → _ := fun h => C180_ampere Q P m n hQ hp ht hm hn (by simp [hS, circularTorus]) c (axisCircle a) (axisTangent a)
    (axisCircle_loop a) (fun p t => by
      rw [CpParams.N, CpParams.dg1, CpParams.dg2, hS, hd]
      exact torus_normal R b p t hb hR) fun p t s => by
      rw [hS, hd]
      exact torus_axis_off ha hb hR h p t s
  rw [hS, hd, (torus_poloidal R b).1, (torus_poloidal R b).2, (torus_toroidal R b).1, (torus_toroidal R b).2, coaxial_unlinked] at main
  constructor
  · intro h
    have := main h.ne'
    rw [abs_lt] at h
    rw [circle_linking_number ha ⟨by linarith [h.1], by linarith [h.2], by linarith⟩] at this
    rwa [mul_zero, sub_zero, mul_neg_one, mul_neg] at this
  · intro h
    have := main h.ne
    rwa [circle_unlinked ha hb hR h, mul_zero, mul_zero, sub_zero, mul_zero] at this

/-- The circular torus with the radii 2 and 1, `G = 5` and `I = 7`: along its axis, whatever the potential. -/
example (c : List ℝ) : Tendsto (fun k => circulation (({ torusProblem with wPhis := linspace0 1 (2 * k), wThetas := linspace0 1 (3 * k) } :
      FieldProblem).windingB c) (axisCircle 2) (axisTangent 2)) atTop (𝓝 (-(4 * Real.pi * 1e-7 * 5))) :=
  (C180_torus (fun k => { torusProblem with wPhis := linspace0 1 (2 * k), wThetas := linspace0 1 (3 * k) }) circularTorus
    (fun k => 2 * k) (fun k => 3 * k) (fun _ => rfl) (fun _ => rfl) (fun _ => rfl)
    (tendsto_id.const_mul_atTop' (by decide)) (tendsto_id.const_mul_atTop' (by decide)) c 2 1 2 rfl rfl (by norm_num) (by norm_num)
    (by norm_num)).1 (by norm_num)

/-- **C180 (DESC).** With the net poloidal current that `quadcoil_desc` computes, the circulation inside a circular torus tends to the
one of the equilibrium, `2 pi G`, up to the rounding of the constant of nature: with its sign, which the wrapper has to turn. -/
theorem C180_desc (Q : ℕ → FieldProblem) (P : CpParams) (m n : ℕ → ℕ) (hQ : ∀ k, (Q k).cp = P)
    (hp : ∀ k, (Q k).wPhis = linspace0 1 (m k)) (ht : ∀ k, (Q k).wThetas = linspace0 1 (n k)) (hm : Tendsto m atTop atTop)
    (hn : Tendsto n atTop atTop) (c : List ℝ) (R b a : ℝ) (hS : P.surf = circularTorus.surf) (hd : P.wdofs = [R, b, b]) (ha : 0 < a)
    (hb : 0 < b) (hR : b < R) (h : |a - R| < b) (mu0 G : ℝ) (hG : P.G = descNetPoloidal mu0 G) :
    Tendsto (fun k => circulation ((Q k).windingB c) (axisCircle a) (axisTangent a)) atTop (𝓝 (2 * Real.pi * G * (4 * Real.pi * 1e-7 / mu0))) := by
  have := (C180_torus Q P m n hQ hp ht hm hn c R b a hS hd ha hb hR).1 h
  rw [hG, descNetPoloidal] at this
  convert this using 2
  ring

/-- With `mu0 = 4 pi 1e-7` and `G = 3` the circulation is `6 pi`. -/
example (c : List ℝ) : Tendsto (fun k => circulation (({ torusProblem with
      cp := { circularTorus with G := descNetPoloidal (4 * Real.pi * 1e-7) 3 }
      wPhis := linspace0 1 (2 * k)
      wThetas := linspace0 1 (3 * k) } : FieldProblem).windingB c) (axisCircle 2) (axisTangent 2)) atTop (𝓝 (6 * Real.pi)) := by
  have := C180_desc (fun k => { torusProblem with
      cp := { circularTorus with G := descNetPoloidal (4 * Real.pi * 1e-7) 3 }
      wPhis := linspace0 1 (2 * k)
      wThetas := linspace0 1 (3 * k) }) { circularTorus with G := descNetPoloidal (4 * Real.pi * 1e-7) 3 }
    (fun k => 2 * k) (fun k => 3 * k) (fun _ => rfl) (fun _ => rfl) (fun _ => rfl)
    (tendsto_id.const_mul_atTop' (by decide)) (tendsto_id.const_mul_atTop' (by decide)) c 2 1 2 rfl rfl (by norm_num) (by norm_num)
    (by norm_num) (by norm_num) (4 * Real.pi * 1e-7) 3 rfl
  have e : 2 * Real.pi * 3 * (4 * Real.pi * 1e-7 / (4 * Real.pi * 1e-7)) = 6 * Real.pi := by
    have := Real.pi_ne_zero
    field_simp
    norm_num
  rwa [e] at this

end Verif
