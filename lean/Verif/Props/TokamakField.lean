import Verif.Props.Tokamak

/-!
# C181: the toroidal field of the net poloidal current falls like the inverse of the distance from the axis
-/

namespace Verif

open Real Filter Topology

theorem unit_source (Q : FieldProblem) (g : ℝ) (c : List ℝ) (y : V3) : (Q.withG g).windingB c y =
    Q.windingB c y + (g - Q.cp.G) • ({ Q with cp := { Q.cp with G := 1, I := 0 } } : FieldProblem).windingB [] y := by
  have h : ∀ q : ℝ × ℝ, ({ Q with cp := { Q.cp with G := 1, I := 0 } } : FieldProblem).bTerm [] y q = poloidalTerm Q.cp y q.1 q.2 := by
    intro q
    have hK : ({ Q.cp with G := 1, I := 0 } : CpParams).K [] q.1 q.2 = Q.cp.invN q.1 q.2 • Q.cp.dg2 q.1 q.2 := by
      rw [CpParams.K_eq]
      change Q.cp.invN q.1 q.2 • ((CpParams.app _ [] + 1) • Q.cp.dg2 q.1 q.2 - (CpParams.app _ [] + 0) • Q.cp.dg1 q.1 q.2) = _
      ext <;> simp [CpParams.app]
    simp only [FieldProblem.bTerm, hK, poloidalTerm, SurfaceShape.normal, CpParams.N, CpParams.dg1, CpParams.dg2]
    ext <;> simp [V3.cross] <;> ring
  rw [windingB_withG]
  simp only [FieldProblem.windingB, FieldProblem.computeB, funext h]
  ext <;> simp <;> ring

theorem poloidalTerm_biotSavart (P : CpParams) (y : V3) (p t : ℝ) :
    (({ P with G := 1, I := 0 } : CpParams).N p t).norm • biotSavart y (P.surf.gamma P.wdofs p t) (({ P with G := 1, I := 0 } : CpParams).K [] p t) =
      (1e-7 : ℝ) • poloidalTerm P y p t := by
  have hK : ({ P with G := 1, I := 0 } : CpParams).K [] p t = P.invN p t • P.dg2 p t := by
    rw [CpParams.K_eq]
    change P.invN p t • ((CpParams.app _ [] + 1) • P.dg2 p t - (CpParams.app _ [] + 0) • P.dg1 p t) = _
    ext <;> simp [CpParams.app]
  have hN : ({ P with G := 1, I := 0 } : CpParams).N p t = P.N p t := rfl
  rw [hK, hN]
  simp only [biotSavart, poloidalTerm, V3.norm]
  ext <;> simp [V3.cross] <;> ring

theorem torusIntegral_dot {f : ℝ → ℝ → V3} (h : C1 f) (u : V3) :
    V3.dot u (torusIntegral f) = ∫ p in (0 : ℝ)..1, ∫ t in (0 : ℝ)..1, V3.dot u (f p t) := by
  have := integral2_lin (fun q => u.x * (f q.1 q.2).x) (fun q => (f q.1 q.2).y) (fun q => (f q.1 q.2).z) (h.1.continuous.const_mul u.x)
    h.2.1.continuous h.2.2.continuous u.y (-u.z)
  simp only [intervalIntegral.integral_const_mul] at this
  simp only [V3.dot, torusIntegral]
  rw [show ∀ a b c : ℝ, a + b + c = a + b - -c from fun a b c => by ring, ← neg_mul, ← this]
  simp only [neg_mul, sub_neg_eq_add]

theorem periodic_reflect {h : ℝ → ℝ} (hh : ∀ s, h (s + 1) = h s) (p : ℝ) : ∫ s in (0 : ℝ)..1, h (p - s) = ∫ s in (0 : ℝ)..1, h s := by
  rw [intervalIntegral.integral_comp_sub_left h p]
  have := Function.Periodic.intervalIntegral_add_eq (f := h) (T := 1) hh (p - 1) 0
  rw [show p - 1 + 1 = p - 0 by ring, zero_add] at this
  exact this

theorem toroidalUnit_turn (p s : ℝ) : toroidalUnit (p + s) = rotZ (2 * π * s) (toroidalUnit p) := by
  ext <;> simp only [toroidalUnit, rotZ, mul_add, cos_add, sin_add] <;> ring

theorem level_turn (a b p s : ℝ) : levelCircle a b (p + s) = rotZ (2 * π * s) (levelCircle a b p) := by
  ext <;> simp only [levelCircle, rotZ, mul_add, cos_add, sin_add] <;> ring

/-- The integral over the surface of a component in a frame that turns with the point is the integral over the circle through the point. -/
theorem turning_integral {P : CpParams} (h : Axisymmetric P.surf P.wdofs) (a b p : ℝ) (u : ℝ → V3)
    (hu : ∀ p s, u (p + s) = rotZ (2 * π * s) (u p)) :
    ∫ p' in (0 : ℝ)..1, ∫ t in (0 : ℝ)..1, V3.dot (u p) (poloidalTerm P (levelCircle a b p) p' t) =
      ∫ s in (0 : ℝ)..1, ∫ t in (0 : ℝ)..1, V3.dot (u s) (poloidalTerm P (levelCircle a b s) 0 t) := by
  have e : ∀ p' t, V3.dot (u p) (poloidalTerm P (levelCircle a b p) p' t) =
      V3.dot (u (p - p')) (poloidalTerm P (levelCircle a b (p - p')) 0 t) := by
    intro p' t
    have h1 := poloidalTerm_turn h (levelCircle a b (p - p')) 0 p' t
    rw [← level_turn, zero_add, sub_add_cancel] at h1
    have h2 := hu (p - p') p'
    rw [sub_add_cancel] at h2
    rw [h1, h2, rotZ_dot]
  simp only [e]
  have e1 : ∀ v, rotZ (2 * π * 1) v = v := fun v => by have := rotZ_two_pi_int 1 v; rwa [Int.cast_one] at this
  exact periodic_reflect (h := fun s => ∫ t in (0 : ℝ)..1, V3.dot (u s) (poloidalTerm P (levelCircle a b s) 0 t)) (fun s => by
    simp only [level_turn, hu, e1]) p

theorem plane_odd {P : CpParams} (h : Axisymmetric P.surf P.wdofs) (a b u v s t : ℝ) :
    V3.dot (levelCircle u v (0 - s)) (poloidalTerm P (levelCircle a b (0 - s)) 0 t) = -V3.dot (levelCircle u v s) (poloidalTerm P (levelCircle a b s) 0 t) := by
  have hl : ∀ a b, levelCircle a b (0 - s) = planeFlip (2 * π * 0) (levelCircle a b s) := fun a b => by
    ext <;> simp [levelCircle, planeFlip, rotZ]
  have := poloidalTerm_flip h (levelCircle a b s) 0 0 t
  rw [sub_zero] at this
  rw [hl, hl, this, v3_dot_neg, planeFlip_dot]

theorem plane_zero {P : CpParams} (h : Axisymmetric P.surf P.wdofs) (a b u v : ℝ) :
    ∫ s in (0 : ℝ)..1, ∫ t in (0 : ℝ)..1, V3.dot (levelCircle u v s) (poloidalTerm P (levelCircle a b s) 0 t) = 0 := by
  have e1 : ∀ v, rotZ (2 * π * 1) v = v := fun v => by have := rotZ_two_pi_int 1 v; rwa [Int.cast_one] at this
  have := periodic_reflect (h := fun s => ∫ t in (0 : ℝ)..1, V3.dot (levelCircle u v s) (poloidalTerm P (levelCircle a b s) 0 t)) (fun s => by
    simp only [level_turn, e1]) 0
  simp only [plane_odd h, intervalIntegral.integral_neg] at this
  linarith

theorem toroidal_linking {P : CpParams} (hN : ∀ p t, P.N p t ≠ 0) (a b : ℝ) (ha : a ≠ 0) :
    ∫ s in (0 : ℝ)..1, ∫ t in (0 : ℝ)..1, V3.dot (toroidalUnit s) (poloidalTerm P (levelCircle a b s) 0 t) =
      2 / a * linking (levelCircle a b) (levelTangent a) (fun t => P.surf.gamma P.wdofs 0 t) (fun t => P.surf.gammadash P.wdofs 0 1 0 t) := by
  have e : ∀ s t, V3.dot (P.surf.gamma P.wdofs 0 t - levelCircle a b s) (V3.cross (P.surf.gammadash P.wdofs 0 1 0 t) (levelTangent a s)) /
      (P.surf.gamma P.wdofs 0 t - levelCircle a b s).norm ^ 3 =
      2 * π * a * V3.dot (toroidalUnit s) (poloidalTerm P (levelCircle a b s) 0 t) := by
    intro s t
    have hn : (P.N 0 t).norm * P.invN 0 t = 1 := by
      rw [CpParams.invN]
      exact mul_one_div_cancel ((V3.norm_pos_iff _).2 (hN 0 t)).ne'
    simp only [poloidalTerm, hn, mul_one]
    rw [← V3.norm, V3.norm_sub_comm (levelCircle a b s)]
    generalize (P.surf.gamma P.wdofs 0 t - levelCircle a b s).norm = r
    simp only [levelTangent, V3.dot, V3.cross, V3.smul_x, V3.smul_y, V3.smul_z, V3.sub_x, V3.sub_y, V3.sub_z, CpParams.dg2, one_div, inv_pow,
      div_eq_mul_inv]
    ring
  simp only [linking, e, intervalIntegral.integral_const_mul]
  have := pi_ne_zero
  field_simp
  ring

theorem V3.frame {v : V3} {p d : ℝ} (h1 : V3.dot (toroidalUnit p) v = d) (h2 : V3.dot (levelCircle 1 0 p) v = 0)
    (h3 : V3.dot (levelCircle 0 1 p) v = 0) : v = d • toroidalUnit p := by
  have hc := sin_sq_add_cos_sq (2 * π * p)
  simp only [V3.dot, toroidalUnit, levelCircle, rotZ] at h1 h2 h3
  ext
  · simp only [toroidalUnit, V3.smul_x]
    linear_combination (-sin (2 * π * p)) * h1 + cos (2 * π * p) * h2 - v.x * hc
  · simp only [toroidalUnit, V3.smul_y]
    linear_combination cos (2 * π * p) * h1 + sin (2 * π * p) * h2 - v.y * hc
  · simp only [toroidalUnit, V3.smul_z]
    linarith

theorem lim_of_eq {u : ℕ → ℝ} {x y : ℝ} (h : Tendsto u atTop (𝓝 x)) (e : x = y) : Tendsto u atTop (𝓝 y) := e ▸ h

/-- **C181.** When the winding grid of an axisymmetric winding surface is refined, the field of the net poloidal current tends, at every point off
the surface, to a toroidal field of size `mu0 G / (2 pi a)` times the number of times that the circle through the point links the cross
section: it falls like the inverse of the distance `a` from the axis. -/
theorem C181_one_over_R (Q : ℕ → FieldProblem) (P : CpParams) (m n : ℕ → ℕ) (hQ : ∀ k, (Q k).cp = P)
    (hp : ∀ k, (Q k).wPhis = linspace0 1 (m k)) (ht : ∀ k, (Q k).wThetas = linspace0 1 (n k)) (hm : Tendsto m atTop atTop)
    (hn : Tendsto n atTop atTop) (h : Axisymmetric P.surf P.wdofs) (hN : ∀ p t, P.N p t ≠ 0) (c : List ℝ) (g a b p : ℝ) (ha : a ≠ 0)
    (hy : ∀ p' t, P.surf.gamma P.wdofs p' t ≠ levelCircle a b p) :
    TendstoV3 (fun k => ((Q k).withG g).windingB c (levelCircle a b p) - (Q k).windingB c (levelCircle a b p))
      ((4 * π * 1e-7 * (g - P.G) / (2 * π * a) *
        linking (levelCircle a b) (levelTangent a) (fun t => P.surf.gamma P.wdofs 0 t) (fun t => P.surf.gammadash P.wdofs 0 1 0 t)) •
          toroidalUnit p) := by
  have hlim := C109_field_limit (fun k => ({ Q k with cp := { P with G := 1, I := 0 } } : FieldProblem)) { P with G := 1, I := 0 } m n
    (fun _ => rfl) hp ht hm hn [] (levelCircle a b p) hN hy
  have hC := biotSavart_C1 { P with G := 1, I := 0 } [] (levelCircle a b p) hN hy
  simp only [poloidalTerm_biotSavart] at hlim hC
  have hd : ∀ u : ℝ → V3, (∀ p s, u (p + s) = rotZ (2 * π * s) (u p)) →
      V3.dot (u p) (torusIntegral fun p' t => (1e-7 : ℝ) • poloidalTerm P (levelCircle a b p) p' t) =
        1e-7 * ∫ s in (0 : ℝ)..1, ∫ t in (0 : ℝ)..1, V3.dot (u s) (poloidalTerm P (levelCircle a b s) 0 t) := by
    intro u hu
    rw [torusIntegral_dot hC, ← turning_integral h a b p u hu]
    simp only [← intervalIntegral.integral_const_mul]
    congr 1
    funext p'
    congr 1
    funext t
    simp only [V3.dot, V3.smul_x, V3.smul_y, V3.smul_z]
    ring
  have e := V3.frame (hd toroidalUnit toroidalUnit_turn) (by rw [hd _ (level_turn 1 0), plane_zero h, mul_zero])
    (by rw [hd _ (level_turn 0 1), plane_zero h, mul_zero])
  rw [toroidal_linking hN a b ha] at e
  rw [e] at hlim
  have eq : ∀ k, ((Q k).withG g).windingB c (levelCircle a b p) - (Q k).windingB c (levelCircle a b p) =
      (g - P.G) • ({ Q k with cp := { P with G := 1, I := 0 } } : FieldProblem).windingB [] (levelCircle a b p) := by
    intro k
    rw [unit_source, hQ]
    ext <;> simp
  simp only [TendstoV3, eq, V3.smul_x, V3.smul_y, V3.smul_z] at hlim ⊢
  have ef : 4 * π * 1e-7 * (g - P.G) / (2 * π * a) = (g - P.G) * (1e-7 * (2 / a)) := by
    have := pi_ne_zero
    field_simp
    ring
  rw [ef]
  refine ⟨lim_of_eq (hlim.1.const_mul (g - P.G)) ?_, lim_of_eq (hlim.2.1.const_mul (g - P.G)) ?_, lim_of_eq (hlim.2.2.const_mul (g - P.G)) ?_⟩ <;>
    ring

theorem torus_axisymmetric (R r : ℝ) : Axisymmetric circularTorus.surf [R, r, r] := by
  intro p t
  rw [torus_gamma, torus_gamma]
  ext <;> simp [rotZ] <;> ring

/-- **C181 (circular torus).** Inside a circular torus, the field of the net poloidal current tends to `-mu0 G / (2 pi a)` in the toroidal
direction, and outside to 0, in the plane of the torus. -/
theorem C181_torus (Q : ℕ → FieldProblem) (P : CpParams) (m n : ℕ → ℕ) (hQ : ∀ k, (Q k).cp = P)
    (hp : ∀ k, (Q k).wPhis = linspace0 1 (m k)) (ht : ∀ k, (Q k).wThetas = linspace0 1 (n k)) (hm : Tendsto m atTop atTop)
    (hn : Tendsto n atTop atTop) (c : List ℝ) (R r a g p : ℝ) (hS : P.surf = circularTorus.surf) (hd : P.wdofs = [R, r, r]) (ha : 0 < a)
    (hr : 0 < r) (hR : r < R) :
    (|a - R| < r → TendstoV3 (fun k => ((Q k).withG g).windingB c (axisCircle a p) - (Q k).windingB c (axisCircle a p))
        ((-(4 * π * 1e-7 * (g - P.G) / (2 * π * a))) • toroidalUnit p)) ∧
      (r < |a - R| → TendstoV3 (fun k => ((Q k).withG g).windingB c (axisCircle a p) - (Q k).windingB c (axisCircle a p)) 0) := by
  have e1 : levelCircle a 0 = axisCircle a := by
    funext s
    ext <;> simp [levelCircle, axisCircle, rotZ] <;> ring
  have e2 : levelTangent a = axisTangent a := by
    funext s
    ext <;> simp [levelTangent, axisTangent, toroidalUnit]
  have main : r ≠ |a - R| → _ := fun h => C181_one_over_R Q P m n hQ hp ht hm hn (by rw [hS, hd]; exact torus_axisymmetric R r)
    (fun p t => by
      rw [CpParams.N, CpParams.dg1, CpParams.dg2, hS, hd]
      exact torus_normal R r p t hr hR) c g a 0 p ha.ne' fun p' t => by
      rw [hS, hd, e1]
      exact (torus_axis_off ha hr hR h p' t p).symm
  rw [hS, hd, (torus_poloidal R r).1, (torus_poloidal R r).2, e1, e2] at main
  constructor
  · intro h
    have := main h.ne'
    rw [abs_lt] at h
    rwa [circle_linking_number ha ⟨by linarith [h.1], by linarith [h.2], by linarith⟩, mul_neg_one] at this
  · intro h
    have := main h.ne
    rwa [circle_unlinked ha hr hR h, mul_zero, show (0 : ℝ) • toroidalUnit p = 0 by ext <;> simp] at this

/-- The circular torus with the radii 2 and 1: on its axis, for 6 instead of 5 units of net poloidal current. -/
example (c : List ℝ) (p : ℝ) : TendstoV3 (fun k =>
      (({ torusProblem with wPhis := linspace0 1 (2 * k), wThetas := linspace0 1 (3 * k) } : FieldProblem).withG 6).windingB c (axisCircle 2 p) -
      ({ torusProblem with wPhis := linspace0 1 (2 * k), wThetas := linspace0 1 (3 * k) } : FieldProblem).windingB c (axisCircle 2 p))
    ((-(4 * π * 1e-7 * (6 - 5) / (2 * π * 2))) • toroidalUnit p) :=
  (C181_torus (fun k => { torusProblem with wPhis := linspace0 1 (2 * k), wThetas := linspace0 1 (3 * k) }) circularTorus
    (fun k => 2 * k) (fun k => 3 * k) (fun _ => rfl) (fun _ => rfl) (fun _ => rfl)
    (tendsto_id.const_mul_atTop' (by decide)) (tendsto_id.const_mul_atTop' (by decide)) c 2 1 2 6 p rfl rfl (by norm_num) (by norm_num)
    (by norm_num)).1 (by norm_num)

/-- Plasma and winding surface of the example are axisymmetric, and its grids are aligned: `f_B` is the same for every net poloidal current. -/
example (g : ℝ) (c : List ℝ) : (torusProblem.withG g).fB c = torusProblem.fB c :=
  (C181_f_B torusProblem (torus_axisymmetric 2 1) (torus_axisymmetric 2 (1 / 2)) 2 (by decide) rfl (fun p hp => by
    simp only [torusProblem, linspace0, List.mem_map, List.mem_range] at hp
    obtain ⟨i, _, rfl⟩ := hp
    exact ⟨2 * i, by push_cast; ring⟩) g c).2

/-- The condition on the grids is needed: with one point in the winding grid and a plasma point a quarter of a turn away, the normal field changes
with the net poloidal current. -/
theorem C181_other_grids (Q : FieldProblem) (hS : Q.cp.surf = circularTorus.surf) (hd : Q.cp.wdofs = [2, 1, 1])
    (hP : Q.plasma.shape = circularTorus.surf) (hpd : Q.plasma.dofs = [2, 1 / 2, 1 / 2]) (hw : Q.wPhis = linspace0 1 1)
    (ht : Q.wThetas = linspace0 1 1) (g : ℝ) (hg : g ≠ Q.cp.G) (c : List ℝ) :
    (Q.withG g).bnWinding c (1 / 4, 0) ≠ Q.bnWinding c (1 / 4, 0) := by
  have hpi := pi_pos
  have hq : 2 * π * (1 / 4) = π / 2 := by ring
  have hg0 : circularTorus.surf.gamma [2, 1, 1] 0 0 = ⟨3, 0, 0⟩ := by
    rw [torus_gamma]
    ext <;> norm_num
  have hy : circularTorus.surf.gamma [2, 1 / 2, 1 / 2] (1 / 4) 0 = ⟨0, 5 / 2, 0⟩ := by
    rw [torus_gamma, hq]
    ext <;> norm_num
  have hd2 : circularTorus.surf.gammadash [2, 1, 1] 0 1 0 0 = ⟨0, 0, 2 * π⟩ := by
    rw [congrFun (torus_poloidal 2 1).2 0]
    ext <;> simp [crossTangent]
  have hn1 : circularTorus.surf.gammadash [2, 1 / 2, 1 / 2] 1 0 (1 / 4) 0 = ⟨-(5 * π), 0, 0⟩ := by
    rw [congrFun (torus_toroidal 2 (1 / 2)).2 (1 / 4)]
    simp only [axisTangent, hq]
    ext <;> simp
    ring
  have hn2 : circularTorus.surf.gammadash [2, 1 / 2, 1 / 2] 0 1 (1 / 4) 0 = ⟨0, 0, π⟩ := by
    have h1 := (torus_axisymmetric 2 (1 / 2)).turn_dg2 0 (1 / 4) 0
    rw [zero_add] at h1
    rw [h1, congrFun (torus_poloidal 2 (1 / 2)).2 0]
    ext <;> simp [crossTangent, rotZ]
    ring
  have hnorm : circularTorus.surf.normal [2, 1 / 2, 1 / 2] (1 / 4) 0 = ⟨0, 5 * π * π, 0⟩ := by
    rw [SurfaceShape.normal, hn1, hn2]
    ext <;> simp [V3.cross]
  have hNn : Q.cp.N 0 0 ≠ 0 := by
    rw [CpParams.N, CpParams.dg1, CpParams.dg2, hS, hd]
    exact torus_normal 2 1 0 0 (by norm_num) (by norm_num)
  have hone : (Q.cp.N 0 0).norm * Q.cp.invN 0 0 = 1 := by
    rw [CpParams.invN]
    exact mul_one_div_cancel ((V3.norm_pos_iff _).2 hNn).ne'
  have hgrid : gridPoints (linspace0 1 1) (linspace0 1 1) = [(0, 0)] := by simp [gridPoints, linspace0]
  have e1 : (Q.withG g).bnWinding c (1 / 4, 0) = V3.dot (Q.plasma.shape.unitnormal Q.plasma.dofs (1 / 4) 0)
      ((Q.withG g).windingB c (Q.plasma.shape.gamma Q.plasma.dofs (1 / 4) 0)) := rfl
  rw [e1, FieldProblem.bnWinding, windingB_withG, hw, ht, hgrid, hP, hpd, hy, SurfaceShape.unitnormal, hnorm]
  have hr : 0 < (1 / Real.sqrt ((⟨0, 5 / 2, 0⟩ : V3) - ⟨3, 0, 0⟩).normSq) ^ 3 := by
    have : 0 < ((⟨0, 5 / 2, 0⟩ : V3) - ⟨3, 0, 0⟩).normSq := by simp [V3.normSq]; norm_num
    positivity
  have hm : 0 < 1 / (⟨0, 5 * π * π, 0⟩ : V3).norm := by
    have : (⟨0, 5 * π * π, 0⟩ : V3) ≠ 0 := fun h => by
      have := congrArg V3.y h
      simp [hpi.ne'] at this
    exact one_div_pos.2 ((V3.norm_pos_iff _).2 this)
  have hterm : vsum ([(0, 0)].map fun q : ℝ × ℝ => poloidalTerm Q.cp ⟨0, 5 / 2, 0⟩ q.1 q.2) =
      (1 / Real.sqrt ((⟨0, 5 / 2, 0⟩ : V3) - ⟨3, 0, 0⟩).normSq) ^ 3 • ⟨-(5 * π), -(6 * π), 0⟩ := by
    simp only [List.map_cons, List.map_nil, poloidalTerm, hone, mul_one, CpParams.dg2, hS, hd, hg0, hd2]
    ext <;> simp only [vsum, V3.cross, List.map_cons, List.map_nil, List.sum_cons, List.sum_nil, V3.smul_x, V3.smul_y, V3.smul_z, V3.sub_x,
      V3.sub_y, V3.sub_z] <;> ring
  rw [hterm]
  generalize (1 / Real.sqrt ((⟨0, 5 / 2, 0⟩ : V3) - ⟨3, 0, 0⟩).normSq) ^ 3 = x at hr ⊢
  generalize 1 / (⟨0, 5 * π * π, 0⟩ : V3).norm = y at hm ⊢
  rw [← sub_ne_zero]
  simp only [V3.dot, V3.add_x, V3.add_y, V3.add_z, V3.smul_x, V3.smul_y, V3.smul_z, linspace0_length]
  have : (1e-7 : ℝ) * (g - Q.cp.G) * x * y * (5 * π * π * (6 * π)) ≠ 0 :=
    mul_ne_zero (mul_ne_zero (mul_ne_zero (mul_ne_zero (by norm_num) (sub_ne_zero.2 hg)) hr.ne') hm.ne') (by positivity)
  intro h
  apply this
  push_cast at h
  linear_combination -h

/-- Such a problem exists. -/
example (c : List ℝ) : (({ torusProblem with wPhis := linspace0 1 1, wThetas := linspace0 1 1 } : FieldProblem).withG 6).bnWinding c (1 / 4, 0) ≠
    ({ torusProblem with wPhis := linspace0 1 1, wThetas := linspace0 1 1 } : FieldProblem).bnWinding c (1 / 4, 0) :=
  C181_other_grids _ rfl rfl rfl rfl rfl rfl 6 (by norm_num [torusProblem, circularTorus]) c

/-- A surface whose `R` and `Z` do not depend on the toroidal angle is axisymmetric: in particular every surface without toroidal modes. -/
theorem axisymmetric_of_RZ {S : SurfaceShape} {dofs : List ℝ} (h : ∀ phi theta, S.rDash dofs 0 0 phi theta = S.rDash dofs 0 0 0 theta ∧
    S.zDash dofs 0 0 phi theta = S.zDash dofs 0 0 0 theta) : Axisymmetric S dofs := by
  intro p t
  have e : 2 * π * p = p * π * 2 := by ring
  ext <;> simp [SurfaceShape.gamma, SurfaceShape.gammadash, SurfaceShape.xTerm, SurfaceShape.yTerm, SurfaceShape.trigFactor,
    SurfaceShape.binomialCoef, rotZ, h p t, e] <;> ring

theorem zipWith_zeros {f g : ℤ → ℤ → ℝ} (h : ∀ m, f m 0 = g m 0) : ∀ (l l' : List ℤ), (∀ n ∈ l', n = 0) → List.zipWith f l l' = List.zipWith g l l'
  | [], _, _ => by simp
  | _ :: _, [], _ => by simp
  | m :: l, n :: l', hz => by
    rw [List.zipWith_cons_cons, List.zipWith_cons_cons, hz n List.mem_cons_self, h, zipWith_zeros h l l' fun k hk => hz k (List.mem_cons_of_mem _ hk)]

theorem axisymmetric_of_ntor {S : SurfaceShape} (h : S.ntor = 0) (dofs : List ℝ) : Axisymmetric S dofs := by
  have hz : ∀ n ∈ surfNc S.mpol S.ntor, n = 0 := by
    rw [h]
    intro n hn
    simp [surfNc, surfNs, tile, arange] at hn
    aesop
  have hz' : ∀ n ∈ surfNs S.mpol S.ntor, n = 0 := fun n hn => hz n (List.mem_cons_of_mem _ hn)
  have hc : ∀ p t, S.cmn 0 0 p t = S.cmn 0 0 0 t := fun p t => zipWith_zeros (fun m => by simp [cEntry, modeAngle]) _ _ hz
  have hs : ∀ p t, S.smn 0 0 p t = S.smn 0 0 0 t := fun p t => zipWith_zeros (fun m => by simp [sEntry, modeAngle]) _ _ hz'
  refine axisymmetric_of_RZ fun p t => ?_
  simp only [SurfaceShape.rDash, SurfaceShape.zDash, SurfaceShape.rOperatorPadded, SurfaceShape.zOperatorPadded, SurfaceShape.rOperator,
    SurfaceShape.zOperator, hc p t, hs p t, and_self]

/-- Without currents there is no field. -/
theorem windingB_no_current (Q : FieldProblem) (hG : Q.cp.G = 0) (hI : Q.cp.I = 0) (k : ℕ) (y : V3) : Q.windingB (List.replicate k 0) y = 0 := by
  have ha : ∀ row : List ℝ, CpParams.app row (List.replicate k 0) = 0 := by
    intro row
    rw [CpParams.app]
    apply List.sum_eq_zero
    intro x hx
    obtain ⟨i, hi, rfl⟩ := List.getElem_of_mem hx
    simp
  have hK : ∀ p t, Q.cp.K (List.replicate k 0) p t = 0 := by
    intro p t
    rw [CpParams.K_eq, ha, ha, hG, hI]
    ext <;> simp
  have hb : ∀ q, Q.bTerm (List.replicate k 0) y q = 0 := by
    intro q
    simp only [FieldProblem.bTerm, hK]
    ext <;> simp [V3.cross]
  have hs : Q.computeB (List.replicate k 0) y = 0 := by
    rw [FieldProblem.computeB, List.map_congr_left fun q _ => hb q]
    ext <;> simp [vsum]
  rw [FieldProblem.windingB, hs]
  ext <;> simp

/-- In an axisymmetric problem without net toroidal current and without plasma field, the net poloidal current alone gives no `f_B`. -/
theorem f_B_zero (Q : FieldProblem) (h : Axisymmetric Q.cp.surf Q.cp.wdofs) (hp : Axisymmetric Q.plasma.shape Q.plasma.dofs)
    (n : ℕ) (hn : n ≠ 0) (hw : Q.wPhis = linspace0 1 n) (hq : ∀ p ∈ Q.plasma.phis, ∃ j : ℤ, 2 * p * n = j) (hI : Q.cp.I = 0)
    (hb : ∀ b ∈ Q.bPlasma, b = 0) (k : ℕ) : Q.fB (List.replicate k 0) = 0 := by
  rw [← (C181_f_B Q h hp n hn hw hq 0 (List.replicate k 0)).2, FieldProblem.fB, FieldProblem.bnormal]
  have e : ∀ q ∈ (gridPoints (Q.withG 0).plasma.phis (Q.withG 0).plasma.thetas).zip (Q.withG 0).bPlasma,
      (Q.withG 0).bnWinding (List.replicate k 0) q.1 + q.2 = 0 := by
    intro q hq'
    have h2 : q.2 = 0 := hb _ (List.of_mem_zip (a := q.1) (b := q.2) hq').2
    rw [FieldProblem.bnWinding, windingB_no_current (Q.withG 0) rfl hI, h2]
    simp [V3.dot]
  rw [List.map_congr_left e, GridSurface.integrate]
  refine mul_eq_zero_of_left ?_ _
  apply List.sum_eq_zero
  intro x hx
  obtain ⟨i, hi, rfl⟩ := List.getElem_of_mem hx
  simp

/-- **C70, false of the code.** For an axisymmetric plasma and winding surface with the default grids, without net toroidal current and without
plasma field, the automatic unit of `f_B` is exactly 0, for every net poloidal current: the scaled objective is `0/0` at the start. The same
number is the denominator of `f_B_normalized_by_Bnormal_IG`. -/
theorem C70_axisymmetric_violated_partial (Q : FieldProblem) (h : Axisymmetric Q.cp.surf Q.cp.wdofs)
    (hp : Axisymmetric Q.plasma.shape Q.plasma.dofs) (hn : Q.cp.surf.nfp ≠ 0) (hw : Q.wPhis = defaultWindingPhi Q.cp.surf.nfp)
    (hq : Q.plasma.phis = defaultPlasmaPhi Q.cp.surf.nfp) (hI : Q.cp.I = 0) (hb : ∀ b ∈ Q.bPlasma, b = 0) (others : List String) :
    ∃ q, shippedRegistry FieldProblem.fns others "f_B" = some (.quantity q) ∧ (∃ u, unitCallable q .none = .ok u ∧ u Q = .scalar 0) ∧
      ∀ c, Q.fBnormalized c = Q.fB c / 0 := by
  have hz := f_B_zero Q h hp (32 * Q.cp.surf.nfp) (by omega) hw (by rw [hq]; exact (C181_default_grids _ hn).2) hI hb
  refine ⟨_, rfl, ⟨_, rfl, ?_⟩, fun c => by rw [FieldProblem.fBnormalized, hz]⟩
  exact congrArg Val.scalar (hz _)

/-- The circular torus with 5 units of net poloidal current and none toroidally. -/
example (others : List String) := C70_axisymmetric_violated_partial { torusProblem with
    cp := { circularTorus with I := 0 }
    wPhis := defaultWindingPhi 1
    plasma := ⟨circularTorus.surf, [2, 1 / 2, 1 / 2], defaultPlasmaPhi 1, linspace0 1 2⟩
    bPlasma := [0, 0] } (torus_axisymmetric 2 1) (torus_axisymmetric 2 (1 / 2)) one_ne_zero rfl rfl rfl (by simp) others

end Verif
