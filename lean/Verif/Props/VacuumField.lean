import Verif.Props.NetFlux
import Verif.Props.ForceField
import Verif.Spec.Curl

/-!
# C179: the field is that of a vacuum
-/

namespace Verif

open CpParams Filter Topology

/-- The curl of the field of one current away from it. -/
noncomputable def currentCurl (y x K : V3) : V3 :=
  (1e-7 : ℝ) • ((3 * V3.dot K (y - x) / (y - x).norm ^ 5) • (y - x) - (1 / (y - x).norm ^ 3) • K)

theorem biotSavart_curl (x K y : V3) (h : x ≠ y) : HasCurl (fun y => biotSavart y x K) (currentCurl y x K) y := by
  have hr : (y - x) ≠ 0 := V3.sub_ne_zero' h
  have hpos := V3.normSq_pos _ hr
  have hn : 0 < (y - x).norm := (V3.norm_pos_iff _).2 hr
  have key : ∀ (g : ℝ → V3) (s0 a : ℝ), g s0 = y → HasDerivAt (fun s => (g s - x).normSq) (2 * a) s0 →
      HasDerivAt (fun s => 1e-7 / (g s - x).norm ^ 3) (-(3 * 1e-7 * a) / (y - x).norm ^ 5) s0 := by
    intro g s0 a hg hd
    have h1 : HasDerivAt (fun s => (g s - x).norm) (a / (y - x).norm) s0 := by
      have := hd.sqrt (by rw [hg]; exact hpos.ne')
      rw [hg] at this
      refine this.congr_deriv ?_
      rw [V3.norm]
      field_simp
    have h2 := (h1.fun_pow 3).fun_inv (by rw [hg]; positivity)
    have h3 := h2.const_mul (1e-7 : ℝ)
    simp only [← div_eq_mul_inv] at h3
    refine h3.congr_deriv ?_
    rw [hg]
    push_cast
    field_simp
  have ex := key (fun s => ⟨s, y.y, y.z⟩) y.x (y.x - x.x) rfl (by
    simp only [V3.normSq, V3.sub_x, V3.sub_y, V3.sub_z]
    have := (((hasDerivAt_id' y.x).sub_const x.x).fun_pow 2).add_const ((y.y - x.y) ^ 2 + (y.z - x.z) ^ 2)
    refine (this.congr_deriv (by push_cast; ring)).congr_of_eventuallyEq (Eventually.of_forall fun s => ?_)
    simp only
    ring)
  have ey := key (fun s => ⟨y.x, s, y.z⟩) y.y (y.y - x.y) rfl (by
    simp only [V3.normSq, V3.sub_x, V3.sub_y, V3.sub_z]
    have := (((hasDerivAt_id' y.y).sub_const x.y).fun_pow 2).add_const ((y.x - x.x) ^ 2 + (y.z - x.z) ^ 2)
    refine (this.congr_deriv (by push_cast; ring)).congr_of_eventuallyEq (Eventually.of_forall fun s => ?_)
    simp only
    ring)
  have ez := key (fun s => ⟨y.x, y.y, s⟩) y.z (y.z - x.z) rfl (by
    simp only [V3.normSq, V3.sub_x, V3.sub_y, V3.sub_z]
    have := (((hasDerivAt_id' y.z).sub_const x.z).fun_pow 2).add_const ((y.x - x.x) ^ 2 + (y.y - x.y) ^ 2)
    refine (this.congr_deriv (by push_cast; ring)).congr_of_eventuallyEq (Eventually.of_forall fun s => ?_)
    simp only
    ring)
  -- an affine second factor
  have lin : ∀ a b c s0 : ℝ, HasDerivAt (fun s : ℝ => a * (s - c) - b) a s0 := fun a b c s0 => by
    simpa using (((hasDerivAt_id' s0).sub_const c).const_mul a).sub_const b
  have lin' : ∀ a b c s0 : ℝ, HasDerivAt (fun s : ℝ => b - a * (s - c)) (-a) s0 := fun a b c s0 => by
    simpa using (((hasDerivAt_id' s0).sub_const c).const_mul a).const_sub b
  refine ⟨_, _, _, _, _, _, ey.mul (lin K.x (K.y * (y.x - x.x)) x.y y.y), ez.mul (lin' K.x (K.z * (y.x - x.x)) x.z y.z),
    ez.mul (lin K.y (K.z * (y.y - x.y)) x.z y.z), ex.mul (lin' K.y (K.x * (y.y - x.y)) x.x y.x),
    ex.mul (lin K.z (K.x * (y.z - x.z)) x.x y.x), ey.mul (lin' K.z (K.y * (y.z - x.z)) x.y y.y), ?_⟩
  have hsq : (y - x).norm ^ 2 = (y.x - x.x) ^ 2 + (y.y - x.y) ^ 2 + (y.z - x.z) ^ 2 := by
    rw [V3.norm_sq]
    rfl
  simp only [currentCurl]
  generalize (y - x).norm = r at hn hsq
  have hn' := hn.ne'
  ext
  · simp only [V3.dot, V3.cross, V3.smul_x, V3.smul_y, V3.smul_z, V3.sub_x, V3.sub_y, V3.sub_z]
    field_simp
    linear_combination (-3 * K.x) * hsq
  · simp only [V3.dot, V3.cross, V3.smul_x, V3.smul_y, V3.smul_z, V3.sub_x, V3.sub_y, V3.sub_z]
    field_simp
    linear_combination (-3 * K.y) * hsq
  · simp only [V3.dot, V3.cross, V3.smul_x, V3.smul_y, V3.smul_z, V3.sub_x, V3.sub_y, V3.sub_z]
    field_simp
    linear_combination (-3 * K.z) * hsq

theorem HasCurl.smul {B : V3 → V3} {v y : V3} (h : HasCurl B v y) (s : ℝ) : HasCurl (fun y => s • B y) (s • v) y := by
  obtain ⟨zy, yz, xz, zx, yx, xy, h1, h2, h3, h4, h5, h6, rfl⟩ := h
  refine ⟨_, _, _, _, _, _, h1.const_mul s, h2.const_mul s, h3.const_mul s, h4.const_mul s, h5.const_mul s, h6.const_mul s, ?_⟩
  ext <;> simp only [V3.smul_x, V3.smul_y, V3.smul_z] <;> ring

theorem HasCurl.vsum {β : Type} (l : List β) (B : β → V3 → V3) (v : β → V3) (y : V3) (h : ∀ q ∈ l, HasCurl (B q) (v q) y) :
    HasCurl (fun y => Verif.vsum (l.map fun q => B q y)) (Verif.vsum (l.map v)) y := by
  induction l with
  | nil =>
    refine ⟨0, 0, 0, 0, 0, 0, ?_⟩
    simp only [Verif.vsum, List.map_nil, List.sum_nil, sub_zero]
    exact ⟨hasDerivAt_const _ _, hasDerivAt_const _ _, hasDerivAt_const _ _, hasDerivAt_const _ _, hasDerivAt_const _ _,
      hasDerivAt_const _ _, trivial⟩
  | cons q l ih =>
    obtain ⟨a1, a2, a3, a4, a5, a6, h1, h2, h3, h4, h5, h6, e⟩ := h q List.mem_cons_self
    obtain ⟨b1, b2, b3, b4, b5, b6, k1, k2, k3, k4, k5, k6, e'⟩ := ih fun q hq => h q (List.mem_cons_of_mem _ hq)
    refine ⟨_, _, _, _, _, _, h1.add k1, h2.add k2, h3.add k3, h4.add k4, h5.add k5, h6.add k6, ?_⟩
    have e'' := e'
    simp only [Verif.vsum] at e''
    simp only [Verif.vsum, List.map_cons, List.sum_cons, e]
    have hx := congrArg V3.x e''
    have hy := congrArg V3.y e''
    have hz := congrArg V3.z e''
    simp only at hx hy hz
    ext
    · simp only [hx]
      ring
    · simp only [hy]
      ring
    · simp only [hz]
      ring

/-- The curl of the computed field, as a sum over the winding grid. -/
noncomputable def fieldCurl (Q : FieldProblem) (c : List ℝ) (y : V3) : V3 :=
  vsum ((gridPoints Q.wPhis Q.wThetas).map fun q => ((Q.cp.N q.1 q.2).norm * (1 / Q.wPhis.length) * (1 / Q.wThetas.length)) •
    currentCurl y (Q.cp.surf.gamma Q.cp.wdofs q.1 q.2) (Q.cp.K c q.1 q.2))

theorem fieldCurl_curl (Q : FieldProblem) (c : List ℝ) (y : V3)
    (h : ∀ p ∈ Q.wPhis, ∀ t ∈ Q.wThetas, Q.cp.surf.gamma Q.cp.wdofs p t ≠ y) : HasCurl (Q.windingB c) (fieldCurl Q c y) y := by
  have e : Q.windingB c = fun y => vsum ((gridPoints Q.wPhis Q.wThetas).map fun q =>
      ((Q.cp.N q.1 q.2).norm * (1 / Q.wPhis.length) * (1 / Q.wThetas.length)) •
        biotSavart y (Q.cp.surf.gamma Q.cp.wdofs q.1 q.2) (Q.cp.K c q.1 q.2)) :=
    funext fun y => C109_biot_savart_sum Q c y
  rw [e]
  refine HasCurl.vsum _ _ _ y fun q hq => ?_
  simp only [gridPoints, List.mem_flatMap, List.mem_map] at hq
  obtain ⟨p, hp, t, ht, rfl⟩ := hq
  exact (biotSavart_curl _ _ y (h p hp t ht)).smul _

/-! ## The integral of the curls -/

theorem op_periodic (P : CpParams) (c : List ℝ) (p t : ℝ) :
    app (P.opTheta (p + 1) t) c = app (P.opTheta p t) c ∧ app (P.opPhi p (t + 1)) c = app (P.opPhi p t) c := by
  have h1 : ∀ r : ℤ × ℤ × ℤ, P.angle p (t + 1) r = P.angle p t r + ((r.1 : ℤ) : ℝ) * (2 * Real.pi) := by
    intro r
    simp only [angle]
    ring
  have h2 : ∀ r : ℤ × ℤ × ℤ, P.angle (p + 1) t r = P.angle p t r + ((-(r.2.1 * P.nfp) : ℤ) : ℝ) * (2 * Real.pi) := by
    intro r
    simp only [angle]
    push_cast
    ring
  rw [opPhi_eq, opPhi_eq, opTheta_eq, opTheta_eq]
  exact ⟨congrArg (app · c) (List.map_congr_left fun r _ => by simp only [rTheta, h2, sinOrCos_periodic]),
    congrArg (app · c) (List.map_congr_left fun r _ => by simp only [rPhi, h1, sinOrCos_periodic])⟩

/-- Along a curve of sources `x` with tangent `e`, the derivative of `(y - x) / |y - x|^3`. -/
theorem inverse_square_deriv {x : ℝ → V3} {e : V3} {s : ℝ} (y : V3) (h : x s ≠ y) (hx : HasDerivV3 x e s) :
    HasDerivV3 (fun u => (1 / (y - x u).norm ^ 3) • (y - x u))
      ((3 * V3.dot e (y - x s) / (y - x s).norm ^ 5) • (y - x s) - (1 / (y - x s).norm ^ 3) • e) s := by
  have hr : y - x s ≠ 0 := V3.sub_ne_zero' h
  have hn : 0 < (y - x s).norm := (V3.norm_pos_iff _).2 hr
  have hn' := hn.ne'
  have h1 := (hx.const_sub y).invNorm hr
  rw [normSq_rpow _ hr] at h1
  have h3 := h1.fun_pow 3
  have e3 : (fun u => (1 / (y - x u).norm ^ 3) • (y - x u)) = fun u => (1 / (y - x u).norm) ^ 3 • (y - x u) := by
    funext u
    rw [one_div_pow]
  rw [e3]
  refine (HasDerivV3.smul h3 (hx.const_sub y)).congr_deriv ?_
  generalize (y - x s).norm = r at hn hn'
  ext <;>
  · simp only [V3.dot, V3.smul_x, V3.smul_y, V3.smul_z, V3.sub_x, V3.sub_y, V3.sub_z, V3.add_x, V3.add_y, V3.add_z, V3.neg_x, V3.neg_y,
      V3.neg_z]
    push_cast
    field_simp
    ring

/-- The integrand is a divergence, because the current is one of a stream function. -/
theorem curl_divergence (P : CpParams) (c : List ℝ) (y : V3) (p t : ℝ) (hN : P.N p t ≠ 0) (hy : P.surf.gamma P.wdofs p t ≠ y) :
    ∃ a b : V3,
      HasDerivV3 (fun s => (-1e-7 * (app (P.opTheta s t) c + P.I)) • ((1 / (y - P.surf.gamma P.wdofs s t).norm ^ 3) •
        (y - P.surf.gamma P.wdofs s t))) a p ∧
      HasDerivV3 (fun s => (1e-7 * (app (P.opPhi p s) c + P.G)) • ((1 / (y - P.surf.gamma P.wdofs p s).norm ^ 3) •
        (y - P.surf.gamma P.wdofs p s))) b t ∧
      (P.N p t).norm • currentCurl y (P.surf.gamma P.wdofs p t) (P.K c p t) = a + b := by
  have hn := ((V3.norm_pos_iff _).2 hN).ne'
  have h1 := inverse_square_deriv (x := fun s => P.surf.gamma P.wdofs s t) y hy (C38_gammadash_phi P.surf P.wdofs 0 0 p t)
  have h2 := inverse_square_deriv (x := fun s => P.surf.gamma P.wdofs p s) y hy (C38_gammadash_theta P.surf P.wdofs 0 0 p t)
  refine ⟨_, _, HasDerivV3.smul (((P.opTheta_phi c p t).add_const P.I).const_mul (-1e-7)) h1,
    HasDerivV3.smul (((P.opPhi_theta c p t).add_const P.G).const_mul 1e-7) h2, ?_⟩
  rw [K_eq, currentCurl, invN, dg1, dg2]
  simp only [SurfaceShape.gamma]
  ext <;>
  · simp only [V3.dot, V3.smul_x, V3.smul_y, V3.smul_z, V3.sub_x, V3.sub_y, V3.sub_z, V3.add_x, V3.add_y, V3.add_z]
    field_simp
    ring

/-- The curls of the fields of all currents on the winding surface cancel. -/
theorem curl_integral (P : CpParams) (hn : P.surf.nfp ≠ 0) (c : List ℝ) (y : V3) (h : ∀ p t, P.N p t ≠ 0)
    (hy : ∀ p t, P.surf.gamma P.wdofs p t ≠ y) (f : V3 → ℝ) (hf : f = V3.x ∨ f = V3.y ∨ f = V3.z) :
    Continuous (fun q : ℝ × ℝ => f ((P.N q.1 q.2).norm • currentCurl y (P.surf.gamma P.wdofs q.1 q.2) (P.K c q.1 q.2))) ∧
      ∫ p in (0 : ℝ)..1, ∫ t in (0 : ℝ)..1,
        f ((P.N p t).norm • currentCurl y (P.surf.gamma P.wdofs p t) (P.K c p t)) = 0 := by
  have hy' : ∀ p t, y - P.surf.gamma P.wdofs p t ≠ 0 := fun p t => V3.sub_ne_zero' (hy p t)
  have sd : C1 (fun p t => y - P.surf.gamma P.wdofs p t) := (C1.const y).sub (P.gammadash_C1 0 0)
  have sh : C1 (fun p t => (1 / (y - P.surf.gamma P.wdofs p t).norm ^ 3) • (y - P.surf.gamma P.wdofs p t)) :=
    C1.smul (s := fun p t => 1 / (y - P.surf.gamma P.wdofs p t).norm ^ 3)
      (contDiff_const.div ((sd.norm hy').pow 3) fun x => pow_ne_zero _ ((V3.norm_pos_iff _).2 (hy' x.1 x.2)).ne') sd
  have s1 : C1 (fun p t => (-1e-7 * (app (P.opTheta p t) c + P.I)) • ((1 / (y - P.surf.gamma P.wdofs p t).norm ^ 3) •
        (y - P.surf.gamma P.wdofs p t))) :=
    C1.smul (s := fun p t => -1e-7 * (app (P.opTheta p t) c + P.I)) (contDiff_const.mul ((P.appTheta_contDiff c).add contDiff_const)) sh
  have s2 : C1 (fun p t => (1e-7 * (app (P.opPhi p t) c + P.G)) • ((1 / (y - P.surf.gamma P.wdofs p t).norm ^ 3) •
        (y - P.surf.gamma P.wdofs p t))) :=
    C1.smul (s := fun p t => 1e-7 * (app (P.opPhi p t) c + P.G)) (contDiff_const.mul ((P.appPhi_contDiff c).add contDiff_const)) sh
  have p1 : ∀ t, (-1e-7 * (app (P.opTheta 1 t) c + P.I)) • ((1 / (y - P.surf.gamma P.wdofs 1 t).norm ^ 3) • (y - P.surf.gamma P.wdofs 1 t)) =
      (-1e-7 * (app (P.opTheta 0 t) c + P.I)) • ((1 / (y - P.surf.gamma P.wdofs 0 t).norm ^ 3) • (y - P.surf.gamma P.wdofs 0 t)) := by
    intro t
    have g := gammadash_phi_one P.surf hn P.wdofs 0 0 0 t
    have o := (op_periodic P c 0 t).1
    rw [zero_add] at g o
    simp only [SurfaceShape.gamma, g, o]
  have p2 : ∀ p, (1e-7 * (app (P.opPhi p 1) c + P.G)) • ((1 / (y - P.surf.gamma P.wdofs p 1).norm ^ 3) • (y - P.surf.gamma P.wdofs p 1)) =
      (1e-7 * (app (P.opPhi p 0) c + P.G)) • ((1 / (y - P.surf.gamma P.wdofs p 0).norm ^ 3) • (y - P.surf.gamma P.wdofs p 0)) := by
    intro p
    have g := gammadash_theta_one P.surf P.wdofs 0 0 p 0
    have o := (op_periodic P c p 0).2
    rw [zero_add] at g o
    simp only [SurfaceShape.gamma, g, o]
  rcases hf with rfl | rfl | rfl
  · exact integral_divergence_periodic _ _ s1.1 s2.1 (fun t => congrArg V3.x (p1 t)) (fun p => congrArg V3.x (p2 p))
      (fun q => ((P.N q.1 q.2).norm • currentCurl y (P.surf.gamma P.wdofs q.1 q.2) (P.K c q.1 q.2)).x) fun p t => by
        obtain ⟨a, b, ha, hb, e⟩ := curl_divergence P c y p t (h p t) (hy p t)
        exact ⟨_, _, ha.1, hb.1, by simp only [e, V3.add_x]⟩
  · exact integral_divergence_periodic _ _ s1.2.1 s2.2.1 (fun t => congrArg V3.y (p1 t)) (fun p => congrArg V3.y (p2 p))
      (fun q => ((P.N q.1 q.2).norm • currentCurl y (P.surf.gamma P.wdofs q.1 q.2) (P.K c q.1 q.2)).y) fun p t => by
        obtain ⟨a, b, ha, hb, e⟩ := curl_divergence P c y p t (h p t) (hy p t)
        exact ⟨_, _, ha.2.1, hb.2.1, by simp only [e, V3.add_y]⟩
  · exact integral_divergence_periodic _ _ s1.2.2 s2.2.2 (fun t => congrArg V3.z (p1 t)) (fun p => congrArg V3.z (p2 p))
      (fun q => ((P.N q.1 q.2).norm • currentCurl y (P.surf.gamma P.wdofs q.1 q.2) (P.K c q.1 q.2)).z) fun p t => by
        obtain ⟨a, b, ha, hb, e⟩ := curl_divergence P c y p t (h p t) (hy p t)
        exact ⟨_, _, ha.2.2, hb.2.2, by simp only [e, V3.add_z]⟩

/-- **C179.** Off the winding surface the computed field is free of divergence on every winding grid, and its curl tends to 0 as this grid is
refined: no current flows there. -/
theorem C179_vacuum_field (Q : ℕ → FieldProblem) (P : CpParams) (m n : ℕ → ℕ) (hQ : ∀ k, (Q k).cp = P)
    (hp : ∀ k, (Q k).wPhis = linspace0 1 (m k)) (ht : ∀ k, (Q k).wThetas = linspace0 1 (n k)) (hm : Tendsto m atTop atTop)
    (hn : Tendsto n atTop atTop) (hnfp : P.surf.nfp ≠ 0) (c : List ℝ) (y : V3) (h : ∀ p t, P.N p t ≠ 0)
    (hy : ∀ p t, P.surf.gamma P.wdofs p t ≠ y) :
    (∀ k, HasDivergence ((Q k).windingB c) 0 y) ∧ ∃ v : ℕ → V3, (∀ k, HasCurl ((Q k).windingB c) (v k) y) ∧ TendstoV3 v 0 := by
  refine ⟨fun k => C109_divergence_free (Q k) c y fun p _ t _ => by rw [hQ]; exact hy p t,
    fun k => fieldCurl (Q k) c y, fun k => fieldCurl_curl (Q k) c y fun p _ t _ => by rw [hQ]; exact hy p t, ?_⟩
  have e : ∀ k, fieldCurl (Q k) c y = vsum ((gridPoints (linspace0 1 (m k)) (linspace0 1 (n k))).map fun q =>
      ((P.N q.1 q.2).norm * (1 / m k) * (1 / n k)) • currentCurl y (P.surf.gamma P.wdofs q.1 q.2) (P.K c q.1 q.2)) := by
    intro k
    rw [fieldCurl, hQ, hp, ht, linspace0_length, linspace0_length]
  obtain ⟨cx, ix⟩ := curl_integral P hnfp c y h hy V3.x (.inl rfl)
  obtain ⟨cy, iy⟩ := curl_integral P hnfp c y h hy V3.y (.inr (.inl rfl))
  obtain ⟨cz, iz⟩ := curl_integral P hnfp c y h hy V3.z (.inr (.inr rfl))
  have tx := grid_sum_tendsto (f := fun p t => ((P.N p t).norm • currentCurl y (P.surf.gamma P.wdofs p t) (P.K c p t)).x) cx hm hn
  have ty := grid_sum_tendsto (f := fun p t => ((P.N p t).norm • currentCurl y (P.surf.gamma P.wdofs p t) (P.K c p t)).y) cy hm hn
  have tz := grid_sum_tendsto (f := fun p t => ((P.N p t).norm • currentCurl y (P.surf.gamma P.wdofs p t) (P.K c p t)).z) cz hm hn
  rw [ix] at tx
  rw [iy] at ty
  rw [iz] at tz
  refine ⟨tx.congr fun k => ?_, ty.congr fun k => ?_, tz.congr fun k => ?_⟩ <;>
  · simp only [e, vsum]
    simp only [List.map_map, Function.comp_def, V3.smul_x, V3.smul_y, V3.smul_z]
    congr 1
    refine List.map_congr_left fun q _ => ?_
    ring

/-- The circular torus, on its axis. -/
example (c : List ℝ) : ∃ v : ℕ → V3, (∀ k, HasCurl (({ torusProblem with wPhis := linspace0 1 (2 * k), wThetas := linspace0 1 (3 * k) } :
      FieldProblem).windingB c) (v k) 0) ∧ TendstoV3 v 0 :=
  (C179_vacuum_field (fun k => { torusProblem with wPhis := linspace0 1 (2 * k), wThetas := linspace0 1 (3 * k) }) circularTorus
    (fun k => 2 * k) (fun k => 3 * k) (fun _ => rfl) (fun _ => rfl) (fun _ => rfl)
    (tendsto_id.const_mul_atTop' (by decide)) (tendsto_id.const_mul_atTop' (by decide)) (by simp [circularTorus]) c 0
    (fun p t => (circularTorus_regular p t).1) fun p t => (circularTorus_regular p t).2).2

end Verif
