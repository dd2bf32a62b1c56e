import Verif.Props.ForceField
import Verif.Spec.Divergence
import Verif.Lemmas.Riemann

/-!
# Properties C109, C110: the field of the winding surface and the surface sums
-/

namespace Verif

open CpParams Filter Topology

/-! ## C109 -/

theorem bTerm_eq (Q : FieldProblem) (c : List ℝ) (y : V3) (q : ℝ × ℝ) :
    (1e-7 : ℝ) • Q.bTerm c y q =
      (Q.cp.N q.1 q.2).norm • biotSavart y (Q.cp.surf.gamma Q.cp.wdofs q.1 q.2) (Q.cp.K c q.1 q.2) := by
  have e : Q.cp.surf.normal Q.cp.wdofs q.1 q.2 = Q.cp.N q.1 q.2 := rfl
  simp only [FieldProblem.bTerm, biotSavart, e, V3.norm]
  ext <;> simp only [V3.smul_x, V3.smul_y, V3.smul_z, one_div, inv_pow] <;> ring

/-- The field is the sum of the fields of the currents at the grid points, each with its area. -/
theorem C109_biot_savart_sum (Q : FieldProblem) (c : List ℝ) (y : V3) :
    Q.windingB c y = vsum ((gridPoints Q.wPhis Q.wThetas).map fun q =>
      ((Q.cp.N q.1 q.2).norm * (1 / Q.wPhis.length) * (1 / Q.wThetas.length)) •
        biotSavart y (Q.cp.surf.gamma Q.cp.wdofs q.1 q.2) (Q.cp.K c q.1 q.2)) := by
  have h : ∀ q : ℝ × ℝ, ((Q.cp.N q.1 q.2).norm * (1 / Q.wPhis.length) * (1 / Q.wThetas.length)) •
      biotSavart y (Q.cp.surf.gamma Q.cp.wdofs q.1 q.2) (Q.cp.K c q.1 q.2) =
      ((1e-7 : ℝ) / Q.wPhis.length / Q.wThetas.length) • Q.bTerm c y q := by
    intro q
    have h := bTerm_eq Q c y q
    have hx := congrArg V3.x h
    have hy := congrArg V3.y h
    have hz := congrArg V3.z h
    simp only [V3.smul_x, V3.smul_y, V3.smul_z] at hx hy hz
    ext
    · simp only [V3.smul_x]
      linear_combination -(1 / (Q.wPhis.length : ℝ) * (1 / Q.wThetas.length)) * hx
    · simp only [V3.smul_y]
      linear_combination -(1 / (Q.wPhis.length : ℝ) * (1 / Q.wThetas.length)) * hy
    · simp only [V3.smul_z]
      linear_combination -(1 / (Q.wPhis.length : ℝ) * (1 / Q.wThetas.length)) * hz
  simp only [h]
  simp only [FieldProblem.windingB, FieldProblem.computeB, vsum, List.map_map, Function.comp_def]
  ext <;> simp only [V3.smul_x, V3.smul_y, V3.smul_z, List.sum_map_mul_left]

/-- The field of one current is free of divergence away from it. -/
theorem biotSavart_divergence (x K y : V3) (h : y ≠ x) : HasDivergence (fun y => biotSavart y x K) 0 y := by
  have hr : (y - x) ≠ 0 := by
    intro h0
    apply h
    have hx := congrArg V3.x h0
    have hyy := congrArg V3.y h0
    have hz := congrArg V3.z h0
    simp only [V3.sub_x, V3.sub_y, V3.sub_z, V3.zero_x, V3.zero_y, V3.zero_z] at hx hyy hz
    ext <;> linarith
  have hpos := V3.normSq_pos _ hr
  have hn : 0 < (y - x).norm := (V3.norm_pos_iff _).2 hr
  -- the derivative of `1e-7 / |r|^3` along a line
  have key : ∀ (g : ℝ → V3) (s0 a : ℝ), g s0 = y → HasDerivAt (fun s => (g s - x).normSq) (2 * a) s0 →
      HasDerivAt (fun s => 1e-7 / (g s - x).norm ^ 3) (-(3 * 1e-7 * a) / (y - x).norm ^ 5) s0 := by
    intro g s0 a hg hd
    have h1 : HasDerivAt (fun s => (g s - x).norm) (a / (y - x).norm) s0 := by
      have := hd.sqrt (by rw [hg]; exact hpos.ne')
      rw [hg] at this
      refine this.congr_deriv ?_
      rw [V3.norm]
      field_simp
    have h2 := (h1.fun_pow 3).fun_inv (by rw [hg]; positivity)
    have h3 := h2.const_mul (1e-7 : ℝ)
    simp only [← div_eq_mul_inv] at h3
    refine h3.congr_deriv ?_
    rw [hg]
    push_cast
    field_simp
  have ex : HasDerivAt (fun s => ((⟨s, y.y, y.z⟩ : V3) - x).normSq) (2 * (y.x - x.x)) y.x := by
    simp only [V3.normSq, V3.sub_x, V3.sub_y, V3.sub_z]
    have := (((hasDerivAt_id' y.x).sub_const x.x).fun_pow 2).add_const ((y.y - x.y) ^ 2 + (y.z - x.z) ^ 2)
    refine (this.congr_deriv (by push_cast; ring)).congr_of_eventuallyEq (Eventually.of_forall fun s => ?_)
    simp only
    ring
  have ey : HasDerivAt (fun s => ((⟨y.x, s, y.z⟩ : V3) - x).normSq) (2 * (y.y - x.y)) y.y := by
    simp only [V3.normSq, V3.sub_x, V3.sub_y, V3.sub_z]
    have := (((hasDerivAt_id' y.y).sub_const x.y).fun_pow 2).add_const ((y.x - x.x) ^ 2 + (y.z - x.z) ^ 2)
    refine (this.congr_deriv (by push_cast; ring)).congr_of_eventuallyEq (Eventually.of_forall fun s => ?_)
    simp only
    ring
  have ez : HasDerivAt (fun s => ((⟨y.x, y.y, s⟩ : V3) - x).normSq) (2 * (y.z - x.z)) y.z := by
    simp only [V3.normSq, V3.sub_x, V3.sub_y, V3.sub_z]
    have := (((hasDerivAt_id' y.z).sub_const x.z).fun_pow 2).add_const ((y.x - x.x) ^ 2 + (y.y - x.y) ^ 2)
    refine (this.congr_deriv (by push_cast; ring)).congr_of_eventuallyEq (Eventually.of_forall fun s => ?_)
    simp only
    ring
  refine ⟨_, _, _, (key _ _ _ rfl ex).mul_const (K.y * (y.z - x.z) - K.z * (y.y - x.y)),
    (key _ _ _ rfl ey).mul_const (K.z * (y.x - x.x) - K.x * (y.z - x.z)),
    (key _ _ _ rfl ez).mul_const (K.x * (y.y - x.y) - K.y * (y.x - x.x)), ?_⟩
  ring

theorem HasDivergence.smul {B : V3 → V3} {d : ℝ} {y : V3} (h : HasDivergence B d y) (s : ℝ) :
    HasDivergence (fun y => s • B y) (s * d) y := by
  obtain ⟨a, b, c, ha, hb, hc, rfl⟩ := h
  exact ⟨s * a, s * b, s * c, ha.const_mul s, hb.const_mul s, hc.const_mul s, by ring⟩

theorem HasDivergence.vsum {β : Type} (l : List β) (B : β → V3 → V3) (y : V3) (h : ∀ q ∈ l, HasDivergence (B q) 0 y) :
    HasDivergence (fun y => Verif.vsum (l.map fun q => B q y)) 0 y := by
  induction l with
  | nil =>
    refine ⟨0, 0, 0, ?_, ?_, ?_, by ring⟩ <;> simpa [Verif.vsum] using hasDerivAt_const _ (0 : ℝ)
  | cons q l ih =>
    obtain ⟨a, b, c, ha, hb, hc, h0⟩ := h q (List.mem_cons_self ..)
    obtain ⟨a', b', c', ha', hb', hc', h0'⟩ := ih fun q hq => h q (List.mem_cons_of_mem _ hq)
    refine ⟨a + a', b + b', c + c', ?_, ?_, ?_, by linarith⟩
    · simpa only [Verif.vsum, List.map_cons, List.sum_cons] using ha.fun_add ha'
    · simpa only [Verif.vsum, List.map_cons, List.sum_cons] using hb.fun_add hb'
    · simpa only [Verif.vsum, List.map_cons, List.sum_cons] using hc.fun_add hc'

/-- The computed field is free of divergence at every point that is not a point of the winding grid. -/
theorem C109_divergence_free (Q : FieldProblem) (c : List ℝ) (y : V3)
    (h : ∀ p ∈ Q.wPhis, ∀ t ∈ Q.wThetas, Q.cp.surf.gamma Q.cp.wdofs p t ≠ y) : HasDivergence (Q.windingB c) 0 y := by
  have e : Q.windingB c = fun y => vsum ((gridPoints Q.wPhis Q.wThetas).map fun q =>
      ((Q.cp.N q.1 q.2).norm * (1 / Q.wPhis.length) * (1 / Q.wThetas.length)) •
        biotSavart y (Q.cp.surf.gamma Q.cp.wdofs q.1 q.2) (Q.cp.K c q.1 q.2)) :=
    funext fun y => C109_biot_savart_sum Q c y
  rw [e]
  refine HasDivergence.vsum _ _ y fun q hq => ?_
  simp only [gridPoints, List.mem_flatMap, List.mem_map] at hq
  obtain ⟨p, hp, t, ht, rfl⟩ := hq
  simpa using (biotSavart_divergence (Q.cp.surf.gamma Q.cp.wdofs p t) (Q.cp.K c p t) y fun e => h p hp t ht e.symm).smul
    ((Q.cp.N p t).norm * (1 / Q.wPhis.length) * (1 / Q.wThetas.length))

/-- The integrand of the law of Biot and Savart is continuous for points off the surface. -/
theorem biotSavart_C1 (P : CpParams) (c : List ℝ) (y : V3) (h : ∀ p t, P.N p t ≠ 0)
    (hy : ∀ p t, P.surf.gamma P.wdofs p t ≠ y) :
    C1 (fun p t => (P.N p t).norm • biotSavart y (P.surf.gamma P.wdofs p t) (P.K c p t)) := by
  have hy' : ∀ p t, y - P.surf.gamma P.wdofs p t ≠ 0 := by
    intro p t h0
    apply hy p t
    have hx := congrArg V3.x h0
    have hyy := congrArg V3.y h0
    have hz := congrArg V3.z h0
    simp only [V3.sub_x, V3.sub_y, V3.sub_z, V3.zero_x, V3.zero_y, V3.zero_z] at hx hyy hz
    ext <;> linarith
  have sd : C1 (fun p t => y - P.surf.gamma P.wdofs p t) := (C1.const y).sub (P.gammadash_C1 0 0)
  refine C1.smul (s := fun p t => (P.N p t).norm) (P.N_C1.norm h) ?_
  refine C1.smul (s := fun p t => 1e-7 / (y - P.surf.gamma P.wdofs p t).norm ^ 3) ?_ ((P.K_C1 c h).cross sd)
  exact contDiff_const.div ((sd.norm hy').pow 3) fun x => pow_ne_zero _ ((V3.norm_pos_iff _).2 (hy' x.1 x.2)).ne'

/-- Componentwise convergence. -/
def TendstoV3 (u : ℕ → V3) (v : V3) : Prop :=
  Tendsto (fun k => (u k).x) atTop (𝓝 v.x) ∧ Tendsto (fun k => (u k).y) atTop (𝓝 v.y) ∧
    Tendsto (fun k => (u k).z) atTop (𝓝 v.z)

/-- Sums over uniform grids of samples of a continuous function. -/
theorem grid_sum_tendsto {f : ℝ → ℝ → ℝ} (hf : Continuous fun q : ℝ × ℝ => f q.1 q.2) {m n : ℕ → ℕ}
    (hm : Tendsto m atTop atTop) (hn : Tendsto n atTop atTop) :
    Tendsto (fun k => ((gridPoints (linspace0 1 (m k)) (linspace0 1 (n k))).map fun q =>
      f q.1 q.2 * (1 / m k) * (1 / n k)).sum) atTop (𝓝 (∫ p in (0 : ℝ)..1, ∫ t in (0 : ℝ)..1, f p t)) := by
  refine (square_sum_tendsto hf hm hn).congr fun k => ?_
  rw [gridPoints_sum, linspace0_sum]
  refine Finset.sum_congr rfl fun i _ => ?_
  rw [linspace0_sum]
  refine Finset.sum_congr rfl fun j _ => ?_
  ring

/-- When the winding grid is refined in both angles, the computed field tends to the integral of the law of Biot and Savart
over the winding surface. -/
theorem C109_field_limit (Q : ℕ → FieldProblem) (P : CpParams) (m n : ℕ → ℕ) (hQ : ∀ k, (Q k).cp = P)
    (hp : ∀ k, (Q k).wPhis = linspace0 1 (m k)) (ht : ∀ k, (Q k).wThetas = linspace0 1 (n k))
    (hm : Tendsto m atTop atTop) (hn : Tendsto n atTop atTop) (c : List ℝ) (y : V3) (h : ∀ p t, P.N p t ≠ 0)
    (hy : ∀ p t, P.surf.gamma P.wdofs p t ≠ y) :
    TendstoV3 (fun k => (Q k).windingB c y)
      (torusIntegral fun p t => (P.N p t).norm • biotSavart y (P.surf.gamma P.wdofs p t) (P.K c p t)) := by
  obtain ⟨sx, sy, sz⟩ := biotSavart_C1 P c y h hy
  have e : ∀ k, (Q k).windingB c y = vsum ((gridPoints (linspace0 1 (m k)) (linspace0 1 (n k))).map fun q =>
      ((P.N q.1 q.2).norm * (1 / m k) * (1 / n k)) • biotSavart y (P.surf.gamma P.wdofs q.1 q.2) (P.K c q.1 q.2)) := by
    intro k
    rw [C109_biot_savart_sum, hQ, hp, ht, linspace0_length, linspace0_length]
  refine ⟨(grid_sum_tendsto sx.continuous hm hn).congr fun k => ?_, (grid_sum_tendsto sy.continuous hm hn).congr fun k => ?_,
    (grid_sum_tendsto sz.continuous hm hn).congr fun k => ?_⟩ <;>
  · simp only [e, vsum]
    simp only [List.map_map, Function.comp_def, V3.smul_x, V3.smul_y, V3.smul_z]
    congr 1
    refine List.map_congr_left fun q _ => ?_
    ring

/-- The circular torus and its axis meet the hypotheses. -/
example (c : List ℝ) : TendstoV3 (fun k => ({ torusProblem with wPhis := linspace0 1 (2 * k), wThetas := linspace0 1 (3 * k) } :
      FieldProblem).windingB c 0)
    (torusIntegral fun p t => (circularTorus.N p t).norm •
      biotSavart 0 (circularTorus.surf.gamma circularTorus.wdofs p t) (circularTorus.K c p t)) :=
  C109_field_limit _ circularTorus (fun k => 2 * k) (fun k => 3 * k) (fun _ => rfl) (fun _ => rfl) (fun _ => rfl)
    (tendsto_id.const_mul_atTop' (by decide)) (tendsto_id.const_mul_atTop' (by decide)) c 0
    (fun p t => (circularTorus_regular p t).1) fun p t => (circularTorus_regular p t).2

example (c : List ℝ) : HasDivergence (torusProblem.windingB c) 0 0 :=
  C109_divergence_free torusProblem c 0 fun p _ t _ => (circularTorus_regular p t).2

/-! ## C110 -/

/-- Sums over a uniform grid on part of the torus. -/
theorem grid_sum_tendsto_part {f : ℝ → ℝ → ℝ} (hf : Continuous fun q : ℝ × ℝ => f q.1 q.2) (L : ℝ) {m n : ℕ → ℕ}
    (hm : Tendsto m atTop atTop) (hn : Tendsto n atTop atTop) :
    Tendsto (fun k => ((gridPoints (linspace0 L (m k)) (linspace0 1 (n k))).map fun q =>
      f q.1 q.2 * (L / m k) * (1 / n k)).sum) atTop (𝓝 (∫ p in (0 : ℝ)..L, ∫ t in (0 : ℝ)..1, f p t)) := by
  have hg : Continuous fun q : ℝ × ℝ => L * f (L * q.1) q.2 := by fun_prop
  have e : ∫ p in (0 : ℝ)..L, ∫ t in (0 : ℝ)..1, f p t = ∫ p in (0 : ℝ)..1, ∫ t in (0 : ℝ)..1, L * f (L * p) t := by
    have := intervalIntegral.smul_integral_comp_mul_left (a := 0) (b := 1) (fun p => ∫ t in (0 : ℝ)..1, f p t) L
    simp only [mul_zero, mul_one, smul_eq_mul] at this
    rw [← this]
    simp only [intervalIntegral.integral_const_mul]
  rw [e]
  refine (square_sum_tendsto hg hm hn).congr fun k => ?_
  rw [gridPoints_sum, linspace0_sum]
  refine Finset.sum_congr rfl fun i _ => ?_
  rw [linspace0_sum]
  refine Finset.sum_congr rfl fun j _ => ?_
  have e1 : L * (i * (1 / (m k : ℝ))) = i * (L / m k) := by ring
  rw [e1]
  ring

theorem GridSurface.integrate_map (S : GridSurface) (f : ℝ → ℝ → ℝ) :
    S.integrate ((gridPoints S.phis S.thetas).map fun q => f q.1 q.2) =
      ((gridPoints S.phis S.thetas).map fun q =>
        f q.1 q.2 * (S.shape.normal S.dofs q.1 q.2).norm * gridStep S.phis * gridStep S.thetas).sum := by
  rw [GridSurface.integrate, GridSurface.da, List.zipWith_map, List.zipWith_self]
  congr 1
  refine List.map_congr_left fun q _ => ?_
  ring

theorem normal_norm_continuous (S : SurfaceShape) (dofs : List ℝ) :
    Continuous fun q : ℝ × ℝ => (S.normal dofs q.1 q.2).norm := by
  obtain ⟨h1, h2, h3⟩ : C1 (fun p t => S.normal dofs p t) :=
    C1.cross (f := fun p t => S.gammadash dofs 1 0 p t) (g := fun p t => S.gammadash dofs 0 1 p t)
      (S.gammadash_contDiff dofs 1 0) (S.gammadash_contDiff dofs 0 1)
  have := h1.continuous
  have := h2.continuous
  have := h3.continuous
  simp only [V3.norm, V3.normSq]
  fun_prop

/-- `integrate` tends to the surface integral over the part `0 <= phi < L` of the torus. -/
theorem C110_integrate_limit (S : SurfaceShape) (dofs : List ℝ) (f : ℝ → ℝ → ℝ)
    (hf : Continuous fun q : ℝ × ℝ => f q.1 q.2) (L : ℝ) (m n : ℕ → ℕ) (hm : Tendsto m atTop atTop)
    (hn : Tendsto n atTop atTop) :
    Tendsto (fun k => let G : GridSurface := ⟨S, dofs, linspace0 L (m k), linspace0 1 (n k)⟩
        G.integrate ((gridPoints G.phis G.thetas).map fun q => f q.1 q.2)) atTop
      (𝓝 (∫ p in (0 : ℝ)..L, ∫ t in (0 : ℝ)..1, f p t * (S.normal dofs p t).norm)) := by
  have hc : Continuous fun q : ℝ × ℝ => f q.1 q.2 * (S.normal dofs q.1 q.2).norm := hf.mul (normal_norm_continuous S dofs)
  refine (grid_sum_tendsto_part (f := fun p t => f p t * (S.normal dofs p t).norm) hc L hm hn).congr' ?_
  filter_upwards [hm.eventually_ge_atTop 2, hn.eventually_ge_atTop 2] with k h1 h2
  rw [GridSurface.integrate_map, gridStep_linspace0 _ _ h1, gridStep_linspace0 _ _ h2]

/-- The sum of the area elements tends to the area. -/
theorem C110_area_limit (S : SurfaceShape) (dofs : List ℝ) (m n : ℕ → ℕ) (hm : Tendsto m atTop atTop)
    (hn : Tendsto n atTop atTop) :
    Tendsto (fun k => (⟨S, dofs, linspace0 1 (m k), linspace0 1 (n k)⟩ : GridSurface).area) atTop
      (𝓝 (∫ p in (0 : ℝ)..1, ∫ t in (0 : ℝ)..1, (S.normal dofs p t).norm)) := by
  have := C110_integrate_limit S dofs (fun _ _ => 1) continuous_const 1 m n hm hn
  simp only [one_mul] at this
  refine this.congr fun k => ?_
  rw [GridSurface.area, GridSurface.integrate, GridSurface.da, List.zipWith_map, List.zipWith_self]
  simp only [one_mul]

theorem K2_continuous (P : CpParams) (c : List ℝ) (h : ∀ p t, P.N p t ≠ 0) :
    Continuous fun q : ℝ × ℝ => P.K2 c q.1 q.2 := by
  obtain ⟨h1, h2, h3⟩ := P.K_C1 c h
  have := h1.continuous
  have := h2.continuous
  have := h3.continuous
  simp only [K2, V3.normSq]
  fun_prop

/-- `f_K` with the default evaluation grid tends to half the integral of `|K|^2` over the whole winding surface. -/
theorem C110_f_K_limit (Q : ℕ → FieldProblem) (P : CpParams) (hnfp : P.surf.nfp ≠ 0) (m n : ℕ → ℕ) (hQ : ∀ k, (Q k).cp = P)
    (hp : ∀ k, (Q k).wPhis = linspace0 1 (P.surf.nfp * m k)) (ht : ∀ k, (Q k).wThetas = linspace0 1 (n k))
    (he : ∀ k, (Q k).ePhis = defaultEvalPhi P.surf.nfp (Q k).wPhis) (het : ∀ k, (Q k).eThetas = (Q k).wThetas)
    (hm : Tendsto m atTop atTop) (hn : Tendsto n atTop atTop) (c : List ℝ) (h : ∀ p t, P.N p t ≠ 0) :
    Tendsto (fun k => (Q k).fK c) atTop
      (𝓝 (∫ p in (0 : ℝ)..1, ∫ t in (0 : ℝ)..1, (P.K c p t).normSq / 2 * (P.N p t).norm)) := by
  have hm' : Tendsto (fun k => P.surf.nfp * m k) atTop atTop := hm.const_mul_atTop' (Nat.pos_of_ne_zero hnfp)
  refine (C110_integrate_limit P.surf P.wdofs (fun p t => P.K2 c p t / 2) ((K2_continuous P c h).div_const 2) 1 _ n hm'
    hn).congr' ?_
  filter_upwards [hm.eventually_ge_atTop 2] with k hk
  have := C46_f_K_is_full_torus (Q k) (by rw [hQ]; exact hnfp) (m k) hk (by rw [hQ]; exact hp k) (by rw [hQ]; exact he k)
    (het k) c
  rw [this, FieldProblem.winding, hQ, hp, ht]

/-- `f_B` for a fixed winding grid tends to half the integral of the squared normal field over the plasma surface: `nfp`
times the integral over one field period. The plasma field is given by samples of a function `b`. -/
theorem C110_f_B_limit (Q : ℕ → FieldProblem) (R : FieldProblem) (S : SurfaceShape) (dofs : List ℝ) (m n : ℕ → ℕ)
    (hcp : ∀ k, (Q k).cp = R.cp) (hwp : ∀ k, (Q k).wPhis = R.wPhis) (hwt : ∀ k, (Q k).wThetas = R.wThetas)
    (hpl : ∀ k, (Q k).plasma = ⟨S, dofs, linspace0 (1 / R.cp.nfp) (m k), linspace0 1 (n k)⟩) (b : ℝ → ℝ → ℝ)
    (hb : ∀ k, (Q k).bPlasma = (gridPoints (Q k).plasma.phis (Q k).plasma.thetas).map fun q => b q.1 q.2)
    (hbc : Continuous fun q : ℝ × ℝ => b q.1 q.2) (hm : Tendsto m atTop atTop) (hn : Tendsto n atTop atTop) (c : List ℝ)
    (hN : ∀ p t, S.normal dofs p t ≠ 0)
    (hoff : ∀ p' ∈ R.wPhis, ∀ t' ∈ R.wThetas, ∀ p t, R.cp.surf.gamma R.cp.wdofs p' t' ≠ S.gamma dofs p t) :
    Tendsto (fun k => (Q k).fB c) atTop
      (𝓝 (R.cp.nfp * ∫ p in (0 : ℝ)..(1 / R.cp.nfp), ∫ t in (0 : ℝ)..1,
        (V3.dot (S.unitnormal dofs p t) (R.windingB c (S.gamma dofs p t)) + b p t) ^ 2 / 2 * (S.normal dofs p t).norm)) := by
  have sN : C1 (fun p t => S.normal dofs p t) :=
    C1.cross (f := fun p t => S.gammadash dofs 1 0 p t) (g := fun p t => S.gammadash dofs 0 1 p t)
      (S.gammadash_contDiff dofs 1 0) (S.gammadash_contDiff dofs 0 1)
  obtain ⟨u1, u2, u3⟩ : C1 (fun p t => S.unitnormal dofs p t) :=
    C1.smul (s := fun p t => 1 / (S.normal dofs p t).norm) (sN.invNorm hN) sN
  have sB : Continuous (fun q : ℝ × ℝ => (R.windingB c (S.gamma dofs q.1 q.2)).x) ∧
      Continuous (fun q : ℝ × ℝ => (R.windingB c (S.gamma dofs q.1 q.2)).y) ∧
      Continuous (fun q : ℝ × ℝ => (R.windingB c (S.gamma dofs q.1 q.2)).z) := by
    have key : ∀ q' ∈ gridPoints R.wPhis R.wThetas, C1 fun p t => R.bTerm c (S.gamma dofs p t) q' := by
      intro q' hq'
      simp only [gridPoints, List.mem_flatMap, List.mem_map] at hq'
      obtain ⟨p', hp', t', ht', rfl⟩ := hq'
      have sd : C1 (fun p t => S.gamma dofs p t - R.cp.surf.gamma R.cp.wdofs p' t') :=
        C1.sub (f := fun p t => S.gamma dofs p t) (S.gammadash_contDiff dofs 0 0) (C1.const _)
      have hd : ∀ p t, S.gamma dofs p t - R.cp.surf.gamma R.cp.wdofs p' t' ≠ 0 := by
        intro p t h0
        apply hoff p' hp' t' ht' p t
        have hx := congrArg V3.x h0
        have hyy := congrArg V3.y h0
        have hz := congrArg V3.z h0
        simp only [V3.sub_x, V3.sub_y, V3.sub_z, V3.zero_x, V3.zero_y, V3.zero_z] at hx hyy hz
        ext <;> linarith
      refine C1.smul (s := fun p t => (1 / Real.sqrt (S.gamma dofs p t - R.cp.surf.gamma R.cp.wdofs p' t').normSq) ^ 3)
        ((sd.invNorm hd).pow 3) ?_
      exact C1.smul (s := fun _ _ => (R.cp.surf.normal R.cp.wdofs p' t').norm) contDiff_const ((C1.const _).cross sd)
    have gen : ∀ l : List (ℝ × ℝ), (∀ q' ∈ l, C1 fun p t => R.bTerm c (S.gamma dofs p t) q') →
        Continuous (fun q : ℝ × ℝ => (vsum (l.map (R.bTerm c (S.gamma dofs q.1 q.2)))).x) ∧
        Continuous (fun q : ℝ × ℝ => (vsum (l.map (R.bTerm c (S.gamma dofs q.1 q.2)))).y) ∧
        Continuous (fun q : ℝ × ℝ => (vsum (l.map (R.bTerm c (S.gamma dofs q.1 q.2)))).z) := by
      intro l hl
      induction l with
      | nil => simp [vsum, continuous_const]
      | cons q' l ih =>
        obtain ⟨i1, i2, i3⟩ := ih fun q hq => hl q (List.mem_cons_of_mem _ hq)
        obtain ⟨j1, j2, j3⟩ := hl q' (List.mem_cons_self ..)
        simp only [vsum, List.map_cons, List.sum_cons] at i1 i2 i3 ⊢
        exact ⟨j1.continuous.add i1, j2.continuous.add i2, j3.continuous.add i3⟩
    obtain ⟨g1, g2, g3⟩ := gen _ key
    simp only [FieldProblem.windingB, FieldProblem.computeB, V3.smul_x, V3.smul_y, V3.smul_z]
    exact ⟨g1.const_mul _, g2.const_mul _, g3.const_mul _⟩
  obtain ⟨b1, b2, b3⟩ := sB
  have hc : Continuous fun q : ℝ × ℝ =>
      (V3.dot (S.unitnormal dofs q.1 q.2) (R.windingB c (S.gamma dofs q.1 q.2)) + b q.1 q.2) ^ 2 / 2 := by
    have := u1.continuous
    have := u2.continuous
    have := u3.continuous
    simp only [V3.dot]
    fun_prop
  have hlim := (C110_integrate_limit S dofs
    (fun p t => (V3.dot (S.unitnormal dofs p t) (R.windingB c (S.gamma dofs p t)) + b p t) ^ 2 / 2) hc (1 / R.cp.nfp) m n hm hn).mul_const (R.cp.nfp : ℝ)
  rw [mul_comm (R.cp.nfp : ℝ)]
  refine hlim.congr fun k => ?_
  have eT : ∀ y, (Q k).bTerm c y = R.bTerm c y := by
    intro y
    funext q
    simp only [FieldProblem.bTerm, hcp]
  have eB : ∀ y, (Q k).windingB c y = R.windingB c y := by
    intro y
    simp only [FieldProblem.windingB, FieldProblem.computeB, eT, hwp, hwt]
  have ez : ∀ l : List (ℝ × ℝ), l.zip (l.map fun q => b q.1 q.2) = l.map fun q => (q, b q.1 q.2) := by
    intro l
    induction l with
    | nil => rfl
    | cons a l ih => simp [ih]
  rw [FieldProblem.fB, hcp, FieldProblem.bnormal, hb, hpl, ez, List.map_map, List.map_map]
  simp only [Function.comp_def, FieldProblem.bnWinding, hpl, eB]

/-! Circular tori with the same axis meet the hypotheses. -/

theorem torus_gamma (R a p t : ℝ) : circularTorus.surf.gamma [R, a, a] p t =
    ⟨(R + a * Real.cos (2 * Real.pi * t)) * Real.cos (2 * Real.pi * p),
      (R + a * Real.cos (2 * Real.pi * t)) * Real.sin (2 * Real.pi * p), a * Real.sin (2 * Real.pi * t)⟩ := by
  have e1 : p * Real.pi * 2 = 2 * Real.pi * p := by ring
  have e2 : t * Real.pi * 2 = 2 * Real.pi * t := by ring
  rw [SurfaceShape.gamma, SurfaceShape.gammadash_eq]
  simp only [circularTorus, SurfaceShape.leibniz, Finset.Nat.antidiagonal_succ, Finset.Nat.antidiagonal_zero]
  simp [SurfaceShape.rDash, SurfaceShape.zDash, SurfaceShape.rOperatorPadded, SurfaceShape.zOperatorPadded,
    SurfaceShape.rOperator, SurfaceShape.zOperator, SurfaceShape.cmn, SurfaceShape.smn, surfMc, surfNc, surfMs, surfNs,
    repeatEach, tile, arange, SurfaceShape.applyRow, cEntry, sEntry, derivFactor, modeAngle, cosD, sinD]
  ring_nf
  simp [e1, e2]

theorem torus_normal (R a p t : ℝ) (ha : 0 < a) (hR : a < R) : circularTorus.surf.normal [R, a, a] p t ≠ 0 := by
  have h1 : circularTorus.surf.gammadash [R, a, a] 1 0 p t =
      ⟨-(2 * Real.pi) * (R + a * Real.cos (2 * Real.pi * t)) * Real.sin (2 * Real.pi * p),
      2 * Real.pi * (R + a * Real.cos (2 * Real.pi * t)) * Real.cos (2 * Real.pi * p), 0⟩ := by
    rw [SurfaceShape.gammadash_eq]
    simp only [circularTorus, SurfaceShape.leibniz, Finset.Nat.antidiagonal_succ, Finset.Nat.antidiagonal_zero]
    simp [SurfaceShape.rDash, SurfaceShape.zDash, SurfaceShape.rOperatorPadded, SurfaceShape.zOperatorPadded,
      SurfaceShape.rOperator, SurfaceShape.zOperator, SurfaceShape.cmn, SurfaceShape.smn, surfMc, surfNc, surfMs, surfNs,
      repeatEach, tile, arange, SurfaceShape.applyRow, cEntry, sEntry, derivFactor, modeAngle, cosD, sinD]
    refine ⟨?_, ?_⟩ <;> ring_nf
  have h2 : circularTorus.surf.gammadash [R, a, a] 0 1 p t =
      ⟨-(2 * Real.pi) * a * Real.sin (2 * Real.pi * t) * Real.cos (2 * Real.pi * p),
      -(2 * Real.pi) * a * Real.sin (2 * Real.pi * t) * Real.sin (2 * Real.pi * p),
      2 * Real.pi * a * Real.cos (2 * Real.pi * t)⟩ := by
    rw [SurfaceShape.gammadash_eq]
    simp only [circularTorus, SurfaceShape.leibniz, Finset.Nat.antidiagonal_succ, Finset.Nat.antidiagonal_zero]
    simp [SurfaceShape.rDash, SurfaceShape.zDash, SurfaceShape.rOperatorPadded, SurfaceShape.zOperatorPadded,
      SurfaceShape.rOperator, SurfaceShape.zOperator, SurfaceShape.cmn, SurfaceShape.smn, surfMc, surfNc, surfMs, surfNs,
      repeatEach, tile, arange, SurfaceShape.applyRow, cEntry, sEntry, derivFactor, modeAngle, cosD, sinD]
    refine ⟨?_, ?_, ?_⟩ <;> ring_nf
  have hrho : 0 < R + a * Real.cos (2 * Real.pi * t) := by nlinarith [Real.neg_one_le_cos (2 * Real.pi * t)]
  have hp := Real.sin_sq_add_cos_sq (2 * Real.pi * p)
  have ht := Real.sin_sq_add_cos_sq (2 * Real.pi * t)
  have : (circularTorus.surf.normal [R, a, a] p t).normSq =
      ((2 * Real.pi) ^ 2 * a * (R + a * Real.cos (2 * Real.pi * t))) ^ 2 := by
    rw [SurfaceShape.normal, h1, h2]
    simp only [V3.normSq, V3.cross]
    generalize Real.sin (2 * Real.pi * p) = sp at *
    generalize Real.cos (2 * Real.pi * p) = cp at *
    generalize Real.sin (2 * Real.pi * t) = st at *
    generalize Real.cos (2 * Real.pi * t) = ct at *
    linear_combination ((2 * Real.pi) ^ 4 * a ^ 2 * (R + a * ct) ^ 2 * (ct ^ 2 + st ^ 2 * (sp ^ 2 + cp ^ 2 + 1))) * hp +
      ((2 * Real.pi) ^ 4 * a ^ 2 * (R + a * ct) ^ 2) * ht
  intro h0
  rw [h0] at this
  have h2 : 0 < ((2 * Real.pi) ^ 2 * a * (R + a * Real.cos (2 * Real.pi * t))) ^ 2 := by positivity
  rw [← this] at h2
  simp [V3.normSq] at h2

theorem torus_disjoint (R a b p t p' t' : ℝ) (ha : 0 < a) (hb : 0 < b) (hab : a ≠ b) (haR : a < R) (hbR : b < R) :
    circularTorus.surf.gamma [R, a, a] p t ≠ circularTorus.surf.gamma [R, b, b] p' t' := by
  intro h
  rw [torus_gamma, torus_gamma] at h
  simp only [V3.mk.injEq] at h
  obtain ⟨hx, hy, hz⟩ := h
  have hp := Real.sin_sq_add_cos_sq (2 * Real.pi * p)
  have hp' := Real.sin_sq_add_cos_sq (2 * Real.pi * p')
  have ht := Real.sin_sq_add_cos_sq (2 * Real.pi * t)
  have ht' := Real.sin_sq_add_cos_sq (2 * Real.pi * t')
  have h1 : 0 < R + a * Real.cos (2 * Real.pi * t) := by nlinarith [Real.neg_one_le_cos (2 * Real.pi * t)]
  have h2 : 0 < R + b * Real.cos (2 * Real.pi * t') := by nlinarith [Real.neg_one_le_cos (2 * Real.pi * t')]
  generalize Real.sin (2 * Real.pi * p) = sp at *
  generalize Real.cos (2 * Real.pi * p) = cp at *
  generalize Real.sin (2 * Real.pi * t) = st at *
  generalize Real.cos (2 * Real.pi * t) = ct at *
  generalize Real.sin (2 * Real.pi * p') = sp' at *
  generalize Real.cos (2 * Real.pi * p') = cp' at *
  generalize Real.sin (2 * Real.pi * t') = st' at *
  generalize Real.cos (2 * Real.pi * t') = ct' at *
  have hsq : (R + a * ct) ^ 2 = (R + b * ct') ^ 2 := by
    linear_combination ((R + a * ct) * cp + (R + b * ct') * cp') * hx + ((R + a * ct) * sp + (R + b * ct') * sp') * hy
      - (R + a * ct) ^ 2 * hp + (R + b * ct') ^ 2 * hp'
  have hrho : R + a * ct = R + b * ct' := by
    rcases sq_eq_sq_iff_eq_or_eq_neg.1 hsq with h | h
    · exact h
    · linarith
  have hab2 : a ^ 2 = b ^ 2 := by
    have e : a * ct = b * ct' := by linarith
    linear_combination (a * ct + b * ct') * e + (a * st + b * st') * hz - a ^ 2 * ht + b ^ 2 * ht'
  rcases sq_eq_sq_iff_eq_or_eq_neg.1 hab2 with h | h
  · exact hab h
  · linarith

/-- `f_K` on the circular torus. -/
example (c : List ℝ) :
    Tendsto (fun k => (⟨circularTorus, linspace0 1 (1 * k), linspace0 1 k, defaultEvalPhi 1 (linspace0 1 (1 * k)),
        linspace0 1 k, torusProblem.plasma, []⟩ : FieldProblem).fK c) atTop
      (𝓝 (∫ p in (0 : ℝ)..1, ∫ t in (0 : ℝ)..1, (circularTorus.K c p t).normSq / 2 * (circularTorus.N p t).norm)) :=
  C110_f_K_limit _ circularTorus (by decide) (fun k => k) (fun k => k) (fun _ => rfl) (fun _ => rfl) (fun _ => rfl)
    (fun _ => rfl) (fun _ => rfl) tendsto_id tendsto_id c fun p t => (circularTorus_regular p t).1

/-- A plasma of radius 1/2 with a field of its own inside the circular torus, with `k` points in each angle. -/
noncomputable def innerPlasma (k : ℕ) : FieldProblem :=
  ⟨circularTorus, linspace0 1 2, linspace0 1 2, linspace0 1 2, linspace0 1 2,
    ⟨circularTorus.surf, [2, 1 / 2, 1 / 2], linspace0 (1 / circularTorus.nfp) k, linspace0 1 k⟩,
    (gridPoints (linspace0 (1 / circularTorus.nfp) k) (linspace0 1 k)).map fun q => Real.cos q.2⟩

/-- `f_B` converges for this plasma. -/
example (c : List ℝ) : ∃ L, Tendsto (fun k => (innerPlasma k).fB c) atTop (𝓝 L) :=
  ⟨_, C110_f_B_limit innerPlasma torusProblem circularTorus.surf [2, 1 / 2, 1 / 2] (fun k => k) (fun k => k) (fun _ => rfl)
    (fun _ => rfl) (fun _ => rfl) (fun _ => rfl) (fun _ t => Real.cos t) (fun _ => rfl) (by fun_prop) tendsto_id tendsto_id c
    (fun p t => torus_normal 2 (1 / 2) p t (by norm_num) (by norm_num))
    fun p' _ t' _ p t => torus_disjoint 2 1 (1 / 2) p' t' p t (by norm_num) (by norm_num) (by norm_num) (by norm_num)
      (by norm_num)⟩

end Verif
