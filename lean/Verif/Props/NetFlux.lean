import Verif.Props.BiotSavart
import Mathlib.MeasureTheory.Integral.IntervalIntegral.Periodic

/-!
# C178: the field of the winding surface has no net flux through the plasma surface
-/

namespace Verif

open CpParams Filter Topology MeasureTheory

theorem HasDerivV3.const_dot {f : ℝ → V3} {f' : V3} {t : ℝ} (k : V3) (hf : HasDerivV3 f f' t) :
    HasDerivAt (fun u => V3.dot k (f u)) (V3.dot k f') t := by
  simp only [V3.dot]
  exact ((hf.1.const_mul k.x).add (hf.2.1.const_mul k.y)).add (hf.2.2.const_mul k.z)

theorem HasDerivV3.sub_const {f : ℝ → V3} {f' : V3} {t : ℝ} (x : V3) (hf : HasDerivV3 f f' t) : HasDerivV3 (fun u => f u - x) f' t :=
  ⟨hf.1.sub_const x.x, hf.2.1.sub_const x.y, hf.2.2.sub_const x.z⟩

theorem gammadash_phi_one (S : SurfaceShape) (hn : S.nfp ≠ 0) (dofs : List ℝ) (a b : ℕ) (p t : ℝ) :
    S.gammadash dofs a b (p + 1) t = S.gammadash dofs a b p t := by
  have h := C39_field_period S hn dofs a b p t S.nfp
  have hn' : (S.nfp : ℝ) ≠ 0 := by exact_mod_cast hn
  rw [show ((S.nfp : ℤ) : ℝ) = (S.nfp : ℝ) by norm_cast, div_self hn', mul_div_assoc, div_self hn', mul_one] at h
  rw [h]
  ext <;> simp [rotZ]

theorem gammadash_theta_one (S : SurfaceShape) (dofs : List ℝ) (a b : ℕ) (p t : ℝ) :
    S.gammadash dofs a b p (t + 1) = S.gammadash dofs a b p t := by
  have h := C39_theta_periodic S dofs a b p t 1
  simpa using h

theorem V3.sub_ne_zero' {a b : V3} (h : b ≠ a) : a - b ≠ 0 := by
  intro h0
  apply h
  have hx := congrArg V3.x h0
  have hy := congrArg V3.y h0
  have hz := congrArg V3.z h0
  simp only [V3.sub_x, V3.sub_y, V3.sub_z, V3.zero_x, V3.zero_y, V3.zero_z] at hx hy hz
  ext <;> linarith

/-- The flux of the field of one current through a closed surface that does not meet it. The field is the curl of `K / |y - x|`. -/
theorem biotSavart_flux (S : SurfaceShape) (hn : S.nfp ≠ 0) (dofs : List ℝ) (x K : V3) (h : ∀ p t, x ≠ S.gamma dofs p t) :
    Continuous (fun q : ℝ × ℝ => V3.dot (biotSavart (S.gamma dofs q.1 q.2) x K) (S.normal dofs q.1 q.2)) ∧
      ∫ p in (0 : ℝ)..1, ∫ t in (0 : ℝ)..1, V3.dot (biotSavart (S.gamma dofs p t) x K) (S.normal dofs p t) = 0 := by
  have hr : ∀ p t, S.gamma dofs p t - x ≠ 0 := fun p t => V3.sub_ne_zero' (h p t)
  have sr : C1 (fun p t => S.gamma dofs p t - x) := C1.sub (f := fun p t => S.gamma dofs p t) (S.gammadash_contDiff dofs 0 0) (C1.const _)
  have si := sr.invNorm hr
  have cdot : ∀ a b, ContDiff ℝ 1 fun q : ℝ × ℝ => V3.dot K (S.gammadash dofs a b q.1 q.2) := by
    intro a b
    obtain ⟨h1, h2, h3⟩ := S.gammadash_contDiff dofs a b
    simp only [V3.dot]
    exact ((contDiff_const.mul h1).add (contDiff_const.mul h2)).add (contDiff_const.mul h3)
  have g0 : ∀ p t, S.gamma dofs p t = S.gammadash dofs 0 0 p t := fun _ _ => rfl
  refine integral_divergence_periodic
    (fun q => 1e-7 * (1 / (S.gamma dofs q.1 q.2 - x).norm * V3.dot K (S.gammadash dofs 0 1 q.1 q.2)))
    (fun q => -(1e-7 * (1 / (S.gamma dofs q.1 q.2 - x).norm * V3.dot K (S.gammadash dofs 1 0 q.1 q.2))))
    (contDiff_const.mul (si.mul (cdot 0 1))) (contDiff_const.mul (si.mul (cdot 1 0))).neg ?_ ?_
    (fun q => V3.dot (biotSavart (S.gamma dofs q.1 q.2) x K) (S.normal dofs q.1 q.2)) ?_
  · intro t
    have := fun a b => gammadash_phi_one S hn dofs a b 0 t
    simp only [zero_add] at this
    simp only [g0, this]
  · intro p
    have := fun a b => gammadash_theta_one S dofs a b p 0
    simp only [zero_add] at this
    simp only [g0, this]
  · intro p t
    have d1 : HasDerivV3 (fun s => S.gamma dofs s t - x) (S.gammadash dofs 1 0 p t) p :=
      (C38_gammadash_phi S dofs 0 0 p t).sub_const x
    have d2 : HasDerivV3 (fun s => S.gamma dofs p s - x) (S.gammadash dofs 0 1 p t) t :=
      (C38_gammadash_theta S dofs 0 0 p t).sub_const x
    have e1 := (((d1.invNorm (hr p t)).mul ((C38_gammadash_phi S dofs 0 1 p t).const_dot K)).const_mul 1e-7)
    have e2 := (((d2.invNorm (hr p t)).mul ((C38_gammadash_theta S dofs 1 0 p t).const_dot K)).const_mul 1e-7).neg
    refine ⟨_, _, e1, e2, ?_⟩
    have hp : (S.gamma dofs p t - x).norm ≠ 0 := ((V3.norm_pos_iff _).2 (hr p t)).ne'
    simp only [biotSavart, SurfaceShape.normal, V3.dot, V3.cross, V3.smul_x, V3.smul_y, V3.smul_z, normSq_rpow _ (hr p t)]
    field_simp
    ring

theorem list_flux (S : SurfaceShape) (hn : S.nfp ≠ 0) (dofs : List ℝ) (w : ℝ × ℝ → ℝ) (x K : ℝ × ℝ → V3) (l : List (ℝ × ℝ))
    (h : ∀ q ∈ l, ∀ p t, x q ≠ S.gamma dofs p t) :
    Continuous (fun z : ℝ × ℝ => V3.dot (vsum (l.map fun q => w q • biotSavart (S.gamma dofs z.1 z.2) (x q) (K q))) (S.normal dofs z.1 z.2)) ∧
      ∫ p in (0 : ℝ)..1, ∫ t in (0 : ℝ)..1,
        V3.dot (vsum (l.map fun q => w q • biotSavart (S.gamma dofs p t) (x q) (K q))) (S.normal dofs p t) = 0 := by
  induction l with
  | nil => simp [vsum, V3.dot, continuous_const]
  | cons q l ih =>
    obtain ⟨c1, i1⟩ := ih fun q hq => h q (List.mem_cons_of_mem _ hq)
    obtain ⟨c2, i2⟩ := biotSavart_flux S hn dofs (x q) (K q) (h q List.mem_cons_self)
    have e : ∀ p t, V3.dot (vsum ((q :: l).map fun q => w q • biotSavart (S.gamma dofs p t) (x q) (K q))) (S.normal dofs p t) =
        w q * V3.dot (biotSavart (S.gamma dofs p t) (x q) (K q)) (S.normal dofs p t) +
          V3.dot (vsum (l.map fun q => w q • biotSavart (S.gamma dofs p t) (x q) (K q))) (S.normal dofs p t) := by
      intro p t
      simp only [vsum, List.map_cons, List.sum_cons, V3.dot, V3.smul_x, V3.smul_y, V3.smul_z]
      ring
    simp only [e]
    refine ⟨(continuous_const.mul c2).add c1, ?_⟩
    have c2' : Continuous (Function.uncurry fun p t => w q * V3.dot (biotSavart (S.gamma dofs p t) (x q) (K q)) (S.normal dofs p t)) :=
      continuous_const.mul c2
    have c1' : Continuous (Function.uncurry fun p t =>
        V3.dot (vsum (l.map fun q => w q • biotSavart (S.gamma dofs p t) (x q) (K q))) (S.normal dofs p t)) := c1
    have inner : ∀ p, ∫ t in (0 : ℝ)..1, (w q * V3.dot (biotSavart (S.gamma dofs p t) (x q) (K q)) (S.normal dofs p t) +
        V3.dot (vsum (l.map fun q => w q • biotSavart (S.gamma dofs p t) (x q) (K q))) (S.normal dofs p t)) =
        w q * (∫ t in (0 : ℝ)..1, V3.dot (biotSavart (S.gamma dofs p t) (x q) (K q)) (S.normal dofs p t)) +
          ∫ t in (0 : ℝ)..1, V3.dot (vsum (l.map fun q => w q • biotSavart (S.gamma dofs p t) (x q) (K q))) (S.normal dofs p t) := by
      intro p
      rw [intervalIntegral.integral_add, intervalIntegral.integral_const_mul]
      · exact (c2'.comp (by fun_prop : Continuous fun t : ℝ => (p, t))).intervalIntegrable _ _
      · exact (c1'.comp (by fun_prop : Continuous fun t : ℝ => (p, t))).intervalIntegrable _ _
    simp only [inner]
    have k2 : Continuous fun p => ∫ t in (0 : ℝ)..1, V3.dot (biotSavart (S.gamma dofs p t) (x q) (K q)) (S.normal dofs p t) :=
      intervalIntegral.continuous_parametric_intervalIntegral_of_continuous' (by exact c2) 0 1
    have k1 : Continuous fun p => ∫ t in (0 : ℝ)..1,
        V3.dot (vsum (l.map fun q => w q • biotSavart (S.gamma dofs p t) (x q) (K q))) (S.normal dofs p t) :=
      intervalIntegral.continuous_parametric_intervalIntegral_of_continuous' (by exact c1) 0 1
    have k2' : Continuous fun p => w q * ∫ t in (0 : ℝ)..1, V3.dot (biotSavart (S.gamma dofs p t) (x q) (K q)) (S.normal dofs p t) :=
      continuous_const.mul k2
    rw [intervalIntegral.integral_add (k2'.intervalIntegrable _ _) (k1.intervalIntegrable _ _),
      intervalIntegral.integral_const_mul, i2, i1]
    ring

/-- The flux of the field of the winding surface through a closed surface. -/
noncomputable def fluxDensity (R : FieldProblem) (c : List ℝ) (S : SurfaceShape) (dofs : List ℝ) (p t : ℝ) : ℝ :=
  V3.dot (R.windingB c (S.gamma dofs p t)) (S.normal dofs p t)

theorem fluxDensity_eq (R : FieldProblem) (c : List ℝ) (S : SurfaceShape) (dofs : List ℝ) (p t : ℝ) :
    V3.dot (S.unitnormal dofs p t) (R.windingB c (S.gamma dofs p t)) * (S.normal dofs p t).norm = fluxDensity R c S dofs p t := by
  rw [fluxDensity, SurfaceShape.unitnormal]
  by_cases h : S.normal dofs p t = 0
  · simp [h, V3.dot, V3.norm, V3.normSq]
  · have := ((V3.norm_pos_iff _).2 h).ne'
    simp only [V3.dot, V3.smul_x, V3.smul_y, V3.smul_z]
    field_simp

/-- **C178 (no net flux).** Whatever the winding surface, its grid, the potential and the net currents: if no point of the winding grid lies
on the plasma surface, the computed field has no net flux through it. -/
theorem C178_no_net_flux (R : FieldProblem) (c : List ℝ) (S : SurfaceShape) (hn : S.nfp ≠ 0) (dofs : List ℝ)
    (hoff : ∀ p' ∈ R.wPhis, ∀ t' ∈ R.wThetas, ∀ p t, R.cp.surf.gamma R.cp.wdofs p' t' ≠ S.gamma dofs p t) :
    Continuous (fun z : ℝ × ℝ => fluxDensity R c S dofs z.1 z.2) ∧
      ∫ p in (0 : ℝ)..1, ∫ t in (0 : ℝ)..1, fluxDensity R c S dofs p t = 0 := by
  simp only [fluxDensity, C109_biot_savart_sum]
  refine list_flux S hn dofs (fun q => (R.cp.N q.1 q.2).norm * (1 / R.wPhis.length) * (1 / R.wThetas.length))
    (fun q => R.cp.surf.gamma R.cp.wdofs q.1 q.2) (fun q => R.cp.K c q.1 q.2) _ ?_
  intro q hq
  simp only [gridPoints, List.mem_flatMap, List.mem_map] at hq
  obtain ⟨p', hp', t', ht', rfl⟩ := hq
  exact hoff p' hp' t' ht'

/-- **C178 (one field period).** The grid of the winding surface covers whole field periods evenly. -/
theorem C178_no_net_flux_period (R : FieldProblem) (c : List ℝ) (S : SurfaceShape) (dofs : List ℝ) (hn : R.cp.surf.nfp ≠ 0)
    (hp : S.nfp = R.cp.surf.nfp) (j : ℕ) (hw : R.wPhis = linspace0 1 (R.cp.surf.nfp * j))
    (hoff : ∀ p' ∈ R.wPhis, ∀ t' ∈ R.wThetas, ∀ p t, R.cp.surf.gamma R.cp.wdofs p' t' ≠ S.gamma dofs p t) :
    ∫ p in (0 : ℝ)..(1 / R.cp.surf.nfp), ∫ t in (0 : ℝ)..1, fluxDensity R c S dofs p t = 0 := by
  have hn' : (R.cp.surf.nfp : ℝ) ≠ 0 := by exact_mod_cast hn
  obtain ⟨hc, h0⟩ := C178_no_net_flux R c S (hp ▸ hn) dofs hoff
  have hper : Function.Periodic (fun p => ∫ t in (0 : ℝ)..1, fluxDensity R c S dofs p t) (1 / R.cp.surf.nfp) := by
    intro p
    have hS : S.nfp ≠ 0 := hp ▸ hn
    refine intervalIntegral.integral_congr fun t _ => ?_
    have g := fun a b => C39_field_period S hS dofs a b p t 1
    simp only [Int.cast_one, mul_one, hp] at g
    simp only [fluxDensity, SurfaceShape.gamma, SurfaceShape.normal]
    rw [g 0 0, g 1 0, g 0 1, rotZ_cross, C48_field_rotates R hn j hw, rotZ_dot]
  have hcont : Continuous fun p => ∫ t in (0 : ℝ)..1, fluxDensity R c S dofs p t :=
    intervalIntegral.continuous_parametric_intervalIntegral_of_continuous' (by exact hc) 0 1
  have h := hper.intervalIntegral_add_zsmul_eq (R.cp.surf.nfp : ℤ) 0 fun _ _ => hcont.intervalIntegrable _ _
  simp only [zsmul_eq_mul, Int.cast_natCast, zero_add] at h
  rw [mul_one_div_cancel hn', h0] at h
  exact (mul_eq_zero.1 h.symm).resolve_left hn'

/-- **C178 (the sum that the code can form).** The weighted sum of the normal field over the plasma grid tends to 0 as this grid is refined,
whatever the winding grid. -/
theorem C178_grid (Q : ℕ → FieldProblem) (R : FieldProblem) (S : SurfaceShape) (dofs : List ℝ) (m n : ℕ → ℕ)
    (hcp : ∀ k, (Q k).cp = R.cp) (hwp : ∀ k, (Q k).wPhis = R.wPhis) (hwt : ∀ k, (Q k).wThetas = R.wThetas)
    (hpl : ∀ k, (Q k).plasma = ⟨S, dofs, linspace0 (1 / R.cp.nfp) (m k), linspace0 1 (n k)⟩)
    (hm : Tendsto m atTop atTop) (hn : Tendsto n atTop atTop) (c : List ℝ) (hnfp : R.cp.surf.nfp ≠ 0)
    (hp : S.nfp = R.cp.surf.nfp) (j : ℕ) (hw : R.wPhis = linspace0 1 (R.cp.surf.nfp * j))
    (hoff : ∀ p' ∈ R.wPhis, ∀ t' ∈ R.wThetas, ∀ p t, R.cp.surf.gamma R.cp.wdofs p' t' ≠ S.gamma dofs p t) :
    Tendsto (fun k => (Q k).plasma.integrate ((gridPoints (Q k).plasma.phis (Q k).plasma.thetas).map ((Q k).bnWinding c))) atTop (𝓝 0) := by
  have hc := (C178_no_net_flux R c S (hp ▸ hnfp) dofs hoff).1
  have h := grid_sum_tendsto_part (f := fluxDensity R c S dofs) hc (1 / R.cp.nfp) hm hn
  have e0 : (R.cp.nfp : ℝ) = R.cp.surf.nfp := rfl
  rw [e0, C178_no_net_flux_period R c S dofs hnfp hp j hw hoff, ← e0] at h
  refine h.congr' ?_
  filter_upwards [hm.eventually_ge_atTop 2, hn.eventually_ge_atTop 2] with k h1 h2
  have eB : ∀ y, (Q k).windingB c y = R.windingB c y := by
    intro y
    have eT : ∀ y, (Q k).bTerm c y = R.bTerm c y := by
      intro y
      funext q
      simp only [FieldProblem.bTerm, hcp]
    simp only [FieldProblem.windingB, FieldProblem.computeB, eT, hwp, hwt]
  have := (Q k).plasma.integrate_map fun p t => (Q k).bnWinding c (p, t)
  simp only [Prod.mk.eta] at this
  rw [this, hpl, gridStep_linspace0 _ _ h1, gridStep_linspace0 _ _ h2]
  congr 1
  refine List.map_congr_left fun q _ => ?_
  rw [← fluxDensity_eq, FieldProblem.bnWinding, hpl, eB]

/-! ## What a net flux of the plasma field costs -/

theorem weighted_cauchy_schwarz (f w : List ℝ) (hw : ∀ x ∈ w, 0 ≤ x) :
    0 ≤ (List.zipWith (· * ·) (f.map (· ^ 2)) w).sum ∧ 0 ≤ w.sum ∧
      (List.zipWith (· * ·) f w).sum ^ 2 ≤ (List.zipWith (· * ·) (f.map (· ^ 2)) w).sum * w.sum := by
  induction w generalizing f with
  | nil => simp
  | cons a w ih =>
    have ha := hw a List.mem_cons_self
    have hw' : ∀ x ∈ w, 0 ≤ x := fun x hx => hw x (List.mem_cons_of_mem _ hx)
    cases f with
    | nil =>
      have := (ih [] hw').2.1
      simp only [List.map_nil, List.zipWith_nil_left, List.sum_nil, List.sum_cons]
      exact ⟨le_rfl, by positivity, by simp⟩
    | cons b f =>
      obtain ⟨hB, hC, h⟩ := ih f hw'
      simp only [List.map_cons, List.zipWith_cons_cons, List.sum_cons]
      generalize (List.zipWith (· * ·) f w).sum = A at h ⊢
      generalize (List.zipWith (· * ·) (f.map (· ^ 2)) w).sum = B at h hB ⊢
      generalize w.sum = C at h hC ⊢
      refine ⟨by positivity, by positivity, ?_⟩
      have key : 2 * A * b ≤ B + b ^ 2 * C := by
        rcases hC.eq_or_lt with rfl | hC
        · have : A = 0 := by
            have : A ^ 2 ≤ 0 := by simpa using h
            exact pow_eq_zero_iff (two_ne_zero) |>.1 (le_antisymm this (sq_nonneg A))
          simp [this, hB]
        · have : 0 ≤ C * (B + b ^ 2 * C - 2 * A * b) := by nlinarith [sq_nonneg (A - b * C)]
          nlinarith [nonneg_of_mul_nonneg_right this hC]
      nlinarith [mul_le_mul_of_nonneg_left key ha]

/-- On every grid `f_B` is at least the square of the net flux over twice the area. -/
theorem C178_flux_bound (Q : FieldProblem) (c : List ℝ) (hs : 0 ≤ gridStep Q.plasma.phis * gridStep Q.plasma.thetas) :
    Q.cp.nfp * Q.plasma.integrate (Q.bnormal c) ^ 2 ≤ 2 * Q.fB c * Q.plasma.area := by
  have hda : ∀ x ∈ Q.plasma.da, 0 ≤ x := by
    intro x hx
    obtain ⟨q, -, rfl⟩ := List.mem_map.1 hx
    exact mul_nonneg hs (Real.sqrt_nonneg _)
  obtain ⟨-, -, h⟩ := weighted_cauchy_schwarz (Q.bnormal c) Q.plasma.da hda
  have e : (List.zipWith (· * ·) ((Q.bnormal c).map (· ^ 2)) Q.plasma.da).sum = 2 * Q.plasma.integrate ((Q.bnormal c).map fun b => b ^ 2 / 2) := by
    rw [GridSurface.integrate]
    generalize Q.bnormal c = l
    generalize Q.plasma.da = w
    induction l generalizing w with
    | nil => simp
    | cons b l ih =>
      cases w with
      | nil => simp
      | cons a w =>
        simp only [List.map_cons, List.zipWith_cons_cons, List.sum_cons, ih]
        ring
  rw [e] at h
  rw [FieldProblem.fB, GridSurface.area]
  calc (Q.cp.nfp : ℝ) * Q.plasma.integrate (Q.bnormal c) ^ 2
      ≤ Q.cp.nfp * (2 * Q.plasma.integrate ((Q.bnormal c).map fun b => b ^ 2 / 2) * Q.plasma.da.sum) :=
        mul_le_mul_of_nonneg_left h (Nat.cast_nonneg _)
    _ = _ := by ring

theorem integrate_add (S : GridSurface) (u v : ℝ × ℝ → ℝ) :
    S.integrate ((gridPoints S.phis S.thetas).map fun q => u q + v q) =
      S.integrate ((gridPoints S.phis S.thetas).map u) + S.integrate ((gridPoints S.phis S.thetas).map v) := by
  simp only [GridSurface.integrate, GridSurface.da]
  generalize gridPoints S.phis S.thetas = l
  induction l with
  | nil => simp
  | cons q l ih =>
    simp only [List.map_cons, List.zipWith_cons_cons, List.sum_cons, ih]
    ring

/-- **C178 (what a net flux of the plasma field costs).** If the plasma field has the net flux `F` through one field period of area `A`, no
winding surface, no currents and no potential make `f_B` smaller than `nfp F^2 / (2 A)`, up to the refinement of the plasma grid. -/
theorem C178_residual (Q : ℕ → FieldProblem) (R : FieldProblem) (S : SurfaceShape) (dofs : List ℝ) (m n : ℕ → ℕ)
    (hcp : ∀ k, (Q k).cp = R.cp) (hwp : ∀ k, (Q k).wPhis = R.wPhis) (hwt : ∀ k, (Q k).wThetas = R.wThetas)
    (hpl : ∀ k, (Q k).plasma = ⟨S, dofs, linspace0 (1 / R.cp.nfp) (m k), linspace0 1 (n k)⟩) (b : ℝ → ℝ → ℝ)
    (hb : ∀ k, (Q k).bPlasma = (gridPoints (Q k).plasma.phis (Q k).plasma.thetas).map fun q => b q.1 q.2)
    (hbc : Continuous fun q : ℝ × ℝ => b q.1 q.2) (hm : Tendsto m atTop atTop) (hn : Tendsto n atTop atTop) (c : List ℝ)
    (hN : ∀ p t, S.normal dofs p t ≠ 0) (hnfp : R.cp.surf.nfp ≠ 0)
    (hp : S.nfp = R.cp.surf.nfp) (j : ℕ) (hw : R.wPhis = linspace0 1 (R.cp.surf.nfp * j))
    (hoff : ∀ p' ∈ R.wPhis, ∀ t' ∈ R.wThetas, ∀ p t, R.cp.surf.gamma R.cp.wdofs p' t' ≠ S.gamma dofs p t) :
    ∃ L, Tendsto (fun k => (Q k).fB c) atTop (𝓝 L) ∧
      R.cp.nfp * (∫ p in (0 : ℝ)..(1 / R.cp.nfp), ∫ t in (0 : ℝ)..1, b p t * (S.normal dofs p t).norm) ^ 2 ≤
        2 * L * ∫ p in (0 : ℝ)..(1 / R.cp.nfp), ∫ t in (0 : ℝ)..1, (S.normal dofs p t).norm := by
  refine ⟨_, C110_f_B_limit Q R S dofs m n hcp hwp hwt hpl b hb hbc hm hn c hN hoff, ?_⟩
  have hfB := C110_f_B_limit Q R S dofs m n hcp hwp hwt hpl b hb hbc hm hn c hN hoff
  have hbn := C178_grid Q R S dofs m n hcp hwp hwt hpl hm hn c hnfp hp j hw hoff
  have hbp := C110_integrate_limit S dofs b hbc (1 / R.cp.nfp) m n hm hn
  have har := C110_integrate_limit S dofs (fun _ _ => 1) continuous_const (1 / R.cp.nfp) m n hm hn
  simp only [one_mul] at har
  have hsum := hbn.add hbp
  rw [zero_add] at hsum
  refine le_of_tendsto_of_tendsto ((hsum.pow 2).const_mul (R.cp.nfp : ℝ)) ((hfB.const_mul 2).mul har) ?_
  filter_upwards [hm.eventually_ge_atTop 2, hn.eventually_ge_atTop 2] with k h1 h2
  have h := C178_flux_bound (Q k) c (by
    rw [hpl, gridStep_linspace0 _ _ h1, gridStep_linspace0 _ _ h2]
    positivity)
  have ez : ∀ l : List (ℝ × ℝ), l.zip (l.map fun q => b q.1 q.2) = l.map fun q => (q, b q.1 q.2) := by
    intro l
    induction l with
    | nil => rfl
    | cons a l ih => simp [ih]
  have e1 : (Q k).plasma.integrate ((Q k).bnormal c) =
      (Q k).plasma.integrate ((gridPoints (Q k).plasma.phis (Q k).plasma.thetas).map ((Q k).bnWinding c)) +
        (Q k).plasma.integrate ((gridPoints (Q k).plasma.phis (Q k).plasma.thetas).map fun q => b q.1 q.2) := by
    rw [← integrate_add, FieldProblem.bnormal, hb, ez, List.map_map]
    rfl
  have e2 : (Q k).plasma.area = (Q k).plasma.integrate ((gridPoints (Q k).plasma.phis (Q k).plasma.thetas).map fun _ => 1) := by
    rw [GridSurface.area, GridSurface.integrate, GridSurface.da, List.zipWith_map, List.zipWith_self]
    simp
  rw [e1, e2, hcp, hpl] at h
  simp only [hpl]
  exact h

/-- A torus inside the circular one, with the plasma field `cos theta`: the limit of `f_B` is positive, whatever the potential. -/
example (c : List ℝ) : ∃ L, 0 < L ∧ Tendsto (fun k => (innerPlasma k).fB c) atTop (𝓝 L) := by
  obtain ⟨L, hL, h⟩ := C178_residual innerPlasma torusProblem circularTorus.surf [2, 1 / 2, 1 / 2] (fun k => k) (fun k => k) (fun _ => rfl)
    (fun _ => rfl) (fun _ => rfl) (fun _ => rfl) (fun _ t => Real.cos t) (fun _ => rfl) (by fun_prop) tendsto_id tendsto_id c
    (fun p t => torus_normal 2 (1 / 2) p t (by norm_num) (by norm_num)) (by simp [torusProblem, circularTorus]) rfl 2
    (by simp [torusProblem, circularTorus])
    fun p' _ t' _ p t => torus_disjoint 2 1 (1 / 2) p' t' p t (by norm_num) (by norm_num) (by norm_num) (by norm_num) (by norm_num)
  refine ⟨L, ?_, hL⟩
  have hnf : (torusProblem.cp.nfp : ℝ) = 1 := by simp [torusProblem, circularTorus, CpParams.nfp]
  rw [hnf, div_one] at h
  have cN := normal_norm_continuous circularTorus.surf [2, 1 / 2, 1 / 2]
  have hN : ∀ p t, 0 < (circularTorus.surf.normal [2, 1 / 2, 1 / 2] p t).norm := fun p t =>
    (V3.norm_pos_iff _).2 (torus_normal 2 (1 / 2) p t (by norm_num) (by norm_num))
  have cF : Continuous fun q : ℝ × ℝ => Real.cos q.2 * (circularTorus.surf.normal [2, 1 / 2, 1 / 2] q.1 q.2).norm :=
    (Real.continuous_cos.comp continuous_snd).mul cN
  have hF : 0 < ∫ p in (0 : ℝ)..1, ∫ t in (0 : ℝ)..1, Real.cos t * (circularTorus.surf.normal [2, 1 / 2, 1 / 2] p t).norm := by
    refine intervalIntegral.intervalIntegral_pos_of_pos_on ((intervalIntegral.continuous_parametric_intervalIntegral_of_continuous'
      (by exact cF) 0 1).intervalIntegrable _ _) (fun p _ => ?_) one_pos
    refine intervalIntegral.intervalIntegral_pos_of_pos_on
      ((cF.comp (by fun_prop : Continuous fun t : ℝ => (p, t))).intervalIntegrable _ _) (fun t ht => ?_) one_pos
    exact mul_pos (Real.cos_pos_of_mem_Ioo ⟨by linarith [ht.1, Real.pi_pos], by linarith [ht.2, Real.one_le_pi_div_two]⟩) (hN p t)
  have hA : 0 ≤ ∫ p in (0 : ℝ)..1, ∫ t in (0 : ℝ)..1, (circularTorus.surf.normal [2, 1 / 2, 1 / 2] p t).norm :=
    intervalIntegral.integral_nonneg zero_le_one fun p _ => intervalIntegral.integral_nonneg zero_le_one fun t _ => (hN p t).le
  by_contra hcon
  push Not at hcon
  nlinarith [sq_nonneg (∫ p in (0 : ℝ)..1, ∫ t in (0 : ℝ)..1, Real.cos t * (circularTorus.surf.normal [2, 1 / 2, 1 / 2] p t).norm),
    mul_nonneg (neg_nonneg.2 hcon) hA, pow_pos hF 2]

end Verif
