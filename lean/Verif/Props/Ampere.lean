import Verif.Lemmas.Linking

/-!
# C180: the law of Ampère
-/

namespace Verif

open CpParams Filter Topology MeasureTheory

/-- The winding surface, swept by its poloidal curves. -/
theorem poloidal_sheet (P : CpParams) : Sheet (P.surf.gammadash P.wdofs 0 0) (P.surf.gammadash P.wdofs 1 0) (P.surf.gammadash P.wdofs 0 1)
    (P.surf.gammadash P.wdofs 1 1) where
  cX := P.gammadash_C1 0 0
  cA := P.gammadash_C1 1 0
  cB := P.gammadash_C1 0 1
  dA := C38_gammadash_phi P.surf P.wdofs 0 0
  dB := C38_gammadash_theta P.surf P.wdofs 0 0
  mA := C38_gammadash_phi P.surf P.wdofs 0 1
  mB := C38_gammadash_theta P.surf P.wdofs 1 0
  pX p := by simpa using gammadash_theta_one P.surf P.wdofs 0 0 p 0
  pA p := by simpa using gammadash_theta_one P.surf P.wdofs 1 0 p 0

theorem C1.swap {f : ℝ → ℝ → V3} (h : C1 f) : C1 (fun t p => f p t) :=
  ⟨h.1.comp (contDiff_snd.prodMk contDiff_fst), h.2.1.comp (contDiff_snd.prodMk contDiff_fst),
    h.2.2.comp (contDiff_snd.prodMk contDiff_fst)⟩

/-- The winding surface, swept by its toroidal curves. -/
theorem toroidal_sheet (P : CpParams) (hn : P.surf.nfp ≠ 0) : Sheet (fun t p => P.surf.gammadash P.wdofs 0 0 p t)
    (fun t p => P.surf.gammadash P.wdofs 0 1 p t) (fun t p => P.surf.gammadash P.wdofs 1 0 p t)
    (fun t p => P.surf.gammadash P.wdofs 1 1 p t) where
  cX := (P.gammadash_C1 0 0).swap
  cA := (P.gammadash_C1 0 1).swap
  cB := (P.gammadash_C1 1 0).swap
  dA t p := C38_gammadash_theta P.surf P.wdofs 0 0 p t
  dB t p := C38_gammadash_phi P.surf P.wdofs 0 0 p t
  mA t p := C38_gammadash_theta P.surf P.wdofs 1 0 p t
  mB t p := C38_gammadash_phi P.surf P.wdofs 0 1 p t
  pX t := by simpa using gammadash_phi_one P.surf hn P.wdofs 0 0 0 t
  pA t := by simpa using gammadash_phi_one P.surf hn P.wdofs 0 1 0 t

namespace CpParams

variable (P : CpParams)

theorem Phi_C1 (c : List ℝ) : ContDiff ℝ 1 (fun x : ℝ × ℝ => P.Phi c x.1 x.2) := by
  simp only [Phi, trig_eq]
  refine applyRow_contDiff P.rows (fun r x => P.rT x.1 x.2 r) (fun r _ => ?_) c
  have h := sinOrCos_contDiff r.2.2
  simp only [rT, angle]
  fun_prop

theorem Phi_one (c : List ℝ) (p t : ℝ) : P.Phi c (p + 1) t = P.Phi c p t ∧ P.Phi c p (t + 1) = P.Phi c p t := by
  have h1 : ∀ r : ℤ × ℤ × ℤ, P.angle p (t + 1) r = P.angle p t r + ((r.1 : ℤ) : ℝ) * (2 * Real.pi) := by
    intro r
    simp only [angle]
    ring
  have h2 : ∀ r : ℤ × ℤ × ℤ, P.angle (p + 1) t r = P.angle p t r + ((-(r.2.1 * P.nfp) : ℤ) : ℝ) * (2 * Real.pi) := by
    intro r
    simp only [angle]
    push_cast
    ring
  simp only [Phi, trig_eq]
  exact ⟨congrArg (app · c) (List.map_congr_left fun r _ => by simp only [rT, h2, sinOrCos_periodic]),
    congrArg (app · c) (List.map_congr_left fun r _ => by simp only [rT, h1, sinOrCos_periodic])⟩

/-- The work of the poloidal and the toroidal tangent in the field of the loop, and the flux of its curl. -/
noncomputable def workU (y e : ℝ → V3) (p t s : ℝ) : ℝ := work (P.surf.gammadash P.wdofs 0 0) (P.surf.gammadash P.wdofs 0 1) y e p t s

noncomputable def workV (y e : ℝ → V3) (p t s : ℝ) : ℝ := work (P.surf.gammadash P.wdofs 0 0) (P.surf.gammadash P.wdofs 1 0) y e p t s

noncomputable def workE (y e : ℝ → V3) (p t s : ℝ) : ℝ :=
  curlFlux (P.surf.gammadash P.wdofs 0 0) (P.surf.gammadash P.wdofs 1 0) (P.surf.gammadash P.wdofs 0 1) y e p t s

/-- The circulation of the field of one current element is the work of this element in the field of the loop. -/
theorem element_circulation (c : List ℝ) (y e : ℝ → V3) (p t s : ℝ) (hN : P.N p t ≠ 0) :
    V3.dot ((P.N p t).norm • biotSavart (y s) (P.surf.gamma P.wdofs p t) (P.K c p t)) (e s) =
      (app (P.opPhi p t) c + P.G) * P.workU y e p t s - (app (P.opTheta p t) c + P.I) * P.workV y e p t s := by
  have hn := ((V3.norm_pos_iff _).2 hN).ne'
  rw [K_eq, biotSavart, workU, workV, work, work, biotSavart, invN, dg1, dg2, V3.norm_sub_comm (y s)]
  simp only [SurfaceShape.gamma]
  generalize (P.N p t).norm = n at hn
  generalize 1e-7 / (P.surf.gammadash P.wdofs 0 0 p t - y s).norm ^ 3 = k
  simp only [V3.dot, V3.cross, V3.smul_x, V3.smul_y, V3.smul_z, V3.sub_x, V3.sub_y, V3.sub_z]
  field_simp
  ring

/-- The integral of these works over the loop and the surface: only the net currents remain. -/
theorem ampere_integral (hnfp : P.surf.nfp ≠ 0) (c : List ℝ) {y e : ℝ → V3} (hy : IsLoop y e)
    (hoff : ∀ p t s, y s ≠ P.surf.gammadash P.wdofs 0 0 p t) :
    ∫ p in (0 : ℝ)..1, ∫ t in (0 : ℝ)..1, ∫ s in (0 : ℝ)..1,
      ((app (P.opPhi p t) c + P.G) * P.workU y e p t s - (app (P.opTheta p t) c + P.I) * P.workV y e p t s) =
    4 * Real.pi * 1e-7 * (P.G * linking y e (fun t => P.surf.gammadash P.wdofs 0 0 0 t) (fun t => P.surf.gammadash P.wdofs 0 1 0 t) -
      P.I * linking y e (fun p => P.surf.gammadash P.wdofs 0 0 p 0) (fun p => P.surf.gammadash P.wdofs 1 0 p 0)) := by
  have cU : Continuous fun z : ℝ × ℝ × ℝ => P.workU y e z.1 z.2.1 z.2.2 := work_cont (P.gammadash_C1 0 0) (P.gammadash_C1 0 1) hy hoff
  have cV : Continuous fun z : ℝ × ℝ × ℝ => P.workV y e z.1 z.2.1 z.2.2 := work_cont (P.gammadash_C1 0 0) (P.gammadash_C1 1 0) hy hoff
  have cE : Continuous fun z : ℝ × ℝ × ℝ => P.workE y e z.1 z.2.1 z.2.2 :=
    curlFlux_cont (P.gammadash_C1 0 0) (P.gammadash_C1 1 0) (P.gammadash_C1 0 1) hy hoff
  have iE : ∀ p t, ∫ s in (0 : ℝ)..1, P.workE y e p t s = 0 :=
    curlFlux_integral (P.gammadash_C1 0 0) (P.gammadash_C1 1 0) (P.gammadash_C1 0 1) hy hoff
  -- the works of a deformed curve
  have iU : ∀ p, ∫ s in (0 : ℝ)..1, ∫ t in (0 : ℝ)..1, P.workU y e p t s = 4 * Real.pi * 1e-7 *
      linking y e (fun t => P.surf.gammadash P.wdofs 0 0 0 t) (fun t => P.surf.gammadash P.wdofs 0 1 0 t) := by
    intro p
    exact (work_homotopy (poloidal_sheet P) hy hoff 0 p).trans (work_linking _ _ y e 0)
  have iV : ∀ t, ∫ s in (0 : ℝ)..1, ∫ p in (0 : ℝ)..1, P.workV y e p t s = 4 * Real.pi * 1e-7 *
      linking y e (fun p => P.surf.gammadash P.wdofs 0 0 p 0) (fun p => P.surf.gammadash P.wdofs 1 0 p 0) := by
    intro t
    exact (work_homotopy (toroidal_sheet P hnfp) hy (fun t p s => hoff p t s) 0 t).trans (work_linking _ _ y e 0)
  -- the single-valued potential
  have iD : ∀ s, ∫ p in (0 : ℝ)..1, ∫ t in (0 : ℝ)..1, (app (P.opPhi p t) c * P.workU y e p t s - app (P.opTheta p t) c * P.workV y e p t s +
      P.Phi c p t * P.workE y e p t s) = 0 := by
    intro s
    have h := integral_divergence_periodic (fun q => P.Phi c q.1 q.2 * P.workU y e q.1 q.2 s)
      (fun q => -(P.Phi c q.1 q.2 * P.workV y e q.1 q.2 s))
      ((P.Phi_C1 c).mul (work_C1 (P.gammadash_C1 0 0) (P.gammadash_C1 0 1) hoff s))
      ((P.Phi_C1 c).mul (work_C1 (P.gammadash_C1 0 0) (P.gammadash_C1 1 0) hoff s)).neg ?_ ?_
      (fun q => app (P.opPhi q.1 q.2) c * P.workU y e q.1 q.2 s - app (P.opTheta q.1 q.2) c * P.workV y e q.1 q.2 s +
        P.Phi c q.1 q.2 * P.workE y e q.1 q.2 s) ?_
    · exact h.2
    · intro t
      have g := fun a b => gammadash_phi_one P.surf hnfp P.wdofs a b 0 t
      have o := (P.Phi_one c 0 t).1
      rw [zero_add] at o
      simp only [zero_add] at g
      simp only [workU, work, g, o]
    · intro p
      have g := fun a b => gammadash_theta_one P.surf P.wdofs a b p 0
      have o := (P.Phi_one c p 0).2
      rw [zero_add] at o
      simp only [zero_add] at g
      simp only [workV, work, g, o]
    · intro p t
      obtain ⟨a, b, ha, hb, hab⟩ := stokes (e := e) (poloidal_sheet P) s p t (hoff p t s)
      have hE : P.workE y e p t s = a - b := hab
      refine ⟨_, _, (P.Phi_phi c p t).mul ha, ((P.Phi_theta c p t).mul hb).neg, ?_⟩
      simp only [hE, workU, workV]
      ring
  rw [net_only (fun p t => app (P.opPhi p t) c) (fun p t => app (P.opTheta p t) c) (fun p t => P.Phi c p t) (P.workU y e) (P.workV y e)
    (P.workE y e) (P.appPhi_contDiff c).continuous (P.appTheta_contDiff c).continuous (P.Phi_C1 c).continuous cU cV cE P.G P.I _ _ iE iU iV iD]
  ring

end CpParams

theorem cont_assoc {h : ℝ → ℝ → ℝ → ℝ} (hc : Continuous fun z : ℝ × ℝ × ℝ => h z.1 z.2.1 z.2.2) :
    Continuous fun z : (ℝ × ℝ) × ℝ => h z.1.1 z.1.2 z.2 :=
  hc.comp (by fun_prop : Continuous fun z : (ℝ × ℝ) × ℝ => (z.1.1, z.1.2, z.2))

theorem cont_last {h : ℝ → ℝ → ℝ → ℝ} (hc : Continuous fun z : ℝ × ℝ × ℝ => h z.1 z.2.1 z.2.2) (p t : ℝ) : Continuous (h p t) :=
  hc.comp (by fun_prop : Continuous fun s : ℝ => (p, t, s))

/-- The circulation of a sum of fields. -/
theorem list_circulation (l : List (ℝ × ℝ)) (r : ℝ × ℝ → ℝ) (B : ℝ × ℝ → V3 → V3) (y e : ℝ → V3)
    (h : ∀ q ∈ l, Continuous fun s => V3.dot (B q (y s)) (e s)) :
    Continuous (fun s => V3.dot (vsum (l.map fun q => r q • B q (y s))) (e s)) ∧
      circulation (fun x => vsum (l.map fun q => r q • B q x)) y e = (l.map fun q => r q * circulation (B q) y e).sum := by
  induction l with
  | nil => simp [circulation, vsum, V3.dot, continuous_const]
  | cons q l ih =>
    obtain ⟨hc, hi⟩ := ih fun q hq => h q (List.mem_cons_of_mem _ hq)
    have hq := h q List.mem_cons_self
    have ex : ∀ s, V3.dot (vsum ((q :: l).map fun q => r q • B q (y s))) (e s) =
        r q * V3.dot (B q (y s)) (e s) + V3.dot (vsum (l.map fun q => r q • B q (y s))) (e s) := by
      intro s
      simp only [vsum, List.map_cons, List.sum_cons, V3.dot, V3.smul_x, V3.smul_y, V3.smul_z]
      ring
    refine ⟨by simp only [ex]; exact (continuous_const.mul hq).add hc, ?_⟩
    rw [List.map_cons, List.sum_cons, ← hi]
    simp only [circulation, ex]
    have hr : Continuous fun s => r q * V3.dot (B q (y s)) (e s) := continuous_const.mul hq
    rw [intervalIntegral.integral_add (hr.intervalIntegrable _ _) (hc.intervalIntegrable _ _), intervalIntegral.integral_const_mul]

/-- **C180.** Along every closed curve off the winding surface, the circulation of the computed field tends to `mu0` times the net current
through the curve as the winding grid is refined: the net poloidal current, as often as the curve is linked with a poloidal turn, less the
net toroidal current, as often as it is linked with a toroidal turn. The single-valued potential contributes nothing. -/
theorem C180_ampere (Q : ℕ → FieldProblem) (P : CpParams) (m n : ℕ → ℕ) (hQ : ∀ k, (Q k).cp = P)
    (hp : ∀ k, (Q k).wPhis = linspace0 1 (m k)) (ht : ∀ k, (Q k).wThetas = linspace0 1 (n k)) (hm : Tendsto m atTop atTop)
    (hn : Tendsto n atTop atTop) (hnfp : P.surf.nfp ≠ 0) (c : List ℝ) (y e : ℝ → V3) (hy : IsLoop y e) (h : ∀ p t, P.N p t ≠ 0)
    (hoff : ∀ p t s, y s ≠ P.surf.gamma P.wdofs p t) :
    Tendsto (fun k => circulation ((Q k).windingB c) y e) atTop (𝓝 (4 * Real.pi * 1e-7 *
      (P.G * linking y e (fun t => P.surf.gamma P.wdofs 0 t) (fun t => P.surf.gammadash P.wdofs 0 1 0 t) -
        P.I * linking y e (fun p => P.surf.gamma P.wdofs p 0) (fun p => P.surf.gammadash P.wdofs 1 0 p 0)))) := by
  have cU : Continuous fun z : ℝ × ℝ × ℝ => P.workU y e z.1 z.2.1 z.2.2 := work_cont (P.gammadash_C1 0 0) (P.gammadash_C1 0 1) hy hoff
  have cV : Continuous fun z : ℝ × ℝ × ℝ => P.workV y e z.1 z.2.1 z.2.2 := work_cont (P.gammadash_C1 0 0) (P.gammadash_C1 1 0) hy hoff
  have cP : Continuous fun z : (ℝ × ℝ) × ℝ => app (P.opPhi z.1.1 z.1.2) c := (P.appPhi_contDiff c).continuous.comp continuous_fst
  have cT : Continuous fun z : (ℝ × ℝ) × ℝ => app (P.opTheta z.1.1 z.1.2) c := (P.appTheta_contDiff c).continuous.comp continuous_fst
  have cU' : Continuous fun z : (ℝ × ℝ) × ℝ => P.workU y e z.1.1 z.1.2 z.2 := cont_assoc cU
  have cV' : Continuous fun z : (ℝ × ℝ) × ℝ => P.workV y e z.1.1 z.1.2 z.2 := cont_assoc cV
  have cW : Continuous fun z : (ℝ × ℝ) × ℝ => (app (P.opPhi z.1.1 z.1.2) c + P.G) * P.workU y e z.1.1 z.1.2 z.2 -
      (app (P.opTheta z.1.1 z.1.2) c + P.I) * P.workV y e z.1.1 z.1.2 z.2 := by fun_prop
  have hlim := grid_sum_tendsto (f := fun p t => ∫ s in (0 : ℝ)..1, ((app (P.opPhi p t) c + P.G) * P.workU y e p t s -
    (app (P.opTheta p t) c + P.I) * P.workV y e p t s)) (integral_cont (fun (q : ℝ × ℝ) s => (app (P.opPhi q.1 q.2) c + P.G) *
      P.workU y e q.1 q.2 s - (app (P.opTheta q.1 q.2) c + P.I) * P.workV y e q.1 q.2 s) cW) hm hn
  rw [P.ampere_integral hnfp c hy hoff] at hlim
  refine hlim.congr fun k => ?_
  have eB : (Q k).windingB c = fun x => vsum ((gridPoints (linspace0 1 (m k)) (linspace0 1 (n k))).map fun q =>
      (1 / (m k : ℝ) * (1 / n k)) • ((P.N q.1 q.2).norm • biotSavart x (P.surf.gamma P.wdofs q.1 q.2) (P.K c q.1 q.2))) := by
    funext x
    rw [C109_biot_savart_sum, hQ, hp, ht, linspace0_length, linspace0_length]
    congr 1
    refine List.map_congr_left fun q _ => ?_
    ext <;> simp only [V3.smul_x, V3.smul_y, V3.smul_z] <;> ring
  rw [eB, (list_circulation _ (fun _ => 1 / (m k : ℝ) * (1 / n k))
    (fun q x => (P.N q.1 q.2).norm • biotSavart x (P.surf.gamma P.wdofs q.1 q.2) (P.K c q.1 q.2)) y e fun q _ => ?_).2]
  · congr 1
    refine List.map_congr_left fun q _ => ?_
    simp only [circulation, P.element_circulation c y e q.1 q.2 _ (h q.1 q.2)]
    ring
  · simp only [P.element_circulation c y e q.1 q.2 _ (h q.1 q.2)]
    exact (continuous_const.mul (cont_last cU q.1 q.2)).sub (continuous_const.mul (cont_last cV q.1 q.2))

/-- **C180 (no net current).** Without net currents the circulation tends to 0 along every closed curve, linked with the winding surface or
not, whatever the potential. -/
theorem C180_no_net_current (Q : ℕ → FieldProblem) (P : CpParams) (m n : ℕ → ℕ) (hQ : ∀ k, (Q k).cp = P)
    (hp : ∀ k, (Q k).wPhis = linspace0 1 (m k)) (ht : ∀ k, (Q k).wThetas = linspace0 1 (n k)) (hm : Tendsto m atTop atTop)
    (hn : Tendsto n atTop atTop) (hnfp : P.surf.nfp ≠ 0) (c : List ℝ) (y e : ℝ → V3) (hy : IsLoop y e) (h : ∀ p t, P.N p t ≠ 0)
    (hoff : ∀ p t s, y s ≠ P.surf.gamma P.wdofs p t) (hG : P.G = 0) (hI : P.I = 0) :
    Tendsto (fun k => circulation ((Q k).windingB c) y e) atTop (𝓝 0) := by
  have := C180_ampere Q P m n hQ hp ht hm hn hnfp c y e hy h hoff
  simpa [hG, hI] using this

/-- **C180 (every turn).** It does not matter which poloidal or toroidal turn of the winding surface is taken. -/
theorem C180_every_turn (P : CpParams) (hnfp : P.surf.nfp ≠ 0) (y e : ℝ → V3) (hy : IsLoop y e)
    (hoff : ∀ p t s, y s ≠ P.surf.gamma P.wdofs p t) (p₀ t₀ : ℝ) :
    linking y e (fun t => P.surf.gamma P.wdofs p₀ t) (fun t => P.surf.gammadash P.wdofs 0 1 p₀ t) =
        linking y e (fun t => P.surf.gamma P.wdofs 0 t) (fun t => P.surf.gammadash P.wdofs 0 1 0 t) ∧
      linking y e (fun p => P.surf.gamma P.wdofs p t₀) (fun p => P.surf.gammadash P.wdofs 1 0 p t₀) =
        linking y e (fun p => P.surf.gamma P.wdofs p 0) (fun p => P.surf.gammadash P.wdofs 1 0 p 0) := by
  have h0 : (4 * Real.pi * 1e-7 : ℝ) ≠ 0 := by positivity
  have h1 := work_homotopy (poloidal_sheet P) hy hoff 0 p₀
  have h2 := work_homotopy (toroidal_sheet P hnfp) hy (fun t p s => hoff p t s) 0 t₀
  rw [work_linking, work_linking] at h1 h2
  exact ⟨mul_left_cancel₀ h0 h1, mul_left_cancel₀ h0 h2⟩

/-- The toroidal turns of a surface are closed curves. -/
theorem toroidal_loop (S : SurfaceShape) (hn : S.nfp ≠ 0) (dofs : List ℝ) (t : ℝ) :
    IsLoop (fun p => S.gamma dofs p t) (fun p => S.gammadash dofs 1 0 p t) where
  deriv p := C38_gammadash_phi S dofs 0 0 p t
  cont := ⟨continuous_iff_continuousAt.2 fun p => (C38_gammadash_phi S dofs 1 0 p t).1.continuousAt,
    continuous_iff_continuousAt.2 fun p => (C38_gammadash_phi S dofs 1 0 p t).2.1.continuousAt,
    continuous_iff_continuousAt.2 fun p => (C38_gammadash_phi S dofs 1 0 p t).2.2.continuousAt⟩
  closed := by simpa [SurfaceShape.gamma] using gammadash_phi_one S hn dofs 0 0 0 t

theorem poloidal_loop (S : SurfaceShape) (dofs : List ℝ) (p : ℝ) :
    IsLoop (fun t => S.gamma dofs p t) (fun t => S.gammadash dofs 0 1 p t) where
  deriv t := C38_gammadash_theta S dofs 0 0 p t
  cont := ⟨continuous_iff_continuousAt.2 fun t => (C38_gammadash_theta S dofs 0 1 p t).1.continuousAt,
    continuous_iff_continuousAt.2 fun t => (C38_gammadash_theta S dofs 0 1 p t).2.1.continuousAt,
    continuous_iff_continuousAt.2 fun t => (C38_gammadash_theta S dofs 0 1 p t).2.2.continuousAt⟩
  closed := by simpa [SurfaceShape.gamma] using gammadash_theta_one S dofs 0 0 p 0

/-- A toroidal turn of a torus inside the circular one. -/
example (c : List ℝ) (t : ℝ) (y e : ℝ → V3) (hy : y = fun p => circularTorus.surf.gamma [2, 1 / 2, 1 / 2] p t)
    (he : e = fun p => circularTorus.surf.gammadash [2, 1 / 2, 1 / 2] 1 0 p t) :
    Tendsto (fun k => circulation (({ torusProblem with wPhis := linspace0 1 (2 * k), wThetas := linspace0 1 (3 * k) } :
      FieldProblem).windingB c) y e) atTop (𝓝 (4 * Real.pi * 1e-7 *
      (5 * linking y e (fun t => circularTorus.surf.gamma [2, 1, 1] 0 t) (fun t => circularTorus.surf.gammadash [2, 1, 1] 0 1 0 t) -
        7 * linking y e (fun p => circularTorus.surf.gamma [2, 1, 1] p 0) (fun p => circularTorus.surf.gammadash [2, 1, 1] 1 0 p 0)))) := by
  subst hy he
  exact C180_ampere (fun k => { torusProblem with wPhis := linspace0 1 (2 * k), wThetas := linspace0 1 (3 * k) }) circularTorus
    (fun k => 2 * k) (fun k => 3 * k) (fun _ => rfl) (fun _ => rfl) (fun _ => rfl)
    (tendsto_id.const_mul_atTop' (by decide)) (tendsto_id.const_mul_atTop' (by decide)) (by simp [circularTorus]) c _ _
    (toroidal_loop _ (by simp [circularTorus]) _ t) (fun p t => (circularTorus_regular p t).1)
    fun p t' s => (torus_disjoint 2 1 (1 / 2) p t' s t (by norm_num) (by norm_num) (by norm_num) (by norm_num) (by norm_num)).symm

end Verif
