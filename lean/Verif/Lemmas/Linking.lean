import Verif.Props.VacuumField
import Verif.Spec.Linking
import Mathlib.MeasureTheory.Integral.IntervalIntegral.FundThmCalculus

/-! # Integrals over three variables, and the linking integral under a deformation of one curve -/

namespace Verif

open CpParams Filter Topology MeasureTheory

/-! ## The order of integration -/

theorem integral2_swap (h : ℝ × ℝ → ℝ) (hc : Continuous h) (a b : ℝ) :
    ∫ p in a..b, ∫ t in (0 : ℝ)..1, h (p, t) = ∫ t in (0 : ℝ)..1, ∫ p in a..b, h (p, t) := by
  refine intervalIntegral_intervalIntegral_swap (F := fun p t => h (p, t)) ?_
  have : IntegrableOn h (Set.uIcc a b ×ˢ Set.uIcc (0 : ℝ) 1) := hc.continuousOn.integrableOn_compact (isCompact_uIcc.prod isCompact_uIcc)
  exact this.mono_set (Set.prod_mono Set.uIoc_subset_uIcc Set.uIoc_subset_uIcc)

theorem integral_cont {X : Type} [TopologicalSpace X] (h : X → ℝ → ℝ) (hc : Continuous fun z : X × ℝ => h z.1 z.2) :
    Continuous fun q => ∫ s in (0 : ℝ)..1, h q s :=
  intervalIntegral.continuous_parametric_intervalIntegral_of_continuous' (by exact hc) 0 1

theorem integral3_inner (h : ℝ × ℝ × ℝ → ℝ) (hc : Continuous h) (a b : ℝ) :
    ∫ p in a..b, ∫ t in (0 : ℝ)..1, ∫ s in (0 : ℝ)..1, h (p, t, s) = ∫ p in a..b, ∫ s in (0 : ℝ)..1, ∫ t in (0 : ℝ)..1, h (p, t, s) :=
  intervalIntegral.integral_congr fun p _ => integral2_swap (fun q => h (p, q.1, q.2)) (by fun_prop) 0 1

theorem integral3_rot (h : ℝ × ℝ × ℝ → ℝ) (hc : Continuous h) (a b : ℝ) :
    ∫ p in a..b, ∫ t in (0 : ℝ)..1, ∫ s in (0 : ℝ)..1, h (p, t, s) = ∫ s in (0 : ℝ)..1, ∫ p in a..b, ∫ t in (0 : ℝ)..1, h (p, t, s) := by
  rw [integral3_inner h hc]
  exact integral2_swap (fun q => ∫ t in (0 : ℝ)..1, h (q.1, t, q.2))
    (integral_cont (fun (q : ℝ × ℝ) t => h (q.1, t, q.2)) (by fun_prop)) a b

theorem integral2_lin (d u v : ℝ × ℝ → ℝ) (hd : Continuous d) (hu : Continuous u) (hv : Continuous v) (g i : ℝ) :
    ∫ p in (0 : ℝ)..1, ∫ t in (0 : ℝ)..1, (d (p, t) + g * u (p, t) - i * v (p, t)) =
      (∫ p in (0 : ℝ)..1, ∫ t in (0 : ℝ)..1, d (p, t)) + g * (∫ p in (0 : ℝ)..1, ∫ t in (0 : ℝ)..1, u (p, t)) -
        i * ∫ p in (0 : ℝ)..1, ∫ t in (0 : ℝ)..1, v (p, t) := by
  have inner : ∀ p, ∫ t in (0 : ℝ)..1, (d (p, t) + g * u (p, t) - i * v (p, t)) =
      (∫ t in (0 : ℝ)..1, d (p, t)) + g * (∫ t in (0 : ℝ)..1, u (p, t)) - i * ∫ t in (0 : ℝ)..1, v (p, t) := by
    intro p
    rw [intervalIntegral.integral_sub ((by fun_prop : Continuous _).intervalIntegrable _ _)
      ((by fun_prop : Continuous _).intervalIntegrable _ _),
      intervalIntegral.integral_add ((by fun_prop : Continuous _).intervalIntegrable _ _)
      ((by fun_prop : Continuous _).intervalIntegrable _ _), intervalIntegral.integral_const_mul, intervalIntegral.integral_const_mul]
  simp only [inner]
  have kd : Continuous fun p => ∫ t in (0 : ℝ)..1, d (p, t) := integral_cont (fun p t => d (p, t)) (by fun_prop)
  have ku : Continuous fun p => ∫ t in (0 : ℝ)..1, u (p, t) := integral_cont (fun p t => u (p, t)) (by fun_prop)
  have kv : Continuous fun p => ∫ t in (0 : ℝ)..1, v (p, t) := integral_cont (fun p t => v (p, t)) (by fun_prop)
  rw [intervalIntegral.integral_sub ((by fun_prop : Continuous _).intervalIntegrable _ _)
      ((by fun_prop : Continuous _).intervalIntegrable _ _),
      intervalIntegral.integral_add ((by fun_prop : Continuous _).intervalIntegrable _ _)
      ((by fun_prop : Continuous _).intervalIntegrable _ _), intervalIntegral.integral_const_mul, intervalIntegral.integral_const_mul]

/-- The integral of a divergence over a strip. -/
theorem integral_divergence_strip (F G : ℝ × ℝ → ℝ) (hF : ContDiff ℝ 1 F) (hG : ContDiff ℝ 1 G) (pG : ∀ p, G (p, 1) = G (p, 0))
    (D : ℝ × ℝ → ℝ)
    (hD : ∀ p t, ∃ a b, HasDerivAt (fun s => F (s, t)) a p ∧ HasDerivAt (fun s => G (p, s)) b t ∧ D (p, t) = a + b) (p₀ p₁ : ℝ) :
    ∫ p in p₀..p₁, ∫ t in (0 : ℝ)..1, D (p, t) = (∫ t in (0 : ℝ)..1, F (p₁, t)) - ∫ t in (0 : ℝ)..1, F (p₀, t) := by
  have dF : ∀ x, HasFDerivAt F (fderiv ℝ F x) x := fun x => (hF.differentiable (by norm_num) x).hasFDerivAt
  have dG : ∀ x, HasFDerivAt G (fderiv ℝ G x) x := fun x => (hG.differentiable (by norm_num) x).hasFDerivAt
  have hDe : D = fun x => fderiv ℝ F x (1, 0) + fderiv ℝ G x (0, 1) := by
    funext ⟨p, t⟩
    obtain ⟨a, b, ha, hb, h⟩ := hD p t
    have h1 : HasDerivAt (fun s => F (s, t)) (fderiv ℝ F (p, t) (1, 0)) p :=
      HasFDerivAt.comp_hasDerivAt p (f := fun s => (s, t)) (dF (p, t)) ((hasDerivAt_id p).prodMk (hasDerivAt_const _ _))
    have h2 : HasDerivAt (fun s => G (p, s)) (fderiv ℝ G (p, t) (0, 1)) t :=
      HasFDerivAt.comp_hasDerivAt t (f := fun s => (p, s)) (dG (p, t)) ((hasDerivAt_const _ _).prodMk (hasDerivAt_id t))
    rw [h, ha.unique h1, hb.unique h2]
  have hc : Continuous D := by
    rw [hDe]
    exact ((hF.continuous_fderiv (by norm_num)).clm_apply continuous_const).add
      ((hG.continuous_fderiv (by norm_num)).clm_apply continuous_const)
  have hi : IntegrableOn (fun x => fderiv ℝ F x (1, 0) + fderiv ℝ G x (0, 1)) (Set.uIcc p₀ p₁ ×ˢ Set.uIcc (0 : ℝ) 1) := by
    rw [← hDe]
    exact hc.continuousOn.integrableOn_compact (isCompact_uIcc.prod isCompact_uIcc)
  have := integral2_divergence_prod_of_hasFDerivAt F G (fderiv ℝ F) (fderiv ℝ G) p₀ 0 p₁ 1
    hF.continuous.continuousOn hG.continuous.continuousOn (fun x _ => dF x) (fun x _ => dG x) hi
  rw [hDe, this]
  simp only [pG]
  ring

/-! ## Surfaces swept by closed curves -/

/-- A surface `X` with the tangents `A`, `B` and the mixed derivative `M`, closed in its second parameter. -/
structure Sheet (X A B M : ℝ → ℝ → V3) : Prop where
  cX : C1 X
  cA : C1 A
  cB : C1 B
  dA : ∀ p t, HasDerivV3 (fun s => X s t) (A p t) p
  dB : ∀ p t, HasDerivV3 (fun s => X p s) (B p t) t
  mA : ∀ p t, HasDerivV3 (fun s => B s t) (M p t) p
  mB : ∀ p t, HasDerivV3 (fun s => A p s) (M p t) t
  pX : ∀ p, X p 1 = X p 0
  pA : ∀ p, A p 1 = A p 0

theorem C1.cont3 {X : ℝ → ℝ → V3} (h : C1 X) : Continuous (fun z : ℝ × ℝ × ℝ => (X z.1 z.2.1).x) ∧
    Continuous (fun z : ℝ × ℝ × ℝ => (X z.1 z.2.1).y) ∧ Continuous (fun z : ℝ × ℝ × ℝ => (X z.1 z.2.1).z) :=
  have k : Continuous fun z : ℝ × ℝ × ℝ => (z.1, z.2.1) := by fun_prop
  ⟨h.1.continuous.comp k, h.2.1.continuous.comp k, h.2.2.continuous.comp k⟩

theorem IsLoop.cont3 {y e : ℝ → V3} (h : IsLoop y e) :
    (Continuous (fun z : ℝ × ℝ × ℝ => (y z.2.2).x) ∧ Continuous (fun z : ℝ × ℝ × ℝ => (y z.2.2).y) ∧
      Continuous (fun z : ℝ × ℝ × ℝ => (y z.2.2).z)) ∧ Continuous (fun z : ℝ × ℝ × ℝ => (e z.2.2).x) ∧
      Continuous (fun z : ℝ × ℝ × ℝ => (e z.2.2).y) ∧ Continuous (fun z : ℝ × ℝ × ℝ => (e z.2.2).z) := by
  have k : Continuous fun z : ℝ × ℝ × ℝ => z.2.2 := by fun_prop
  have y1 : Continuous (fun s => (y s).x) := continuous_iff_continuousAt.2 fun s => (h.deriv s).1.continuousAt
  have y2 : Continuous (fun s => (y s).y) := continuous_iff_continuousAt.2 fun s => (h.deriv s).2.1.continuousAt
  have y3 : Continuous (fun s => (y s).z) := continuous_iff_continuousAt.2 fun s => (h.deriv s).2.2.continuousAt
  exact ⟨⟨y1.comp k, y2.comp k, y3.comp k⟩, h.cont.1.comp k, h.cont.2.1.comp k, h.cont.2.2.comp k⟩

theorem cont_norm {Z : Type} [TopologicalSpace Z] {f : Z → V3} (h : Continuous (fun z => (f z).x) ∧ Continuous (fun z => (f z).y) ∧
    Continuous (fun z => (f z).z)) : Continuous fun z => (f z).norm := by
  obtain ⟨h1, h2, h3⟩ := h
  simp only [V3.norm, V3.normSq]
  fun_prop

/-- The work of the field of the loop along a tangent `B`. -/
noncomputable def work (X B : ℝ → ℝ → V3) (y e : ℝ → V3) (p t s : ℝ) : ℝ := V3.dot (B p t) (biotSavart (X p t) (y s) (e s))

/-- The flux of its curl. -/
noncomputable def curlFlux (X A B : ℝ → ℝ → V3) (y e : ℝ → V3) (p t s : ℝ) : ℝ :=
  V3.dot (currentCurl (X p t) (y s) (e s)) (V3.cross (A p t) (B p t))

theorem work_cont {X B : ℝ → ℝ → V3} {y e : ℝ → V3} (cX : C1 X) (cB : C1 B) (hy : IsLoop y e) (hoff : ∀ p t s, y s ≠ X p t) :
    Continuous fun z : ℝ × ℝ × ℝ => work X B y e z.1 z.2.1 z.2.2 := by
  obtain ⟨x1, x2, x3⟩ := cX.cont3
  obtain ⟨b1, b2, b3⟩ := cB.cont3
  obtain ⟨⟨y1, y2, y3⟩, e1, e2, e3⟩ := hy.cont3
  have hn : Continuous fun z : ℝ × ℝ × ℝ => (X z.1 z.2.1 - y z.2.2).norm := by
    apply cont_norm
    simp only [V3.sub_x, V3.sub_y, V3.sub_z]
    exact ⟨by fun_prop, by fun_prop, by fun_prop⟩
  have h3 : ∀ z : ℝ × ℝ × ℝ, (X z.1 z.2.1 - y z.2.2).norm ^ 3 ≠ 0 := fun z =>
    pow_ne_zero _ ((V3.norm_pos_iff _).2 (V3.sub_ne_zero' (hoff z.1 z.2.1 z.2.2))).ne'
  simp only [work, biotSavart, V3.dot, V3.cross, V3.smul_x, V3.smul_y, V3.smul_z, V3.sub_x, V3.sub_y, V3.sub_z]
  fun_prop (disch := assumption)

theorem curlFlux_cont {X A B : ℝ → ℝ → V3} {y e : ℝ → V3} (cX : C1 X) (cA : C1 A) (cB : C1 B) (hy : IsLoop y e)
    (hoff : ∀ p t s, y s ≠ X p t) : Continuous fun z : ℝ × ℝ × ℝ => curlFlux X A B y e z.1 z.2.1 z.2.2 := by
  obtain ⟨x1, x2, x3⟩ := cX.cont3
  obtain ⟨a1, a2, a3⟩ := cA.cont3
  obtain ⟨b1, b2, b3⟩ := cB.cont3
  obtain ⟨⟨y1, y2, y3⟩, e1, e2, e3⟩ := hy.cont3
  have hn : Continuous fun z : ℝ × ℝ × ℝ => (X z.1 z.2.1 - y z.2.2).norm := by
    apply cont_norm
    simp only [V3.sub_x, V3.sub_y, V3.sub_z]
    exact ⟨by fun_prop, by fun_prop, by fun_prop⟩
  have h0 : ∀ z : ℝ × ℝ × ℝ, (X z.1 z.2.1 - y z.2.2).norm ≠ 0 := fun z =>
    ((V3.norm_pos_iff _).2 (V3.sub_ne_zero' (hoff z.1 z.2.1 z.2.2))).ne'
  have h3 := fun z => pow_ne_zero 3 (h0 z)
  have h5 := fun z => pow_ne_zero 5 (h0 z)
  simp only [curlFlux, currentCurl, V3.dot, V3.cross, V3.smul_x, V3.smul_y, V3.smul_z, V3.sub_x, V3.sub_y, V3.sub_z]
  fun_prop (disch := assumption)

theorem V3.norm_sub_comm (a b : V3) : (a - b).norm = (b - a).norm := by
  simp only [V3.norm, V3.normSq, V3.sub_x, V3.sub_y, V3.sub_z]
  congr 1
  ring

theorem biotSavart_eq (x y K : V3) : biotSavart x y K = (1e-7 : ℝ) • V3.cross K ((-1 : ℝ) • ((1 / (y - x).norm ^ 3) • (y - x))) := by
  rw [biotSavart, V3.norm_sub_comm x y]
  ext <;> simp only [V3.cross, V3.smul_x, V3.smul_y, V3.smul_z, V3.sub_x, V3.sub_y, V3.sub_z] <;> ring

theorem HasDerivV3.dot {f g : ℝ → V3} {f' g' : V3} {t : ℝ} (hf : HasDerivV3 f f' t) (hg : HasDerivV3 g g' t) :
    HasDerivAt (fun u => V3.dot (f u) (g u)) (V3.dot f' (g t) + V3.dot (f t) g') t := by
  simp only [V3.dot]
  refine (((hf.1.mul hg.1).add (hf.2.1.mul hg.2.1)).add (hf.2.2.mul hg.2.2)).congr_deriv ?_
  ring

/-- The theorem of Stokes at one point: the difference of the derivatives of the works is the flux of the curl. -/
theorem stokes {X A B M : ℝ → ℝ → V3} {y e : ℝ → V3} (h : Sheet X A B M) (s p t : ℝ) (hoff : y s ≠ X p t) :
    ∃ a b, HasDerivAt (fun q => work X B y e q t s) a p ∧ HasDerivAt (fun q => work X A y e p q s) b t ∧
      curlFlux X A B y e p t s = a - b := by
  have h1 := inverse_square_deriv (x := fun q => X q t) (y s) (Ne.symm hoff) (h.dA p t)
  have h2 := inverse_square_deriv (x := fun q => X p q) (y s) (Ne.symm hoff) (h.dB p t)
  have k1 := HasDerivV3.dot (h.mA p t) (crossConst (e s) (HasDerivV3.smul (hasDerivAt_const p (-1 : ℝ)) h1))
  have k2 := HasDerivV3.dot (h.mB p t) (crossConst (e s) (HasDerivV3.smul (hasDerivAt_const t (-1 : ℝ)) h2))
  simp only [← biotSavart_eq] at k1 k2
  refine ⟨_, _, k1, k2, ?_⟩
  have hd : y s - X p t ≠ 0 := V3.sub_ne_zero' (Ne.symm hoff)
  have hn := ((V3.norm_pos_iff _).2 hd).ne'
  have hsq : (y s - X p t).norm ^ 2 = ((y s).x - (X p t).x) ^ 2 + ((y s).y - (X p t).y) ^ 2 + ((y s).z - (X p t).z) ^ 2 := by
    rw [V3.norm_sq]
    rfl
  rw [curlFlux, currentCurl, V3.norm_sub_comm (X p t)]
  generalize (y s - X p t).norm = r at hn hsq
  simp only [V3.dot, V3.cross, V3.smul_x, V3.smul_y, V3.smul_z, V3.sub_x, V3.sub_y, V3.sub_z, V3.add_x, V3.add_y, V3.add_z]
  field_simp
  linear_combination (-3 * 1e-7) *
    ((e s).x * ((A p t).y * (B p t).z - (A p t).z * (B p t).y) + (e s).y * ((A p t).z * (B p t).x - (A p t).x * (B p t).z) +
      (e s).z * ((A p t).x * (B p t).y - (A p t).y * (B p t).x)) * hsq

theorem curlFlux_deriv (X A B : ℝ → ℝ → V3) {y e : ℝ → V3} (hy : IsLoop y e) (p t s : ℝ) (hoff : y s ≠ X p t) :
    HasDerivAt (fun s => 1e-7 * V3.dot (V3.cross (A p t) (B p t)) ((1 / (X p t - y s).norm ^ 3) • (X p t - y s)))
      (curlFlux X A B y e p t s) s := by
  have h := inverse_square_deriv (x := y) (X p t) hoff (hy.deriv s)
  refine ((h.const_dot (V3.cross (A p t) (B p t))).const_mul 1e-7).congr_deriv ?_
  simp only [curlFlux, currentCurl, V3.dot, V3.smul_x, V3.smul_y, V3.smul_z, V3.sub_x, V3.sub_y, V3.sub_z]
  ring

/-- The curl of the field of a closed loop vanishes. -/
theorem curlFlux_integral {X A B : ℝ → ℝ → V3} {y e : ℝ → V3} (cX : C1 X) (cA : C1 A) (cB : C1 B) (hy : IsLoop y e)
    (hoff : ∀ p t s, y s ≠ X p t) (p t : ℝ) : ∫ s in (0 : ℝ)..1, curlFlux X A B y e p t s = 0 := by
  have hE := curlFlux_cont cX cA cB hy hoff
  generalize hg : curlFlux X A B y e = g at hE
  have hc : Continuous fun s => g p t s := hE.comp (by fun_prop : Continuous fun s : ℝ => (p, t, s))
  rw [← hg] at hc ⊢
  have h := intervalIntegral.integral_eq_sub_of_hasDerivAt (fun s _ => curlFlux_deriv X A B hy p t s (hoff p t s))
    (hc.intervalIntegrable 0 1)
  rw [h, hy.closed]
  exact sub_self _

theorem C1.dot {f g : ℝ → ℝ → V3} (hf : C1 f) (hg : C1 g) : ContDiff ℝ 1 (fun q : ℝ × ℝ => V3.dot (f q.1 q.2) (g q.1 q.2)) := by
  obtain ⟨h1, h2, h3⟩ := hf
  obtain ⟨h4, h5, h6⟩ := hg
  simp only [V3.dot]
  fun_prop

theorem work_C1 {X B : ℝ → ℝ → V3} {y e : ℝ → V3} (cX : C1 X) (cB : C1 B) (hoff : ∀ p t s, y s ≠ X p t) (s : ℝ) :
    ContDiff ℝ 1 (fun q : ℝ × ℝ => work X B y e q.1 q.2 s) := by
  have hr : ∀ p t, X p t - y s ≠ 0 := fun p t => V3.sub_ne_zero' (hoff p t s)
  have cd : C1 (fun p t => X p t - y s) := cX.sub (C1.const (y s))
  exact cB.dot (C1.smul (s := fun p t => 1e-7 / (X p t - y s).norm ^ 3)
    (contDiff_const.div ((cd.norm hr).pow 3) fun q => pow_ne_zero _ ((V3.norm_pos_iff _).2 (hr q.1 q.2)).ne')
    ((C1.const (e s)).cross cd))

/-- The linking integral does not change while the second curve is moved without meeting the first. -/
theorem work_homotopy {X A B M : ℝ → ℝ → V3} {y e : ℝ → V3} (h : Sheet X A B M) (hy : IsLoop y e) (hoff : ∀ p t s, y s ≠ X p t)
    (p₀ p₁ : ℝ) :
    ∫ s in (0 : ℝ)..1, ∫ t in (0 : ℝ)..1, work X B y e p₁ t s = ∫ s in (0 : ℝ)..1, ∫ t in (0 : ℝ)..1, work X B y e p₀ t s := by
  have hE := curlFlux_cont h.cX h.cA h.cB hy hoff
  have hS : ∀ s, ∫ p in p₀..p₁, ∫ t in (0 : ℝ)..1, curlFlux X A B y e p t s =
      (∫ t in (0 : ℝ)..1, work X B y e p₁ t s) - ∫ t in (0 : ℝ)..1, work X B y e p₀ t s := by
    intro s
    refine integral_divergence_strip (fun q => work X B y e q.1 q.2 s) (fun q => -work X A y e q.1 q.2 s)
      (work_C1 h.cX h.cB hoff s) (work_C1 h.cX h.cA hoff s).neg ?_ (fun q => curlFlux X A B y e q.1 q.2 s) ?_ p₀ p₁
    · intro p
      simp only [work, h.pX, h.pA]
    · intro p t
      obtain ⟨a, b, ha, hb, hab⟩ := stokes h s p t (hoff p t s)
      exact ⟨a, -b, ha, hb.neg, by rw [hab, sub_eq_add_neg]⟩
  have h0 := integral3_rot (fun z => curlFlux X A B y e z.1 z.2.1 z.2.2) hE p₀ p₁
  simp only [curlFlux_integral h.cX h.cA h.cB hy hoff, intervalIntegral.integral_zero, hS] at h0
  have hw := work_cont h.cX h.cB hy hoff
  generalize work X B y e = g at hw h0 ⊢
  have c1 : ∀ p, Continuous fun s => ∫ t in (0 : ℝ)..1, g p t s := fun p =>
    integral_cont (fun s t => g p t s) (hw.comp (by fun_prop : Continuous fun z : ℝ × ℝ => (p, z.2, z.1)))
  rw [intervalIntegral.integral_sub ((c1 p₁).intervalIntegrable _ _) ((c1 p₀).intervalIntegrable _ _)] at h0
  exact sub_eq_zero.1 h0.symm

theorem work_linking (X B : ℝ → ℝ → V3) (y e : ℝ → V3) (p : ℝ) :
    ∫ s in (0 : ℝ)..1, ∫ t in (0 : ℝ)..1, work X B y e p t s = 4 * Real.pi * 1e-7 * linking y e (X p) (B p) := by
  have : ∀ s t, work X B y e p t s = 1e-7 * (V3.dot (X p t - y s) (V3.cross (B p t) (e s)) / (X p t - y s).norm ^ 3) := by
    intro s t
    simp only [work, biotSavart, V3.dot, V3.cross, V3.smul_x, V3.smul_y, V3.smul_z, V3.sub_x, V3.sub_y, V3.sub_z]
    ring
  simp only [this, intervalIntegral.integral_const_mul, linking]
  have := Real.pi_ne_zero
  field_simp

/-- A potential with the derivatives `a`, `b` does no work, so that only the constants `g` and `i` remain. -/
theorem net_only (a b f : ℝ → ℝ → ℝ) (u v w : ℝ → ℝ → ℝ → ℝ) (ca : Continuous fun q : ℝ × ℝ => a q.1 q.2)
    (cb : Continuous fun q : ℝ × ℝ => b q.1 q.2) (cf : Continuous fun q : ℝ × ℝ => f q.1 q.2)
    (cu : Continuous fun z : ℝ × ℝ × ℝ => u z.1 z.2.1 z.2.2) (cv : Continuous fun z : ℝ × ℝ × ℝ => v z.1 z.2.1 z.2.2)
    (cw : Continuous fun z : ℝ × ℝ × ℝ => w z.1 z.2.1 z.2.2) (g i lu lv : ℝ) (iw : ∀ p t, ∫ s in (0 : ℝ)..1, w p t s = 0)
    (iu : ∀ p, ∫ s in (0 : ℝ)..1, ∫ t in (0 : ℝ)..1, u p t s = lu) (iv : ∀ t, ∫ s in (0 : ℝ)..1, ∫ p in (0 : ℝ)..1, v p t s = lv)
    (id : ∀ s, ∫ p in (0 : ℝ)..1, ∫ t in (0 : ℝ)..1, (a p t * u p t s - b p t * v p t s + f p t * w p t s) = 0) :
    ∫ p in (0 : ℝ)..1, ∫ t in (0 : ℝ)..1, ∫ s in (0 : ℝ)..1, ((a p t + g) * u p t s - (b p t + i) * v p t s) = g * lu - i * lv := by
  have k : Continuous fun z : ℝ × ℝ × ℝ => (z.1, z.2.1) := by fun_prop
  have ca' : Continuous fun z : ℝ × ℝ × ℝ => a z.1 z.2.1 := ca.comp k
  have cb' : Continuous fun z : ℝ × ℝ × ℝ => b z.1 z.2.1 := cb.comp k
  have cf' : Continuous fun z : ℝ × ℝ × ℝ => f z.1 z.2.1 := cf.comp k
  have cD : Continuous fun z : ℝ × ℝ × ℝ => a z.1 z.2.1 * u z.1 z.2.1 z.2.2 - b z.1 z.2.1 * v z.1 z.2.1 z.2.2 +
      f z.1 z.2.1 * w z.1 z.2.1 z.2.2 := by fun_prop
  have slice : ∀ {h : ℝ → ℝ → ℝ → ℝ}, Continuous (fun z : ℝ × ℝ × ℝ => h z.1 z.2.1 z.2.2) → ∀ p t, IntervalIntegrable (h p t) volume 0 1 :=
    fun hc p t => (hc.comp (by fun_prop : Continuous fun s : ℝ => (p, t, s))).intervalIntegrable _ _
  have outer : ∀ {h : ℝ → ℝ → ℝ → ℝ}, Continuous (fun z : ℝ × ℝ × ℝ => h z.1 z.2.1 z.2.2) →
      Continuous fun q : ℝ × ℝ => ∫ s in (0 : ℝ)..1, h q.1 q.2 s :=
    fun {h} hc => integral_cont (fun (q : ℝ × ℝ) s => h q.1 q.2 s) (hc.comp (by fun_prop : Continuous fun z : (ℝ × ℝ) × ℝ => (z.1.1, z.1.2, z.2)))
  obtain ⟨D, hD⟩ : ∃ D : ℝ → ℝ → ℝ → ℝ, D = fun p t s => a p t * u p t s - b p t * v p t s + f p t * w p t s := ⟨_, rfl⟩
  have cD' : Continuous fun z : ℝ × ℝ × ℝ => D z.1 z.2.1 z.2.2 := by rw [hD]; exact cD
  have id' : ∀ s, ∫ p in (0 : ℝ)..1, ∫ t in (0 : ℝ)..1, D p t s = 0 := by rw [hD]; exact id
  have inner : ∀ p t, ∫ s in (0 : ℝ)..1, ((a p t + g) * u p t s - (b p t + i) * v p t s) =
      (∫ s in (0 : ℝ)..1, D p t s) + g * (∫ s in (0 : ℝ)..1, u p t s) - i * ∫ s in (0 : ℝ)..1, v p t s := by
    intro p t
    have e : ∀ s, (a p t + g) * u p t s - (b p t + i) * v p t s = D p t s - f p t * w p t s + g * u p t s - i * v p t s := by
      intro s
      rw [hD]
      ring
    have hu := slice cu p t
    have hv := slice cv p t
    have hw := slice cw p t
    have hd := slice cD' p t
    simp only [e]
    rw [intervalIntegral.integral_sub ((hd.sub (hw.const_mul _)).add (hu.const_mul _)) (hv.const_mul _),
      intervalIntegral.integral_add (hd.sub (hw.const_mul _)) (hu.const_mul _),
      intervalIntegral.integral_sub hd (hw.const_mul _), intervalIntegral.integral_const_mul, intervalIntegral.integral_const_mul,
      intervalIntegral.integral_const_mul, iw, mul_zero, sub_zero]
  simp only [inner]
  rw [integral2_lin (fun q => ∫ s in (0 : ℝ)..1, D q.1 q.2 s) (fun q => ∫ s in (0 : ℝ)..1, u q.1 q.2 s)
    (fun q => ∫ s in (0 : ℝ)..1, v q.1 q.2 s) (outer cD') (outer cu) (outer cv) g i]
  have r1 := integral3_rot (fun z => D z.1 z.2.1 z.2.2) cD' 0 1
  have r2 := integral3_inner (fun z => u z.1 z.2.1 z.2.2) cu 0 1
  have r3 := integral2_swap (fun q => ∫ s in (0 : ℝ)..1, v q.1 q.2 s) (outer cv) 0 1
  have r4 := integral3_inner (fun z => v z.2.1 z.1 z.2.2) (cv.comp (by fun_prop : Continuous fun z : ℝ × ℝ × ℝ => (z.2.1, z.1, z.2.2))) 0 1
  simp only at r1 r2 r3 r4
  rw [r1, r2, r3, r4]
  simp only [id', iu, iv]
  simp

end Verif
