import Verif.Props.Nested
import Verif.Props.BiotSavart
import Verif.Lemmas.QuadLimit

/-!
# C118: the computed minimisers converge when all grids are refined
-/

namespace Verif

open Real CpParams MeasureTheory Filter Topology

/-! ## The problem without grids -/

/-- The field at `y` of the surface current, by the law of Biot and Savart. -/
noncomputable def surfaceB (P : CpParams) (c : List ℝ) (y : V3) : V3 :=
  torusIntegral fun p t => (P.N p t).norm • biotSavart y (P.surf.gamma P.wdofs p t) (P.K c p t)

/-- Half the integral of the squared normal field over the plasma surface `S`, `pd`, with the external normal field `b`. -/
noncomputable def continuumFB (P : CpParams) (S : SurfaceShape) (pd : List ℝ) (b : ℝ → ℝ → ℝ) (c : List ℝ) : ℝ :=
  P.surf.nfp * ∫ p in (0 : ℝ)..(1 / P.surf.nfp), ∫ t in (0 : ℝ)..1,
    (V3.dot (S.unitnormal pd p t) (surfaceB P c (S.gamma pd p t)) + b p t) ^ 2 / 2 * (S.normal pd p t).norm

/-- Half the integral of the squared current over the winding surface. -/
noncomputable def continuumFK (P : CpParams) (c : List ℝ) : ℝ :=
  ∫ p in (0 : ℝ)..1, ∫ t in (0 : ℝ)..1, (P.K c p t).normSq / 2 * (P.N p t).norm

noncomputable def continuumObjective (P : CpParams) (S : SurfaceShape) (pd : List ℝ) (b : ℝ → ℝ → ℝ) (w : ℝ) (c : List ℝ) : ℝ :=
  continuumFB P S pd b c + w * continuumFK P c

/-- A sequence of problems on the same surfaces whose grids, of the default kind, are refined in all four angles. -/
structure Refinement (Q : ℕ → FieldProblem) (P : CpParams) (S : SurfaceShape) (pd : List ℝ) (b : ℝ → ℝ → ℝ) where
  m : ℕ → ℕ
  n : ℕ → ℕ
  a : ℕ → ℕ
  d : ℕ → ℕ
  cp : ∀ k, (Q k).cp = P
  wPhis : ∀ k, (Q k).wPhis = linspace0 1 (P.surf.nfp * m k)
  wThetas : ∀ k, (Q k).wThetas = linspace0 1 (n k)
  ePhis : ∀ k, (Q k).ePhis = defaultEvalPhi P.surf.nfp (Q k).wPhis
  eThetas : ∀ k, (Q k).eThetas = (Q k).wThetas
  plasma : ∀ k, (Q k).plasma = ⟨S, pd, linspace0 (1 / P.surf.nfp) (a k), linspace0 1 (d k)⟩
  bPlasma : ∀ k, (Q k).bPlasma = (gridPoints (Q k).plasma.phis (Q k).plasma.thetas).map fun q => b q.1 q.2
  hm : Tendsto m atTop atTop
  hn : Tendsto n atTop atTop
  ha : Tendsto a atTop atTop
  hd : Tendsto d atTop atTop

/-! ## Continuous vector fields -/

def ContV {X : Type} [TopologicalSpace X] (f : X → V3) : Prop :=
  Continuous (fun x => (f x).x) ∧ Continuous (fun x => (f x).y) ∧ Continuous (fun x => (f x).z)

section
variable {X : Type} [TopologicalSpace X] {f g : X → V3} {s : X → ℝ}

theorem C1.contV {h : ℝ → ℝ → V3} (hh : C1 h) {u v : X → ℝ} (hu : Continuous u) (hv : Continuous v) :
    ContV fun x => h (u x) (v x) :=
  ⟨hh.1.continuous.comp (hu.prodMk hv), hh.2.1.continuous.comp (hu.prodMk hv), hh.2.2.continuous.comp (hu.prodMk hv)⟩

theorem ContV.sub (hf : ContV f) (hg : ContV g) : ContV fun x => f x - g x :=
  ⟨hf.1.sub hg.1, hf.2.1.sub hg.2.1, hf.2.2.sub hg.2.2⟩

theorem ContV.smul (hs : Continuous s) (hf : ContV f) : ContV fun x => s x • f x :=
  ⟨hs.mul hf.1, hs.mul hf.2.1, hs.mul hf.2.2⟩

theorem ContV.cross (hf : ContV f) (hg : ContV g) : ContV fun x => V3.cross (f x) (g x) := by
  obtain ⟨f1, f2, f3⟩ := hf
  obtain ⟨g1, g2, g3⟩ := hg
  refine ⟨?_, ?_, ?_⟩ <;> simp only [V3.cross] <;> fun_prop

theorem ContV.norm (hf : ContV f) : Continuous fun x => (f x).norm := by
  obtain ⟨f1, f2, f3⟩ := hf
  simp only [V3.norm, V3.normSq]
  fun_prop

theorem ContV.dot (hf : ContV f) (hg : ContV g) : Continuous fun x => V3.dot (f x) (g x) := by
  obtain ⟨f1, f2, f3⟩ := hf
  obtain ⟨g1, g2, g3⟩ := hg
  simp only [V3.dot]
  fun_prop

end

theorem shape_C1 (S : SurfaceShape) (pd : List ℝ) (a b : ℕ) : C1 fun p t => S.gammadash pd a b p t := S.gammadash_contDiff pd a b

theorem sub_ne_zero_V3 {u v : V3} (h : v ≠ u) : u - v ≠ 0 := by
  intro h0
  apply h
  have hx := congrArg V3.x h0
  have hy := congrArg V3.y h0
  have hz := congrArg V3.z h0
  simp only [V3.sub_x, V3.sub_y, V3.sub_z, V3.zero_x, V3.zero_y, V3.zero_z] at hx hy hz
  ext <;> linarith

/-- The integrand depends continuously on the point of the plasma surface and the point of the winding surface together. -/
theorem integrand_continuous (P : CpParams) (S : SurfaceShape) (pd : List ℝ) (c : List ℝ) (hN : ∀ p t, P.N p t ≠ 0)
    (hoff : ∀ p' t' p t, P.surf.gamma P.wdofs p' t' ≠ S.gamma pd p t) :
    ContV fun q : (ℝ × ℝ) × ℝ × ℝ => (P.N q.2.1 q.2.2).norm •
      biotSavart (S.gamma pd q.1.1 q.1.2) (P.surf.gamma P.wdofs q.2.1 q.2.2) (P.K c q.2.1 q.2.2) := by
  have hp : Continuous fun q : (ℝ × ℝ) × ℝ × ℝ => q.2.1 := by fun_prop
  have ht : Continuous fun q : (ℝ × ℝ) × ℝ × ℝ => q.2.2 := by fun_prop
  have hy : ContV fun q : (ℝ × ℝ) × ℝ × ℝ => S.gamma pd q.1.1 q.1.2 :=
    (shape_C1 S pd 0 0).contV (by fun_prop) (by fun_prop)
  have hx : ContV fun q : (ℝ × ℝ) × ℝ × ℝ => P.surf.gamma P.wdofs q.2.1 q.2.2 := (P.gammadash_C1 0 0).contV hp ht
  have hd := hy.sub hx
  refine ContV.smul (P.N_C1.contV hp ht).norm ?_
  refine ContV.smul ?_ (((P.K_C1 c hN).contV hp ht).cross hd)
  refine continuous_const.div (hd.norm.pow 3) fun q => pow_ne_zero _ ?_
  exact ((V3.norm_pos_iff _).2 (sub_ne_zero_V3 (hoff _ _ _ _))).ne'

theorem double_integral_continuous {X : Type} [TopologicalSpace X] [FirstCountableTopology X] {F : X → ℝ → ℝ → ℝ}
    (hF : Continuous fun q : X × ℝ × ℝ => F q.1 q.2.1 q.2.2) (a b c d : ℝ) :
    Continuous fun x => ∫ p in a..b, ∫ t in c..d, F x p t := by
  have h1 : Continuous fun q : X × ℝ => ∫ t in c..d, F q.1 q.2 t :=
    intervalIntegral.continuous_parametric_intervalIntegral_of_continuous' (f := fun q : X × ℝ => F q.1 q.2)
      (hF.comp (g := fun q : X × ℝ × ℝ => F q.1 q.2.1 q.2.2) (f := fun q : (X × ℝ) × ℝ => (q.1.1, q.1.2, q.2)) (by fun_prop)) c d
  exact intervalIntegral.continuous_parametric_intervalIntegral_of_continuous' (f := fun x p => ∫ t in c..d, F x p t) h1 a b

theorem surfaceB_continuous (P : CpParams) (S : SurfaceShape) (pd : List ℝ) (c : List ℝ) (hN : ∀ p t, P.N p t ≠ 0)
    (hoff : ∀ p' t' p t, P.surf.gamma P.wdofs p' t' ≠ S.gamma pd p t) :
    ContV fun q : ℝ × ℝ => surfaceB P c (S.gamma pd q.1 q.2) := by
  obtain ⟨h1, h2, h3⟩ := integrand_continuous P S pd c hN hoff
  exact ⟨double_integral_continuous (F := fun (q : ℝ × ℝ) p t => ((P.N p t).norm •
      biotSavart (S.gamma pd q.1 q.2) (P.surf.gamma P.wdofs p t) (P.K c p t)).x) h1 0 1 0 1,
    double_integral_continuous (F := fun (q : ℝ × ℝ) p t => ((P.N p t).norm •
      biotSavart (S.gamma pd q.1 q.2) (P.surf.gamma P.wdofs p t) (P.K c p t)).y) h2 0 1 0 1,
    double_integral_continuous (F := fun (q : ℝ × ℝ) p t => ((P.N p t).norm •
      biotSavart (S.gamma pd q.1 q.2) (P.surf.gamma P.wdofs p t) (P.K c p t)).z) h3 0 1 0 1⟩

/-! ## Uniform convergence of the field on the plasma surface -/

theorem grid_sum_uniform {F : ℝ × ℝ → ℝ → ℝ → ℝ} (hF : Continuous fun q : (ℝ × ℝ) × ℝ × ℝ => F q.1 q.2.1 q.2.2) (L : ℝ)
    {m n : ℕ → ℕ} (hm : Tendsto m atTop atTop) (hn : Tendsto n atTop atTop) {ε : ℝ} (hε : 0 < ε) :
    ∀ᶠ k in atTop, ∀ y ∈ Set.Icc (0 : ℝ) L ×ˢ Set.Icc (0 : ℝ) 1,
      |((gridPoints (linspace0 1 (m k)) (linspace0 1 (n k))).map fun q => F y q.1 q.2 * (1 / m k) * (1 / n k)).sum -
        ∫ p in (0 : ℝ)..1, ∫ t in (0 : ℝ)..1, F y p t| ≤ ε := by
  obtain ⟨M, hM⟩ := square_sum_error_uniform (isCompact_Icc.prod isCompact_Icc : IsCompact (Set.Icc (0 : ℝ) L ×ˢ Set.Icc (0 : ℝ) 1))
    hF.continuousOn hε
  filter_upwards [hm.eventually_ge_atTop M, hn.eventually_ge_atTop M] with k h1 h2 y hy
  have := hM _ _ h1 h2 y hy
  convert this using 3
  rw [gridPoints_sum, linspace0_sum]
  refine Finset.sum_congr rfl fun i _ => ?_
  rw [linspace0_sum]
  refine Finset.sum_congr rfl fun j _ => ?_
  ring

theorem windingB_uniform {Q : ℕ → FieldProblem} {P : CpParams} {S : SurfaceShape} {pd : List ℝ} {b : ℝ → ℝ → ℝ}
    (H : Refinement Q P S pd b) (hnfp : P.surf.nfp ≠ 0) (c : List ℝ) (hN : ∀ p t, P.N p t ≠ 0)
    (hoff : ∀ p' t' p t, P.surf.gamma P.wdofs p' t' ≠ S.gamma pd p t) {ε : ℝ} (hε : 0 < ε) :
    ∀ᶠ k in atTop, ∀ y ∈ Set.Icc (0 : ℝ) (1 / P.surf.nfp) ×ˢ Set.Icc (0 : ℝ) 1,
      |((Q k).windingB c (S.gamma pd y.1 y.2)).x - (surfaceB P c (S.gamma pd y.1 y.2)).x| ≤ ε ∧
      |((Q k).windingB c (S.gamma pd y.1 y.2)).y - (surfaceB P c (S.gamma pd y.1 y.2)).y| ≤ ε ∧
      |((Q k).windingB c (S.gamma pd y.1 y.2)).z - (surfaceB P c (S.gamma pd y.1 y.2)).z| ≤ ε := by
  obtain ⟨h1, h2, h3⟩ := integrand_continuous P S pd c hN hoff
  have hm' : Tendsto (fun k => P.surf.nfp * H.m k) atTop atTop := H.hm.const_mul_atTop' (Nat.pos_of_ne_zero hnfp)
  have e : ∀ k y, (Q k).windingB c y = vsum ((gridPoints (linspace0 1 (P.surf.nfp * H.m k)) (linspace0 1 (H.n k))).map fun q =>
      ((P.N q.1 q.2).norm * (1 / (P.surf.nfp * H.m k : ℕ)) * (1 / H.n k)) •
        biotSavart y (P.surf.gamma P.wdofs q.1 q.2) (P.K c q.1 q.2)) := by
    intro k y
    rw [C109_biot_savart_sum, H.cp, H.wPhis, H.wThetas, linspace0_length, linspace0_length]
  filter_upwards [
    grid_sum_uniform (F := fun (q : ℝ × ℝ) p t => ((P.N p t).norm •
      biotSavart (S.gamma pd q.1 q.2) (P.surf.gamma P.wdofs p t) (P.K c p t)).x) h1 (1 / P.surf.nfp) hm' H.hn hε,
    grid_sum_uniform (F := fun (q : ℝ × ℝ) p t => ((P.N p t).norm •
      biotSavart (S.gamma pd q.1 q.2) (P.surf.gamma P.wdofs p t) (P.K c p t)).y) h2 (1 / P.surf.nfp) hm' H.hn hε,
    grid_sum_uniform (F := fun (q : ℝ × ℝ) p t => ((P.N p t).norm •
      biotSavart (S.gamma pd q.1 q.2) (P.surf.gamma P.wdofs p t) (P.K c p t)).z) h3 (1 / P.surf.nfp) hm' H.hn hε] with k k1 k2 k3 y hy
  refine ⟨le_trans (le_of_eq ?_) (k1 y hy), le_trans (le_of_eq ?_) (k2 y hy), le_trans (le_of_eq ?_) (k3 y hy)⟩ <;>
  · rw [e]
    simp only [vsum, surfaceB, torusIntegral, List.map_map, Function.comp_def, V3.smul_x, V3.smul_y, V3.smul_z]
    congr 3
    refine List.map_congr_left fun q _ => ?_
    ring

theorem mem_linspace0 {L x : ℝ} (hL : 0 ≤ L) {n : ℕ} (h : x ∈ linspace0 L n) : x ∈ Set.Icc (0 : ℝ) L := by
  rw [linspace0] at h
  obtain ⟨i, hi, rfl⟩ := List.mem_map.1 h
  have hi' : (i : ℝ) ≤ n := by
    have := List.mem_range.1 hi
    exact_mod_cast this.le
  have hn : (0 : ℝ) < n := by
    have := List.mem_range.1 hi
    exact_mod_cast (lt_of_le_of_lt (Nat.zero_le i) this)
  refine ⟨by positivity, ?_⟩
  calc (i : ℝ) * (L / n) ≤ n * (L / n) := mul_le_mul_of_nonneg_right hi' (by positivity)
    _ = L := by field_simp

/-- `f_B` tends to the integral of the squared normal field when the winding and plasma grids are refined together. -/
theorem C118_f_B_limit {Q : ℕ → FieldProblem} {P : CpParams} {S : SurfaceShape} {pd : List ℝ} {b : ℝ → ℝ → ℝ}
    (H : Refinement Q P S pd b) (hnfp : P.surf.nfp ≠ 0) (c : List ℝ) (hN : ∀ p t, P.N p t ≠ 0)
    (hS : ∀ p t, S.normal pd p t ≠ 0) (hoff : ∀ p' t' p t, P.surf.gamma P.wdofs p' t' ≠ S.gamma pd p t)
    (hbc : Continuous fun q : ℝ × ℝ => b q.1 q.2) :
    Tendsto (fun k => (Q k).fB c) atTop (𝓝 (continuumFB P S pd b c)) := by
  have sN : C1 (fun p t => S.normal pd p t) :=
    C1.cross (f := fun p t => S.gammadash pd 1 0 p t) (g := fun p t => S.gammadash pd 0 1 p t) (shape_C1 S pd 1 0) (shape_C1 S pd 0 1)
  have sU : C1 (fun p t => S.unitnormal pd p t) :=
    C1.smul (s := fun p t => 1 / (S.normal pd p t).norm) (sN.invNorm hS) sN
  have cU : ContV fun q : ℝ × ℝ => S.unitnormal pd q.1 q.2 := sU.contV continuous_fst continuous_snd
  have cB := surfaceB_continuous P S pd c hN hoff
  let G : ℝ → ℝ → ℝ := fun p t => V3.dot (S.unitnormal pd p t) (surfaceB P c (S.gamma pd p t)) + b p t
  have cG : Continuous fun q : ℝ × ℝ => G q.1 q.2 := (cU.dot cB).add hbc
  have hL : (0 : ℝ) ≤ 1 / P.surf.nfp := by positivity
  let K : Set (ℝ × ℝ) := Set.Icc (0 : ℝ) (1 / P.surf.nfp) ×ˢ Set.Icc (0 : ℝ) 1
  have hK : IsCompact K := isCompact_Icc.prod isCompact_Icc
  obtain ⟨M, hM⟩ := hK.exists_bound_of_continuousOn cG.continuousOn
  obtain ⟨U, hU⟩ := hK.exists_bound_of_continuousOn
    (f := fun q : ℝ × ℝ => |(S.unitnormal pd q.1 q.2).x| + |(S.unitnormal pd q.1 q.2).y| + |(S.unitnormal pd q.1 q.2).z|)
    ((cU.1.abs.add cU.2.1.abs).add cU.2.2.abs).continuousOn
  have h0K : ((0, 0) : ℝ × ℝ) ∈ K := ⟨⟨le_rfl, hL⟩, le_rfl, zero_le_one⟩
  have hM0 : 0 ≤ M := (norm_nonneg _).trans (hM _ h0K)
  have hU0 : 0 ≤ U := (norm_nonneg _).trans (hU _ h0K)
  have hT := C110_integrate_limit S pd (fun p t => G p t ^ 2 / 2) ((cG.pow 2).div_const 2) (1 / P.surf.nfp) H.a H.d H.ha H.hd
  have hA := C110_integrate_limit S pd (fun _ _ => 1) continuous_const (1 / P.surf.nfp) H.a H.d H.ha H.hd
  set A := ∫ p in (0 : ℝ)..(1 / P.surf.nfp), ∫ t in (0 : ℝ)..1, 1 * (S.normal pd p t).norm with hAdef
  let gS : ℕ → GridSurface := fun k => ⟨S, pd, linspace0 (1 / P.surf.nfp) (H.a k), linspace0 1 (H.d k)⟩
  let g : ℕ → ℝ → ℝ → ℝ := fun k p t => V3.dot (S.unitnormal pd p t) ((Q k).windingB c (S.gamma pd p t)) + b p t
  have efB : ∀ k, (Q k).fB c = (gS k).integrate ((gridPoints (gS k).phis (gS k).thetas).map fun q => g k q.1 q.2 ^ 2 / 2) * P.surf.nfp := by
    intro k
    have ez : ∀ l : List (ℝ × ℝ), l.zip (l.map fun q => b q.1 q.2) = l.map fun q => (q, b q.1 q.2) := by
      intro l
      induction l with
      | nil => rfl
      | cons a l ih => simp [ih]
    rw [FieldProblem.fB, H.cp, FieldProblem.bnormal, H.bPlasma, H.plasma, ez, List.map_map, List.map_map]
    simp only [Function.comp_def, FieldProblem.bnWinding, H.plasma]
    rfl
  -- the difference of the two sums tends to zero
  have hdiff : Tendsto (fun k => (gS k).integrate ((gridPoints (gS k).phis (gS k).thetas).map fun q => g k q.1 q.2 ^ 2 / 2) -
      (gS k).integrate ((gridPoints (gS k).phis (gS k).thetas).map fun q => G q.1 q.2 ^ 2 / 2)) atTop (𝓝 0) := by
    rw [Metric.tendsto_nhds]
    intro η hη
    have hA0 : 0 ≤ A := by
      refine intervalIntegral.integral_nonneg hL fun p _ => intervalIntegral.integral_nonneg zero_le_one fun t _ => ?_
      rw [one_mul]
      exact Real.sqrt_nonneg _
    set δ := min 1 (η / (2 * (M + 1) * (A + 1))) with hδ
    have hδ0 : 0 < δ := by
      rw [hδ]
      exact lt_min one_pos (by positivity)
    have hδ1 : δ ≤ 1 := min_le_left _ _
    have hδ2 : δ * (2 * (M + 1) * (A + 1)) ≤ η := by
      have := min_le_right 1 (η / (2 * (M + 1) * (A + 1)))
      rw [← hδ, le_div_iff₀ (by positivity)] at this
      exact this
    have hAe := hA.eventually_le_const (by linarith : A < A + 1)
    filter_upwards [windingB_uniform H hnfp c hN hoff (show 0 < δ / (U + 1) by positivity), hAe,
      H.ha.eventually_ge_atTop 2, H.hd.eventually_ge_atTop 2] with k hk hAk ha hd
    have hstep : 0 ≤ gridStep (gS k).phis * gridStep (gS k).thetas := by
      show 0 ≤ gridStep (linspace0 _ _) * gridStep (linspace0 _ _)
      rw [gridStep_linspace0 _ _ ha, gridStep_linspace0 _ _ hd]
      positivity
    have hgG : ∀ q ∈ gridPoints (gS k).phis (gS k).thetas, |g k q.1 q.2 ^ 2 / 2 - G q.1 q.2 ^ 2 / 2| ≤ δ * (M + 1) := by
      intro q hq
      simp only [gridPoints, List.mem_flatMap, List.mem_map] at hq
      obtain ⟨p, hp, t, ht, rfl⟩ := hq
      have hy : ((p, t) : ℝ × ℝ) ∈ K := ⟨mem_linspace0 hL hp, mem_linspace0 zero_le_one ht⟩
      obtain ⟨k1, k2, k3⟩ := hk _ hy
      have hu := hU _ hy
      have hm := hM _ hy
      simp only [Real.norm_eq_abs] at hu hm
      rw [abs_of_nonneg (by positivity)] at hu
      have hd1 : |g k p t - G p t| ≤ δ := by
        have e : g k p t - G p t = (S.unitnormal pd p t).x * (((Q k).windingB c (S.gamma pd p t)).x - (surfaceB P c (S.gamma pd p t)).x) +
            (S.unitnormal pd p t).y * (((Q k).windingB c (S.gamma pd p t)).y - (surfaceB P c (S.gamma pd p t)).y) +
            (S.unitnormal pd p t).z * (((Q k).windingB c (S.gamma pd p t)).z - (surfaceB P c (S.gamma pd p t)).z) := by
          simp only [g, G, V3.dot]
          ring
        rw [e]
        refine (abs_add_three _ _ _).trans ?_
        rw [abs_mul, abs_mul, abs_mul]
        have i1 := mul_le_mul_of_nonneg_left k1 (abs_nonneg (S.unitnormal pd p t).x)
        have i2 := mul_le_mul_of_nonneg_left k2 (abs_nonneg (S.unitnormal pd p t).y)
        have i3 := mul_le_mul_of_nonneg_left k3 (abs_nonneg (S.unitnormal pd p t).z)
        have i4 := mul_le_mul_of_nonneg_right hu (show 0 ≤ δ / (U + 1) by positivity)
        have i5 : U * (δ / (U + 1)) ≤ δ := by
          rw [mul_div_assoc', div_le_iff₀ (by positivity)]
          nlinarith
        linarith
      have hd2 : |g k p t + G p t| ≤ 2 * M + δ := by
        have : g k p t + G p t = (g k p t - G p t) + 2 * G p t := by ring
        rw [this]
        refine (abs_add_le _ _).trans ?_
        rw [abs_mul, abs_two]
        linarith
      have e : g k p t ^ 2 / 2 - G p t ^ 2 / 2 = (g k p t - G p t) * (g k p t + G p t) / 2 := by ring
      rw [e, abs_div, abs_mul, abs_two]
      have := mul_le_mul hd1 hd2 (abs_nonneg _) hδ0.le
      nlinarith
    rw [Real.dist_eq, sub_zero, GridSurface.integrate_map (gS k) (fun p t => g k p t ^ 2 / 2),
      GridSurface.integrate_map (gS k) (fun p t => G p t ^ 2 / 2)]
    have hAk' : ((gridPoints (gS k).phis (gS k).thetas).map fun q =>
        1 * (S.normal pd q.1 q.2).norm * gridStep (gS k).phis * gridStep (gS k).thetas).sum ≤ A + 1 := by
      have := GridSurface.integrate_map (gS k) (fun _ _ => 1)
      rw [← this]
      exact hAk
    have hbound : ∀ l : List (ℝ × ℝ), (∀ q ∈ l, |g k q.1 q.2 ^ 2 / 2 - G q.1 q.2 ^ 2 / 2| ≤ δ * (M + 1)) →
        |(l.map fun q => g k q.1 q.2 ^ 2 / 2 * (S.normal pd q.1 q.2).norm * gridStep (gS k).phis * gridStep (gS k).thetas).sum -
          (l.map fun q => G q.1 q.2 ^ 2 / 2 * (S.normal pd q.1 q.2).norm * gridStep (gS k).phis * gridStep (gS k).thetas).sum| ≤
        δ * (M + 1) * (l.map fun q => 1 * (S.normal pd q.1 q.2).norm * gridStep (gS k).phis * gridStep (gS k).thetas).sum := by
      intro l hl
      induction l with
      | nil => simp
      | cons q l ih =>
        have h1 := ih fun q hq => hl q (List.mem_cons_of_mem _ hq)
        have h2 := hl q (List.mem_cons_self ..)
        simp only [List.map_cons, List.sum_cons]
        have hw : 0 ≤ (S.normal pd q.1 q.2).norm * (gridStep (gS k).phis * gridStep (gS k).thetas) :=
          mul_nonneg (Real.sqrt_nonneg _) hstep
        have h3 := mul_le_mul_of_nonneg_right h2 hw
        rw [abs_le] at h1 ⊢
        have h4 : |(g k q.1 q.2 ^ 2 / 2 - G q.1 q.2 ^ 2 / 2) * ((S.normal pd q.1 q.2).norm * (gridStep (gS k).phis * gridStep (gS k).thetas))| ≤
            δ * (M + 1) * ((S.normal pd q.1 q.2).norm * (gridStep (gS k).phis * gridStep (gS k).thetas)) := by
          rw [abs_mul, abs_of_nonneg hw]
          exact h3
        rw [abs_le] at h4
        constructor <;> nlinarith
    have hfin := hbound _ hgG
    have : δ * (M + 1) * (A + 1) < η := by nlinarith [mul_pos hδ0 (mul_pos (show 0 < M + 1 by linarith) (show 0 < A + 1 by linarith))]
    refine lt_of_le_of_lt (hfin.trans ?_) this
    exact mul_le_mul_of_nonneg_left hAk' (by positivity)
  have := ((hdiff.add hT).mul_const (P.surf.nfp : ℝ))
  rw [zero_add, mul_comm _ (P.surf.nfp : ℝ)] at this
  refine this.congr fun k => ?_
  rw [efB]
  congr 1
  show _ - (gS k).integrate _ + (gS k).integrate _ = _
  ring

/-! ## The limit problem -/

theorem K_ofFn_comb (P : CpParams) {L : ℕ} (x y : Fin L → ℝ) (a p t : ℝ) :
    P.K (List.ofFn (a • x + (1 - a) • y)) p t = a • P.K (List.ofFn x) p t + (1 - a) • P.K (List.ofFn y) p t := by
  have : a • x + (1 - a) • y = fun i => a * x i + (1 - a) * y i := rfl
  rw [this, ofFn_comb, comb, C41_affine _ _ _ (by simp)]

/-- The regularised objective on a grid is convex. -/
theorem regObjective_convex (Q : FieldProblem) (w : ℝ) (hw : 0 ≤ w) {L : ℕ}
    (hp : 0 ≤ gridStep Q.plasma.phis * gridStep Q.plasma.thetas) (he : 0 ≤ gridStep Q.ePhis * gridStep Q.eThetas)
    (x y : Fin L → ℝ) (a : ℝ) (h0 : 0 ≤ a) (h1 : a ≤ 1) :
    regObjective Q w (List.ofFn (a • x + (1 - a) • y)) ≤ a * regObjective Q w (List.ofFn x) + (1 - a) * regObjective Q w (List.ofFn y) := by
  rw [regObjective_eq, regObjective_eq, regObjective_eq]
  have hA := regTerms_affine Q w L
  have hW := regTerms_nonneg Q w L hw hp he
  generalize regTerms Q w L = l at hA hW
  induction l with
  | nil => simp
  | cons s l ih =>
    have i1 := ih (fun s hs => hA s (List.mem_cons_of_mem _ hs)) (fun s hs => hW s (List.mem_cons_of_mem _ hs))
    have e : s.2 (a • x + (1 - a) • y) = a * s.2 x + (1 - a) * s.2 y := hA s (List.mem_cons_self ..) x y a
    have i2 := hW s (List.mem_cons_self ..)
    simp only [List.map_cons, List.sum_cons]
    rw [e]
    have i3 : (a * s.2 x + (1 - a) * s.2 y) ^ 2 ≤ a * s.2 x ^ 2 + (1 - a) * s.2 y ^ 2 := by
      nlinarith [mul_nonneg (mul_nonneg h0 (sub_nonneg.2 h1)) (sq_nonneg (s.2 x - s.2 y))]
    nlinarith [mul_le_mul_of_nonneg_left i3 i2]

/-- The integral of a continuous nonnegative function over the unit square that is positive somewhere. -/
theorem double_integral_pos {f : ℝ → ℝ → ℝ} (hf : Continuous fun q : ℝ × ℝ => f q.1 q.2) (h0 : ∀ p t, 0 ≤ f p t) {p t : ℝ}
    (hp : p ∈ Set.Icc (0 : ℝ) 1) (ht : t ∈ Set.Icc (0 : ℝ) 1) (hpos : 0 < f p t) :
    0 < ∫ p in (0 : ℝ)..1, ∫ t in (0 : ℝ)..1, f p t := by
  have hs : ∀ p, Continuous fun t => f p t := fun p => hf.comp (Continuous.prodMk continuous_const continuous_id)
  have hc : Continuous fun p => ∫ t in (0 : ℝ)..1, f p t :=
    intervalIntegral.continuous_parametric_intervalIntegral_of_continuous' (f := f) hf 0 1
  refine intervalIntegral.integral_pos zero_lt_one hc.continuousOn
    (fun p _ => intervalIntegral.integral_nonneg zero_le_one fun t _ => h0 p t) ⟨p, hp, ?_⟩
  exact intervalIntegral.integral_pos zero_lt_one (hs p).continuousOn (fun t _ => h0 p t) ⟨t, ht, hpos⟩

theorem integral_lin {f g h : ℝ → ℝ} (hf : Continuous f) (hg : Continuous g) (hh : Continuous h) :
    ∫ t in (0 : ℝ)..1, (1 / 2 * f t + 1 / 2 * g t - h t) =
      1 / 2 * (∫ t in (0 : ℝ)..1, f t) + 1 / 2 * (∫ t in (0 : ℝ)..1, g t) - ∫ t in (0 : ℝ)..1, h t := by
  have i1 : IntervalIntegrable (fun t => 1 / 2 * f t) volume 0 1 := (hf.const_mul _).intervalIntegrable _ _
  have i2 : IntervalIntegrable (fun t => 1 / 2 * g t) volume 0 1 := (hg.const_mul _).intervalIntegrable _ _
  rw [intervalIntegral.integral_sub (i1.add i2) (hh.intervalIntegrable _ _), intervalIntegral.integral_add i1 i2,
    intervalIntegral.integral_const_mul, intervalIntegral.integral_const_mul]

/-- `f_K` without grid is strictly convex in the current, hence in the coefficients. -/
theorem continuumFK_strict (P : CpParams) (hs : P.stellsym = true) (hnfp : P.surf.nfp ≠ 0) (hN : ∀ p t, P.N p t ≠ 0)
    (x y : Fin (cpNdofs P.stellsym P.mpol P.ntor).1 → ℝ) (hxy : x ≠ y) :
    continuumFK P (List.ofFn ((1 / 2 : ℝ) • (x + y))) < (continuumFK P (List.ofFn x) + continuumFK P (List.ofFn y)) / 2 := by
  have hc : ∀ c, Continuous fun q : ℝ × ℝ => (P.K c q.1 q.2).normSq / 2 * (P.N q.1 q.2).norm := by
    intro c
    have h1 := (K2_continuous P c hN).div_const 2
    exact h1.mul (P.N_C1.contV continuous_fst continuous_snd).norm
  have hcs : ∀ c p, Continuous fun t => (P.K c p t).normSq / 2 * (P.N p t).norm :=
    fun c p => Continuous.comp (g := fun q : ℝ × ℝ => (P.K c q.1 q.2).normSq / 2 * (P.N q.1 q.2).norm) (f := fun t : ℝ => (p, t))
      (hc c) (by fun_prop)
  have hci : ∀ c, Continuous fun p => ∫ t in (0 : ℝ)..1, (P.K c p t).normSq / 2 * (P.N p t).norm := fun c =>
    intervalIntegral.continuous_parametric_intervalIntegral_of_continuous' (f := fun p t => (P.K c p t).normSq / 2 * (P.N p t).norm) (hc c) 0 1
  have emid : (1 / 2 : ℝ) • (x + y) = (1 / 2 : ℝ) • x + (1 - 1 / 2 : ℝ) • y := by
    rw [smul_add]
    norm_num
  rw [emid]
  set c := List.ofFn x with hcx
  set d := List.ofFn y with hdy
  set e := List.ofFn ((1 / 2 : ℝ) • x + (1 - 1 / 2 : ℝ) • y) with hee
  let D : ℝ → ℝ → ℝ := fun p t => (P.K c p t - P.K d p t).normSq / 8 * (P.N p t).norm
  have hD : ∀ p t, D p t = (1 / 2) * ((P.K c p t).normSq / 2 * (P.N p t).norm) + (1 / 2) * ((P.K d p t).normSq / 2 * (P.N p t).norm) -
      (P.K e p t).normSq / 2 * (P.N p t).norm := by
    intro p t
    simp only [D]
    rw [hee, K_ofFn_comb, ← hcx, ← hdy]
    simp only [V3.normSq, V3.sub_x, V3.sub_y, V3.sub_z, V3.add_x, V3.add_y, V3.add_z, V3.smul_x, V3.smul_y, V3.smul_z]
    ring
  have hDc : Continuous fun q : ℝ × ℝ => D q.1 q.2 := by
    simp only [hD]
    exact (((hc c).const_mul _).add ((hc d).const_mul _)).sub (hc e)
  have hint : ∫ p in (0 : ℝ)..1, ∫ t in (0 : ℝ)..1, D p t =
      (continuumFK P c + continuumFK P d) / 2 - continuumFK P e := by
    have inner : ∀ p, ∫ t in (0 : ℝ)..1, D p t =
        (1 / 2) * (∫ t in (0 : ℝ)..1, (P.K c p t).normSq / 2 * (P.N p t).norm) +
        (1 / 2) * (∫ t in (0 : ℝ)..1, (P.K d p t).normSq / 2 * (P.N p t).norm) -
        ∫ t in (0 : ℝ)..1, (P.K e p t).normSq / 2 * (P.N p t).norm := by
      intro p
      simp only [hD]
      exact integral_lin (hcs c p) (hcs d p) (hcs e p)
    simp only [inner]
    rw [integral_lin (hci c) (hci d) (hci e)]
    simp only [continuumFK]
    ring
  have hNn : ∀ p t, 0 < (P.N p t).norm := fun p t => (V3.norm_pos_iff _).2 (hN p t)
  have hpos : 0 < ∫ p in (0 : ℝ)..1, ∫ t in (0 : ℝ)..1, D p t := by
    obtain ⟨q, hq, hne⟩ : ∃ q ∈ periodGrid P (2 * P.ntor + 1) (2 * P.mpol + 1), P.K c q.1 q.2 ≠ P.K d q.1 q.2 := by
      by_contra hcon
      push Not at hcon
      have := C113_current_determines_coefficients P hs hnfp (A := 2 * P.ntor + 1) (B := 2 * P.mpol + 1) (by omega) (by omega)
        (fun q _ => hN q.1 q.2) c d (by simp [hcx]) (by simp [hdy]) hcon
      exact hxy (List.ofFn_injective this)
    rw [periodGrid, gridPoints] at hq
    simp only [List.mem_flatMap, List.mem_map] at hq
    obtain ⟨p, hp, t, ht, rfl⟩ := hq
    have h1 : (1 : ℝ) / P.surf.nfp ≤ 1 := by
      have : (1 : ℝ) ≤ P.surf.nfp := by exact_mod_cast Nat.one_le_iff_ne_zero.2 hnfp
      rw [div_le_one (by linarith)]
      exact this
    have hp' := mem_linspace0 (by positivity : (0 : ℝ) ≤ 1 / P.surf.nfp) hp
    refine double_integral_pos hDc (fun p t => ?_) (p := p) (t := t) ⟨hp'.1, hp'.2.trans h1⟩ (mem_linspace0 zero_le_one ht) ?_
    · have := V3.normSq_nonneg (P.K c p t - P.K d p t)
      have := (hNn p t).le
      positivity
    · have h2 : 0 < (P.K c p t - P.K d p t).norm := (V3.norm_pos_iff _).2 (sub_ne_zero_V3 fun h => hne h.symm)
      have h3 : 0 < (P.K c p t - P.K d p t).normSq := by
        rw [V3.norm] at h2
        exact Real.sqrt_pos.1 h2
      have := hNn p t
      simp only [D]
      positivity
  rw [hint] at hpos
  linarith

/-- **C118.** Let the winding, evaluation and plasma grids be refined together. The problem without grids has exactly one
minimiser, the computed minimisers tend to its coefficients, and the computed optimal values tend to its value. -/
theorem C118_minimisers_converge {Q : ℕ → FieldProblem} {P : CpParams} {S : SurfaceShape} {pd : List ℝ} {b : ℝ → ℝ → ℝ}
    (H : Refinement Q P S pd b) (hs : P.stellsym = true) (hnfp : P.surf.nfp ≠ 0) (hN : ∀ p t, P.N p t ≠ 0)
    (hS : ∀ p t, S.normal pd p t ≠ 0) (hoff : ∀ p' t' p t, P.surf.gamma P.wdofs p' t' ≠ S.gamma pd p t)
    (hbc : Continuous fun q : ℝ × ℝ => b q.1 q.2) (w : ℝ) (hw : 0 < w) :
    ∃ c, IsBest (continuumObjective P S pd b w) (cpNdofs P.stellsym P.mpol P.ntor).1 c ∧
      (∀ d, IsBest (continuumObjective P S pd b w) (cpNdofs P.stellsym P.mpol P.ntor).1 d → d = c) ∧
      ∀ u : ℕ → List ℝ, (∀ k, IsBest (regObjective (Q k) w) (cpNdofs P.stellsym P.mpol P.ntor).1 (u k)) →
        (∀ i, Tendsto (fun k => (u k).getD i 0) atTop (𝓝 (c.getD i 0))) ∧
        Tendsto (fun k => regObjective (Q k) w (u k)) atTop (𝓝 (continuumObjective P S pd b w c)) := by
  set L := (cpNdofs P.stellsym P.mpol P.ntor).1 with hL
  have hlim : ∀ (v : ℝ) (x : Fin L → ℝ), Tendsto (fun k => regObjective (Q k) v (List.ofFn x)) atTop
      (𝓝 (continuumObjective P S pd b v (List.ofFn x))) := fun v x =>
    (C118_f_B_limit H hnfp _ hN hS hoff hbc).add
      ((C110_f_K_limit Q P hnfp H.m H.n H.cp H.wPhis H.wThetas H.ePhis H.eThetas H.hm H.hn _ hN).const_mul v)
  have hquad : ∀ k, IsQuad fun x : Fin L → ℝ => regObjective (Q k) w (List.ofFn x) := by
    intro k
    simp only [regObjective_eq]
    exact IsQuad.list_sum _ (regTerms_affine (Q k) w L)
  have hsteps : ∀ᶠ k in atTop, 0 ≤ gridStep (Q k).plasma.phis * gridStep (Q k).plasma.thetas ∧
      0 ≤ gridStep (Q k).ePhis * gridStep (Q k).eThetas := by
    filter_upwards [H.ha.eventually_ge_atTop 2, H.hd.eventually_ge_atTop 2, H.hm.eventually_ge_atTop 2,
      H.hn.eventually_ge_atTop 2] with k h1 h2 h3 h4
    constructor
    · rw [H.plasma]
      show 0 ≤ gridStep (linspace0 _ _) * gridStep (linspace0 _ _)
      rw [gridStep_linspace0 _ _ h1, gridStep_linspace0 _ _ h2]
      positivity
    · rw [H.eThetas, H.ePhis, H.wPhis, H.wThetas, defaultEvalPhi, linspace0_length, Nat.mul_div_cancel_left _ (Nat.pos_of_ne_zero hnfp),
        linspace0_take _ _ hnfp, gridStep_linspace0 _ _ h3, gridStep_linspace0 _ _ h4]
      positivity
  have hconv : ∀ v : ℝ, 0 ≤ v → ∀ᶠ k in atTop, ∀ (x y : Fin L → ℝ) (a : ℝ), 0 ≤ a → a ≤ 1 →
      regObjective (Q k) v (List.ofFn (a • x + (1 - a) • y)) ≤
        a * regObjective (Q k) v (List.ofFn x) + (1 - a) * regObjective (Q k) v (List.ofFn y) := by
    intro v hv
    filter_upwards [hsteps] with k hk x y a h0 h1
    exact regObjective_convex (Q k) v hv hk.1 hk.2 x y a h0 h1
  have hFB : ∀ x y : Fin L → ℝ, continuumFB P S pd b (List.ofFn ((1 / 2 : ℝ) • (x + y))) ≤
      (continuumFB P S pd b (List.ofFn x) + continuumFB P S pd b (List.ofFn y)) / 2 := by
    intro x y
    have h1 := hlim 0 ((1 / 2 : ℝ) • (x + y))
    have h2 := ((hlim 0 x).add (hlim 0 y)).div_const 2
    simp only [continuumObjective, zero_mul, add_zero] at h1 h2
    refine le_of_tendsto_of_tendsto h1 h2 ?_
    filter_upwards [hconv 0 le_rfl] with k hk
    have := hk x y (1 / 2) (by norm_num) (by norm_num)
    have e : (1 / 2 : ℝ) • x + (1 - 1 / 2 : ℝ) • y = (1 / 2 : ℝ) • (x + y) := by
      rw [smul_add]
      norm_num
    rw [e] at this
    linarith
  have hstrict : ∀ x y : Fin L → ℝ, x ≠ y → continuumObjective P S pd b w (List.ofFn ((1 / 2 : ℝ) • (x + y))) <
      (continuumObjective P S pd b w (List.ofFn x) + continuumObjective P S pd b w (List.ofFn y)) / 2 := by
    intro x y hxy
    have h1 := hFB x y
    have h2 := mul_lt_mul_of_pos_left (continuumFK_strict P hs hnfp hN x y hxy) hw
    simp only [continuumObjective]
    linarith
  have hqlim := IsQuad.limit hquad (hlim w)
  obtain ⟨x, hx, hu⟩ := hqlim.exists_unique hstrict
  refine ⟨List.ofFn x, (isBest_iff x).2 hx, fun d hd => ?_, fun u huu => ?_⟩
  · obtain ⟨y, rfl⟩ := eq_ofFn d hd.1
    rw [hu y ((isBest_iff y).1 hd)]
  · choose v hv using fun k => eq_ofFn (u k) (huu k).1
    have hmin : ∀ k (y : Fin L → ℝ), regObjective (Q k) w (List.ofFn (v k)) ≤ regObjective (Q k) w (List.ofFn y) := by
      intro k
      have := huu k
      rw [hv k] at this
      exact (isBest_iff (v k)).1 this
    have hlt : ∀ y, y ≠ x → continuumObjective P S pd b w (List.ofFn x) < continuumObjective P S pd b w (List.ofFn y) := by
      intro y hy
      rcases (hx y).lt_or_eq with h | h
      · exact h
      · refine absurd (hu y fun z => ?_) hy
        rw [← h]
        exact hx z
    obtain ⟨r1, r2⟩ := IsQuad.minimisers hquad (hconv w hw.le) (hlim w) hlt (Eventually.of_forall hmin)
    constructor
    · intro i
      by_cases hi : i < L
      · have := (tendsto_pi_nhds.1 r1) ⟨i, hi⟩
        refine (this.congr fun k => ?_).trans (le_of_eq ?_)
        · rw [hv k, List.getD_eq_getElem _ _ (by simpa using hi)]
          simp
        · rw [List.getD_eq_getElem _ _ (by simpa using hi)]
          simp
      · have e : ∀ z : Fin L → ℝ, (List.ofFn z).getD i 0 = 0 := by
          intro z
          rw [List.getD_eq_default _ _ (by simp; omega)]
        simp only [hv, e]
        exact tendsto_const_nhds
    · refine r2.congr fun k => ?_
      rw [hv k]

/-! ## A case: a torus around a thinner one -/

/-- A plasma of radius 1/2 with a field of its own inside the circular torus, all grids with `k` points in each angle. -/
noncomputable def innerProblem (k : ℕ) : FieldProblem :=
  ⟨circularTorus, linspace0 1 (1 * k), linspace0 1 k, defaultEvalPhi 1 (linspace0 1 (1 * k)), linspace0 1 k,
    ⟨circularTorus.surf, [2, 1 / 2, 1 / 2], linspace0 (1 / (1 : ℕ)) k, linspace0 1 k⟩,
    (gridPoints (linspace0 (1 / (1 : ℕ)) k) (linspace0 1 k)).map fun q => Real.cos q.2⟩

noncomputable def innerRefinement : Refinement innerProblem circularTorus circularTorus.surf [2, 1 / 2, 1 / 2] (fun _ t => Real.cos t) where
  m := fun k => k
  n := fun k => k
  a := fun k => k
  d := fun k => k
  cp := fun _ => rfl
  wPhis := fun _ => rfl
  wThetas := fun _ => rfl
  ePhis := fun _ => rfl
  eThetas := fun _ => rfl
  plasma := fun _ => rfl
  bPlasma := fun _ => rfl
  hm := tendsto_id
  hn := tendsto_id
  ha := tendsto_id
  hd := tendsto_id

example : ∃ c, IsBest (continuumObjective circularTorus circularTorus.surf [2, 1 / 2, 1 / 2] (fun _ t => Real.cos t) 3) 1 c ∧
    ∀ u : ℕ → List ℝ, (∀ k, IsBest (regObjective (innerProblem k) 3) 1 (u k)) →
      Tendsto (fun k => (u k).getD 0 0) atTop (𝓝 (c.getD 0 0)) := by
  obtain ⟨c, h1, -, h2⟩ := C118_minimisers_converge innerRefinement rfl (by decide) (fun p t => (circularTorus_regular p t).1)
    (fun p t => torus_normal 2 (1 / 2) p t (by norm_num) (by norm_num))
    (fun p' t' p t => torus_disjoint 2 1 (1 / 2) p' t' p t (by norm_num) (by norm_num) (by norm_num) (by norm_num) (by norm_num))
    (by fun_prop) 3 (by norm_num)
  exact ⟨c, h1, fun u hu => (h2 u hu).1 0⟩

end Verif
