import Verif.Props.GenerateSmooth
import Verif.Props.SurfaceUnique
import Verif.Props.AxisymmetricArc
import Verif.Props.CallExamples

/-!
# The generated winding surface of a circular torus is regular for small distances
-/

namespace Verif

open Real Filter Topology

theorem add_zero_smul_V3 (v w : V3) : v + (0 : ℝ) • w = v := by
  ext <;> simp

/-- Two sets of plasma points that agree on the grid have the same approximate normals. -/
theorem normalApprox_congr {nfp nPhi nTheta : ℕ} {g g' : ℕ → ℕ → V3} (h : ∀ i < nPhi, ∀ j < nTheta, g i j = g' i j) {i j : ℕ} (hi : i < nPhi)
    (hj : j < nTheta) : (⟨nfp, nPhi, nTheta, g⟩ : PlasmaGrid).normalApprox i j = (⟨nfp, nPhi, nTheta, g'⟩ : PlasmaGrid).normalApprox i j := by
  have hm : (j + nTheta - 1) % nTheta < nTheta := Nat.mod_lt _ (by omega)
  simp only [PlasmaGrid.normalApprox, PlasmaGrid.deltaTheta, PlasmaGrid.deltaPhi]
  rw [h i hi j hj, h i hi _ hm, h 0 (by omega) j hj]
  by_cases hc : i + 1 < nPhi
  · rw [if_pos hc, if_pos hc, h _ hc j hj]
  · rw [if_neg hc, if_neg hc]

theorem torus_normal_ne_zero {nfp nPhi nTheta : ℕ} (hf : 0 < nfp) {R r : ℝ} (hr : 0 < r) (hR : r < R) (hN : 3 ≤ nPhi) (hn : 3 ≤ nTheta) {i j : ℕ}
    (hi : i < nPhi) (hj : j < nTheta) : (torusGrid nfp nPhi nTheta R r).normalApprox i j ≠ 0 := by
  have hfr : (1 : ℝ) ≤ nfp := by exact_mod_cast hf
  have hNr : (3 : ℝ) ≤ nPhi := by exact_mod_cast hN
  have hnr : (3 : ℝ) ≤ nTheta := by exact_mod_cast hn
  have hNf : (3 : ℝ) ≤ nfp * nPhi := by nlinarith
  have h3 : π / (nfp * nPhi) ≤ π / 3 := div_le_div_of_nonneg_left pi_pos.le (by norm_num) hNf
  have h0 : 0 < π / (nfp * nPhi) := div_pos pi_pos (by linarith)
  have hc : 0 < cos (π / (nfp * nPhi)) := cos_pos_of_mem_Ioo ⟨by linarith [pi_pos], by linarith [pi_pos]⟩
  have hs : 0 < sin (2 * π / (nfp * nPhi)) := by
    rw [mul_div_assoc]
    exact sin_pos_of_pos_of_lt_pi (by linarith) (by linarith [pi_pos])
  have hs2 : 0 < sin (π / nTheta) := sin_pos_of_pos_of_lt_pi (div_pos pi_pos (by linarith)) (div_lt_self pi_pos (by linarith))
  have hpos : 0 < R + r * cos (2 * π * j / nTheta) := by nlinarith [neg_one_le_cos (2 * π * j / nTheta)]
  rw [torus_normal_frame hf R r hi hj hc.ne']
  intro h
  have hk : (R + r * cos (2 * π * j / nTheta)) * sin (2 * π / (nfp * nPhi)) * (2 * r * sin (π / nTheta)) ≠ 0 := by positivity
  have hz := congrArg V3.z h
  have hx := congrArg V3.x h
  have hy := congrArg V3.y h
  simp only [rotMatrixApply, V3.smul_x, V3.smul_y, V3.smul_z, V3.zero_x, V3.zero_y, V3.zero_z, mul_eq_zero, hk, false_or] at hx hy hz
  generalize 2 * π * (i : ℝ) / (nfp * nPhi) = φ at *
  generalize 2 * π * (j : ℝ) / nTheta - π / nTheta = α at *
  have hcos : cos α = 0 := by
    have h1 := sin_sq_add_cos_sq φ
    linear_combination (cos φ) * hx + (sin φ) * hy - cos α * h1
  have := sin_sq_add_cos_sq α
  rw [hz, hcos] at this
  norm_num at this

section

variable {nfp nPhi nTheta : ℕ} {g : ℕ → ℕ → V3} {R r : ℝ}

/-- At distance zero the samples are those of the torus. -/
theorem zero_samples (h : ∀ i < nPhi, ∀ j < nTheta, g i j = (torusGrid nfp nPhi nTheta R r).gamma i j) (sym : Bool) :
    (⟨nfp, nPhi, nTheta, g⟩ : PlasmaGrid).offsetSamples none 0 sym =
      (torusGrid nfp nPhi nTheta R r).offsetSamples (some (torusNormals nfp nPhi nTheta)) 0 sym := by
  have hrows : (⟨nfp, nPhi, nTheta, g⟩ : PlasmaGrid).offsetRows sym ≤ nPhi := by
    simp only [PlasmaGrid.offsetRows]
    split_ifs <;> omega
  simp only [PlasmaGrid.offsetSamples, List.flatMap]
  refine congrArg List.flatten (List.map_congr_left fun i hi => List.map_congr_left fun j hj => ?_)
  have hi' := List.mem_range.1 hi
  have hj' := List.mem_range.1 hj
  have e : (⟨nfp, nPhi, nTheta, g⟩ : PlasmaGrid).offsetWith none 0 i j =
      (torusGrid nfp nPhi nTheta R r).offsetWith (some (torusNormals nfp nPhi nTheta)) 0 i j := by
    simp only [PlasmaGrid.offsetWith, PlasmaGrid.offset, add_zero_smul_V3]
    exact h i (by omega) j hj'
  simp only [PlasmaGrid.offsetSample]
  rw [e]
  rfl

theorem torus_regular_offset (hf : 0 < nfp) (hr : 0 < r) (hR : r < R) (hN : 3 ≤ nPhi) (hn : 3 ≤ nTheta)
    (h : ∀ i < nPhi, ∀ j < nTheta, g i j = (torusGrid nfp nPhi nTheta R r).gamma i j) {sym : Bool} {mpol ntor : ℕ} (hm : 1 ≤ mpol)
    (hres : Resolves sym nPhi nTheta mpol ntor) : RegularOffset ⟨nfp, nPhi, nTheta, g⟩ 0 sym mpol ntor ∧
      ∀ x, IsOffsetResult ⟨nfp, nPhi, nTheta, g⟩ none 0 sym mpol ntor x → IsTorus ⟨nfp, sym, mpol, ntor⟩ x R r := by
  have hrows : (⟨nfp, nPhi, nTheta, g⟩ : PlasmaGrid).offsetRows sym ≤ nPhi := by
    simp only [PlasmaGrid.offsetRows]
    split_ifs <;> omega
  have habs : |r + 0| < R := by rwa [add_zero, abs_of_pos hr]
  obtain ⟨⟨x, hx⟩, hall⟩ := C147_offset_exact_normals hf.ne' habs sym hm hres
  have hres' : ∀ y, IsOffsetResult ⟨nfp, nPhi, nTheta, g⟩ none 0 sym mpol ntor y ↔
      IsOffsetResult (torusGrid nfp nPhi nTheta R r) (some (torusNormals nfp nPhi nTheta)) 0 sym mpol ntor y := by
    intro y
    unfold IsOffsetResult
    rw [zero_samples h]
    rfl
  have htor : ∀ y, IsOffsetResult ⟨nfp, nPhi, nTheta, g⟩ none 0 sym mpol ntor y → IsTorus ⟨nfp, sym, mpol, ntor⟩ y R r := by
    intro y hy
    have := hall y ((hres' y).1 hy)
    rwa [add_zero] at this
  refine ⟨⟨fun i hi j hj => ?_, fun i hi j hj => ?_, x, (hres' x).2 hx, fun y hy => ?_⟩, htor⟩
  · rw [normalApprox_congr h (by omega) hj]
    exact torus_normal_ne_zero hf hr hR hN hn (by omega) hj
  · have e : (⟨nfp, nPhi, nTheta, g⟩ : PlasmaGrid).offset 0 i j = (torusGrid nfp nPhi nTheta R r).gamma i j := by
      simp only [PlasmaGrid.offset, add_zero_smul_V3]
      exact h i (by omega) j hj
    have hpos : 0 < R + r * cos (2 * π * j / nTheta) := by nlinarith [neg_one_le_cos (2 * π * j / nTheta)]
    rw [e]
    simp only [torusGrid, revolutionGrid, revolve]
    by_contra hcon
    push Not at hcon
    have h1 := (mul_eq_zero.1 hcon.1).resolve_left hpos.ne'
    have h2 := (mul_eq_zero.1 hcon.2).resolve_left hpos.ne'
    have := sin_sq_add_cos_sq (2 * π * (i : ℝ) / (nfp * nPhi))
    rw [h1, h2] at this
    norm_num at this
  · have h1 := htor y hy
    have h2 := htor x ((hres' x).2 hx)
    exact SurfaceShape.coefficients_unique (S := ⟨nfp, sym, mpol, ntor⟩) hf.ne' fun p t => ⟨by rw [(h1 p t).1, (h2 p t).1],
      by rw [(h1 p t).2, (h2 p t).2]⟩

end

theorem regularPolygon_isSimple (R : ℝ) {ρ : ℝ} (hρ : 0 < ρ) {n : ℕ} (hn : 3 ≤ n) : SimplePolygon n (regularPolygon R ρ n) := by
  refine ⟨fun j hj he => ?_, fun a b ha hb h1 h2 h3 => regularPolygon_simple R ρ hρ hn a b ha hb h1 h2 h3⟩
  have h := regularPolygon_edge R ρ hρ (by omega : 2 ≤ n) hj
  have hn' : (3 : ℝ) ≤ n := by exact_mod_cast hn
  have hs : 0 < sin (π / n) := sin_pos_of_pos_of_lt_pi (by positivity) (div_lt_self pi_pos (by linarith))
  rw [edgeLength, ← he] at h
  simp only [sub_self] at h
  norm_num at h
  rcases h with h | h <;> linarith

theorem torus_regular_sections {S : SurfaceShape} {x : Fin S.fitSize → ℝ} {R r : ℝ} (hr : 0 < r) (hR : r < R) (hx : IsTorus S x R r)
    {nPhi nTheta tor pol : ℕ} (hN : 3 ≤ nPhi) (hn : 3 ≤ nTheta) (ht : 0 < tor) (hp : 0 < pol) :
    RegularSections S (List.ofFn x) nPhi nTheta tor pol := by
  have hs := sectionPoint_torus (by rwa [abs_of_pos hr]) hx nPhi nTheta tor pol
  have h1 : nPhi ≤ nPhi * tor := Nat.le_mul_of_pos_right _ ht
  have h2 : nTheta ≤ nTheta * pol := Nat.le_mul_of_pos_right _ hp
  refine ⟨?_, by omega, fun i _ j _ => ?_, fun i _ => ?_⟩
  · rw [interpRows]
    split_ifs <;> omega
  · rw [hs]
    simp only [regularPolygon]
    nlinarith [neg_one_le_cos (2 * π * ((j : ℝ) / (nTheta * pol : ℕ)))]
  · rw [hs]
    exact regularPolygon_isSimple R hr (by omega)

/-- The plasma surface of a call is a circular torus, sampled on the default grid. -/
structure TorusPlasma (a : CallArgs) (R r : ℝ) : Prop where
  nfp : 0 < a.nfp
  phi : a.plasmaQuadpointsPhi = none
  theta : a.plasmaQuadpointsTheta = none
  minor : 0 < r
  major : r < R
  surface : ∀ p t, a.plasmaShape.gamma a.plasmaDofs p t = revolve (2 * π * p) (R + r * cos (2 * π * t), r * sin (2 * π * t))
  mpol : 1 ≤ a.windingMpol ∧ a.windingMpol ≤ 16
  ntor : a.windingNtor ≤ 15

/-- **C154 (torus).** For a circular torus the generated surface is regular at distance zero. -/
theorem C154_torus_regular {a : CallArgs} {R r : ℝ} (h : TorusPlasma a R r) (hd : a.plasmaCoilDistance = some 0) : a.RegularGenerator := by
  have hlen : a.plasmaGamma.length = 32 := by
    simp [CallArgs.plasmaGamma, CallArgs.pPhi, h.phi, defaultPlasmaPhi, linspace0]
  have hrow : (a.plasmaGamma.headD []).length = 34 := by
    simp [CallArgs.plasmaGamma, CallArgs.pPhi, CallArgs.pTheta, h.phi, h.theta, defaultPlasmaPhi, defaultTheta, linspace0, List.range_succ_eq_map]
  have hgam : ∀ i < 32, ∀ j < 34, (a.plasmaGamma.getD i []).getD j 0 = (torusGrid a.nfp 32 34 R r).gamma i j := by
    intro i hi j hj
    have e : (a.plasmaGamma.getD i []).getD j 0 = a.plasmaShape.gamma a.plasmaDofs ((i : ℝ) * (1 / a.nfp / 32)) ((j : ℝ) * (1 / 34)) := by
      simp [CallArgs.plasmaGamma, CallArgs.pPhi, CallArgs.pTheta, h.phi, h.theta, defaultPlasmaPhi, defaultTheta, linspace0,
        List.getD_eq_getElem?_getD, hi, hj]
    rw [e, h.surface]
    simp only [torusGrid, revolutionGrid]
    push_cast
    rw [show 2 * π * ((i : ℝ) * (1 / a.nfp / 32)) = 2 * π * i / (a.nfp * 32) by rw [div_div, ← mul_assoc, mul_one_div],
      show 2 * π * ((j : ℝ) * (1 / 34)) = 2 * π * j / 34 by ring]
  have hres : Resolves a.plasmaStellsym 32 34 a.windingMpol a.windingNtor := by
    refine ⟨by have := h.mpol.2; omega, ?_⟩
    have := h.ntor
    split_ifs <;> omega
  have hG : gridOf a.nfp a.plasmaGamma = ⟨a.nfp, 32, 34, fun i j => (a.plasmaGamma.getD i []).getD j 0⟩ := by
    rw [gridOf, hlen, hrow]
  obtain ⟨h1, h2⟩ := torus_regular_offset h.nfp h.minor h.major (by norm_num) (by norm_num) hgam h.mpol.1 hres
  constructor
  · intro d hd'
    rw [hd] at hd'
    cases hd'
    rw [hG]
    exact h1
  · intro d hd'
    rw [hd] at hd'
    cases hd'
    obtain ⟨x, hx, hu⟩ := h1.unique
    have e : offsetGenerator a.plasmaGamma 0 a.nfp a.plasmaStellsym a.windingMpol a.windingNtor = List.ofFn x := by
      simp only [offsetGenerator]
      rw [hG]
      exact congrArg List.ofFn (fitSolve_eq ⟨hx, fun y hy => le_of_eq (by rw [hu y hy])⟩)
    rw [e, hlen, hrow]
    exact torus_regular_sections h.minor h.major (h2 x hx) (by norm_num) (by norm_num) (by norm_num) (by norm_num)

theorem SmoothList.eventually {E : Type} [NormedAddCommGroup E] [NormedSpace ℝ E] {l : E → List ℝ} {e0 : E} (h : SmoothList 2 l e0) :
    ∀ᶠ e in 𝓝 e0, SmoothList 2 l e := by
  obtain ⟨fs, h1, h2⟩ := h
  have h3 : ∀ gs : List (E → ℝ), (∀ f ∈ gs, ContDiffAt ℝ 2 f e0) → ∀ᶠ e in 𝓝 e0, ∀ f ∈ gs, ContDiffAt ℝ 2 f e := by
    intro gs
    induction gs with
    | nil => simp
    | cons f gs ih =>
      intro hall
      filter_upwards [(hall f List.mem_cons_self).eventually (by decide), ih fun g hg => hall g (List.mem_cons_of_mem _ hg)] with e a1 a2
      intro g hg
      rcases List.mem_cons.1 hg with rfl | hg
      · exact a1
      · exact a2 g hg
  filter_upwards [h3 fs h2] with e he
  exact ⟨fs, h1, he⟩

/-- **C154 (torus).** With a circular torus as plasma the default generator is smooth at all small distances. -/
theorem C154_torus {a : CallArgs} {R r : ℝ} (h : TorusPlasma a R r) (hg : a.generator = defaultGenerator) :
    ∃ δ > 0, ∀ d, |d| < δ → SmoothGenerator { a with plasmaCoilDistance := some d } := by
  have h0 : TorusPlasma { a with plasmaCoilDistance := some 0 } R r :=
    ⟨h.nfp, h.phi, h.theta, h.minor, h.major, h.surface, h.mpol, h.ntor⟩
  have hs := C154_call (a := { a with plasmaCoilDistance := some 0 }) hg (C154_torus_regular h0 rfl) 0 rfl
  have hev := hs.eventually
  obtain ⟨δ, hδ, hball⟩ := Metric.eventually_nhds_iff.1 hev
  refine ⟨δ, hδ, fun d hd d' hd' => ?_⟩
  cases hd'
  refine hball ?_
  rw [Prod.dist_eq]
  simpa using hd

/-- The call with a generated winding surface. -/
noncomputable def generatedTorusCall : CallArgs := { torusCall 0 with
  generator := defaultGenerator
  windingDofs := none
  plasmaCoilDistance := some 0 }

theorem generatedTorusCall_plasma : TorusPlasma generatedTorusCall 2 (1 / 2) where
  nfp := one_pos
  phi := rfl
  theta := rfl
  minor := by norm_num
  major := by norm_num
  surface p t := by
    exact torus_gamma 2 (1 / 2) p t
  mpol := ⟨le_rfl, by norm_num [generatedTorusCall, torusCall]⟩
  ntor := Nat.zero_le _

example : ∃ δ > 0, ∀ d, |d| < δ → SmoothGenerator { generatedTorusCall with plasmaCoilDistance := some d } :=
  C154_torus generatedTorusCall_plasma rfl

end Verif
