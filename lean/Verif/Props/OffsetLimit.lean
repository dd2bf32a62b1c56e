import Verif.Props.WindingSurface
import Verif.Props.OffsetNormal
import Verif.Props.BiotSavart
import Verif.Lemmas.Scaling
import Mathlib.Analysis.Calculus.ContDiff.RCLike

/-!
# C146: the offset surface on fine and on coarse plasma grids
-/

namespace Verif

open Real Filter Topology

/-! ## Fine grids -/

/-- Difference quotients along moving base points. -/
theorem diffQuot_tendsto {f : ℝ × ℝ → ℝ} (hf : ContDiff ℝ 1 f) {q : ℝ × ℝ} {b : ℕ → ℝ × ℝ} {h : ℕ → ℝ} (v : ℝ × ℝ)
    (hb : Tendsto b atTop (𝓝 q)) (hh : Tendsto h atTop (𝓝 0)) (hne : ∀ᶠ k in atTop, h k ≠ 0) :
    Tendsto (fun k => (f (b k + h k • v) - f (b k)) / h k) atTop (𝓝 (fderiv ℝ f q v)) := by
  have hs := hf.contDiffAt.hasStrictFDerivAt (x := q) (by norm_num)
  have hb2 : Tendsto (fun k => (b k + h k • v, b k)) atTop (𝓝 (q, q)) := by
    rw [nhds_prod_eq]
    have : Tendsto (fun k => b k + h k • v) atTop (𝓝 (q + (0 : ℝ) • v)) := hb.add (hh.smul_const v)
    rw [zero_smul, add_zero] at this
    exact this.prodMk hb
  have ho := hs.isLittleO.comp_tendsto hb2
  have ho2 : (fun k => f (b k + h k • v) - f (b k) - h k * fderiv ℝ f q v) =o[atTop] h := by
    have e : (fun k => f (b k + h k • v) - f (b k) - h k * fderiv ℝ f q v) =
        (fun p : (ℝ × ℝ) × (ℝ × ℝ) => f p.1 - f p.2 - fderiv ℝ f q (p.1 - p.2)) ∘ fun k => (b k + h k • v, b k) := by
      funext k
      simp
    rw [e]
    refine ho.trans_isBigO ?_
    refine Asymptotics.IsBigO.of_bound ‖v‖ (Eventually.of_forall fun k => ?_)
    simp only [Function.comp_apply, add_sub_cancel_left, norm_smul]
    rw [mul_comm]
  have h0 := ho2.tendsto_div_nhds_zero
  have h1 := h0.add_const (fderiv ℝ f q v)
  rw [zero_add] at h1
  refine h1.congr' ?_
  filter_upwards [hne] with k hk
  field_simp
  ring

theorem TendstoV3.cross {u v : ℕ → V3} {a b : V3} (hu : TendstoV3 u a) (hv : TendstoV3 v b) :
    TendstoV3 (fun k => V3.cross (u k) (v k)) (V3.cross a b) :=
  ⟨(hu.2.1.mul hv.2.2).sub (hu.2.2.mul hv.2.1), (hu.2.2.mul hv.1).sub (hu.1.mul hv.2.2), (hu.1.mul hv.2.1).sub (hu.2.1.mul hv.1)⟩

theorem TendstoV3.smul {s : ℕ → ℝ} {u : ℕ → V3} {t : ℝ} {a : V3} (hs : Tendsto s atTop (𝓝 t)) (hu : TendstoV3 u a) :
    TendstoV3 (fun k => s k • u k) (t • a) := ⟨hs.mul hu.1, hs.mul hu.2.1, hs.mul hu.2.2⟩

theorem TendstoV3.add {u v : ℕ → V3} {a b : V3} (hu : TendstoV3 u a) (hv : TendstoV3 v b) :
    TendstoV3 (fun k => u k + v k) (a + b) := ⟨hu.1.add hv.1, hu.2.1.add hv.2.1, hu.2.2.add hv.2.2⟩

theorem TendstoV3.norm {u : ℕ → V3} {a : V3} (hu : TendstoV3 u a) : Tendsto (fun k => (u k).norm) atTop (𝓝 a.norm) := by
  unfold V3.norm V3.normSq
  exact (((hu.1.pow 2).add (hu.2.1.pow 2)).add (hu.2.2.pow 2)).sqrt

theorem TendstoV3.congr' {u v : ℕ → V3} {a : V3} (hu : TendstoV3 u a) (h : ∀ᶠ k in atTop, u k = v k) : TendstoV3 v a :=
  ⟨hu.1.congr' (h.mono fun k e => by rw [e]), hu.2.1.congr' (h.mono fun k e => by rw [e]), hu.2.2.congr' (h.mono fun k e => by rw [e])⟩

/-- The uniform samples of one field period of a surface. -/
noncomputable def sampled (S : SurfaceShape) (dofs : List ℝ) (nPhi nTheta : ℕ) : PlasmaGrid :=
  ⟨S.nfp, nPhi, nTheta, fun i j => S.gamma dofs ((i : ℝ) / (S.nfp * nPhi)) ((j : ℝ) / nTheta)⟩

theorem sampled_deltas (S : SurfaceShape) (dofs : List ℝ) (hn : S.nfp ≠ 0) {nPhi nTheta i j : ℕ} (hi : i < nPhi) (hj : j < nTheta) :
    (sampled S dofs nPhi nTheta).deltaPhi i j =
      S.gamma dofs ((i : ℝ) / (S.nfp * nPhi) + 1 / (S.nfp * nPhi)) ((j : ℝ) / nTheta) - S.gamma dofs ((i : ℝ) / (S.nfp * nPhi)) ((j : ℝ) / nTheta) ∧
    (sampled S dofs nPhi nTheta).deltaTheta i j =
      S.gamma dofs ((i : ℝ) / (S.nfp * nPhi)) ((j : ℝ) / nTheta + -(1 / nTheta)) - S.gamma dofs ((i : ℝ) / (S.nfp * nPhi)) ((j : ℝ) / nTheta) := by
  obtain ⟨e1, e2⟩ := C51_neighbours_on_surface S dofs hn nPhi nTheta (by omega) (by omega) i j hi hj
  constructor
  · have : (sampled S dofs nPhi nTheta).deltaPhi i j = toroidalNeighbour (sampled S dofs nPhi nTheta) i j -
      (sampled S dofs nPhi nTheta).gamma i j := rfl
    rw [this, show toroidalNeighbour (sampled S dofs nPhi nTheta) i j = _ from e1, ← add_div]
    rfl
  · have h : (sampled S dofs nPhi nTheta).deltaTheta i j = poloidalNeighbour (sampled S dofs nPhi nTheta) i j -
        (sampled S dofs nPhi nTheta).gamma i j := by
      have hnt : (sampled S dofs nPhi nTheta).nTheta = nTheta := rfl
      rw [PlasmaGrid.deltaTheta, poloidalNeighbour, hnt]
      split_ifs with h
      · subst h
        rw [zero_add, Nat.mod_eq_of_lt (by omega)]
      · rw [show j + nTheta - 1 = j - 1 + nTheta by omega, Nat.add_mod_right, Nat.mod_eq_of_lt (by omega)]
    rw [h, show poloidalNeighbour (sampled S dofs nPhi nTheta) i j = _ from e2,
      show (j : ℝ) / nTheta + -(1 / nTheta) = ((j : ℝ) - 1) / nTheta by ring]
    rfl

theorem gamma_quot_phi (S : SurfaceShape) (dofs : List ℝ) {p t : ℝ} {b : ℕ → ℝ × ℝ} {h : ℕ → ℝ} (hb : Tendsto b atTop (𝓝 (p, t)))
    (hh : Tendsto h atTop (𝓝 0)) (hne : ∀ᶠ k in atTop, h k ≠ 0) :
    TendstoV3 (fun k => (1 / h k) • (S.gamma dofs ((b k).1 + h k) (b k).2 - S.gamma dofs (b k).1 (b k).2)) (S.gammadash dofs 1 0 p t) := by
  obtain ⟨cx, cy, cz⟩ := S.gammadash_contDiff dofs 0 0
  obtain ⟨dx, dy, dz⟩ := C38_gammadash_phi S dofs 0 0 p t
  have hline : HasFDerivAt (fun u : ℝ => (u, t)) (ContinuousLinearMap.inl ℝ ℝ ℝ) p := hasFDerivAt_prodMk_left p t
  have key : ∀ {f : ℝ × ℝ → ℝ} {d : ℝ}, ContDiff ℝ 1 f → HasDerivAt (fun u => f (u, t)) d p →
      Tendsto (fun k => 1 / h k * (f ((b k).1 + h k, (b k).2) - f ((b k).1, (b k).2))) atTop (𝓝 d) := by
    intro f d hf hd
    have h1 := diffQuot_tendsto hf (1, 0) hb hh hne
    have h2 : fderiv ℝ f (p, t) (1, 0) = d := by
      have := ((hf.differentiable (by norm_num) (p, t)).hasFDerivAt.comp p hline).hasDerivAt
      simpa using this.unique hd
    rw [h2] at h1
    refine h1.congr fun k => ?_
    have e : b k + h k • ((1 : ℝ), (0 : ℝ)) = ((b k).1 + h k, (b k).2) := by
      ext <;> simp
    rw [e]
    ring
  refine ⟨?_, ?_, ?_⟩
  · simp only [V3.smul_x, V3.sub_x, SurfaceShape.gamma]
    exact key (f := fun x => (S.gammadash dofs 0 0 x.1 x.2).x) cx dx
  · simp only [V3.smul_y, V3.sub_y, SurfaceShape.gamma]
    exact key (f := fun x => (S.gammadash dofs 0 0 x.1 x.2).y) cy dy
  · simp only [V3.smul_z, V3.sub_z, SurfaceShape.gamma]
    exact key (f := fun x => (S.gammadash dofs 0 0 x.1 x.2).z) cz dz

theorem gamma_quot_theta (S : SurfaceShape) (dofs : List ℝ) {p t : ℝ} {b : ℕ → ℝ × ℝ} {h : ℕ → ℝ} (hb : Tendsto b atTop (𝓝 (p, t)))
    (hh : Tendsto h atTop (𝓝 0)) (hne : ∀ᶠ k in atTop, h k ≠ 0) :
    TendstoV3 (fun k => (1 / h k) • (S.gamma dofs (b k).1 ((b k).2 + h k) - S.gamma dofs (b k).1 (b k).2)) (S.gammadash dofs 0 1 p t) := by
  obtain ⟨cx, cy, cz⟩ := S.gammadash_contDiff dofs 0 0
  obtain ⟨dx, dy, dz⟩ := C38_gammadash_theta S dofs 0 0 p t
  have hline : HasFDerivAt (fun u : ℝ => (p, u)) (ContinuousLinearMap.inr ℝ ℝ ℝ) t := hasFDerivAt_prodMk_right p t
  have key : ∀ {f : ℝ × ℝ → ℝ} {d : ℝ}, ContDiff ℝ 1 f → HasDerivAt (fun u => f (p, u)) d t →
      Tendsto (fun k => 1 / h k * (f ((b k).1, (b k).2 + h k) - f ((b k).1, (b k).2))) atTop (𝓝 d) := by
    intro f d hf hd
    have h1 := diffQuot_tendsto hf (0, 1) hb hh hne
    have h2 : fderiv ℝ f (p, t) (0, 1) = d := by
      have := ((hf.differentiable (by norm_num) (p, t)).hasFDerivAt.comp t hline).hasDerivAt
      simpa using this.unique hd
    rw [h2] at h1
    refine h1.congr fun k => ?_
    have e : b k + h k • ((0 : ℝ), (1 : ℝ)) = ((b k).1, (b k).2 + h k) := by
      ext <;> simp
    rw [e]
    ring
  refine ⟨?_, ?_, ?_⟩
  · simp only [V3.smul_x, V3.sub_x, SurfaceShape.gamma]
    exact key (f := fun x => (S.gammadash dofs 0 0 x.1 x.2).x) cx dx
  · simp only [V3.smul_y, V3.sub_y, SurfaceShape.gamma]
    exact key (f := fun x => (S.gammadash dofs 0 0 x.1 x.2).y) cy dy
  · simp only [V3.smul_z, V3.sub_z, SurfaceShape.gamma]
    exact key (f := fun x => (S.gammadash dofs 0 0 x.1 x.2).z) cz dz

/-- The normal of the grid is minus the cross product of the two difference quotients, up to a positive factor. -/
theorem unitnormal_of_quotients {G : PlasmaGrid} {i j : ℕ} {a b : ℝ} (ha : 0 < a) (hb : b < 0) (A B : V3)
    (hA : (1 / a) • G.deltaPhi i j = A) (hB : (1 / b) • G.deltaTheta i j = B) :
    G.unitnormalApprox i j = (1 / (V3.cross A B).norm) • V3.cross A B := by
  have e1 : G.deltaPhi i j = a • A := by
    rw [← hA]; ext <;> simp only [V3.smul_x, V3.smul_y, V3.smul_z] <;> field_simp
  have e2 : G.deltaTheta i j = b • B := by
    have := hb.ne
    rw [← hB]; ext <;> simp only [V3.smul_x, V3.smul_y, V3.smul_z] <;> field_simp
  have e3 : G.normalApprox i j = (-(a * b)) • V3.cross A B := by
    rw [PlasmaGrid.normalApprox, e1, e2]
    ext <;> simp only [V3.cross, V3.smul_x, V3.smul_y, V3.smul_z] <;> ring
  have hab : 0 < -(a * b) := by nlinarith
  rw [PlasmaGrid.unitnormalApprox, e3, V3.norm_smul_pos _ hab]
  have hb0 := hb.ne
  have ha0 := ha.ne'
  by_cases hz : (V3.cross A B).norm = 0
  · rw [hz]; ext <;> simp
  · ext <;> simp only [V3.smul_x, V3.smul_y, V3.smul_z] <;> field_simp

/-- **C146, fine grids.** When the plasma grid is refined, the points of the offset surface near any regular point of the plasma tend to
the point at the requested distance along the unit normal of the plasma. -/
theorem C146_offset_limit (S : SurfaceShape) (dofs : List ℝ) (hn : S.nfp ≠ 0) (d : ℝ) {p t : ℝ} (hreg : S.normal dofs p t ≠ 0)
    {m n i j : ℕ → ℕ} (hm : Tendsto m atTop atTop) (hnt : Tendsto n atTop atTop) (hi : ∀ k, i k < m k) (hj : ∀ k, j k < n k)
    (hp : Tendsto (fun k => (i k : ℝ) / (S.nfp * m k)) atTop (𝓝 p)) (ht : Tendsto (fun k => (j k : ℝ) / n k) atTop (𝓝 t)) :
    TendstoV3 (fun k => (sampled S dofs (m k) (n k)).offset d (i k) (j k))
      (S.gamma dofs p t + d • ((1 / (S.normal dofs p t).norm) • S.normal dofs p t)) := by
  have hnf : (0 : ℝ) < S.nfp := by exact_mod_cast Nat.pos_of_ne_zero hn
  have hm0 : ∀ k, (0 : ℝ) < m k := fun k => by exact_mod_cast (Nat.zero_le _).trans_lt (hi k)
  have hn0 : ∀ k, (0 : ℝ) < n k := fun k => by exact_mod_cast (Nat.zero_le _).trans_lt (hj k)
  set b : ℕ → ℝ × ℝ := fun k => ((i k : ℝ) / (S.nfp * m k), (j k : ℝ) / n k) with hbdef
  have hb : Tendsto b atTop (𝓝 (p, t)) := hp.prodMk_nhds ht
  have hA := gamma_quot_phi S dofs (h := fun k => 1 / (S.nfp * m k : ℝ)) hb
    (tendsto_const_nhds.div_atTop ((tendsto_natCast_atTop_atTop.comp hm).const_mul_atTop hnf))
    (Eventually.of_forall fun k => (one_div_pos.2 (mul_pos hnf (hm0 k))).ne')
  have hB := gamma_quot_theta S dofs (h := fun k => -(1 / (n k : ℝ))) hb
    (by
      have : Tendsto (fun k => 1 / (n k : ℝ)) atTop (𝓝 0) := tendsto_const_nhds.div_atTop (tendsto_natCast_atTop_atTop.comp hnt)
      simpa using this.neg)
    (Eventually.of_forall fun k => (neg_neg_of_pos (one_div_pos.2 (hn0 k))).ne)
  have hC := hA.cross hB
  have hN : V3.cross (S.gammadash dofs 1 0 p t) (S.gammadash dofs 0 1 p t) = S.normal dofs p t := rfl
  rw [hN] at hC
  have hnorm : (S.normal dofs p t).norm ≠ 0 := ((V3.norm_pos_iff _).2 hreg).ne'
  have hU := TendstoV3.smul ((tendsto_const_nhds (x := (1 : ℝ))).div hC.norm hnorm) hC
  have hg : TendstoV3 (fun k => S.gamma dofs (b k).1 (b k).2) (S.gamma dofs p t) := by
    obtain ⟨cx, cy, cz⟩ := S.gammadash_contDiff dofs 0 0
    exact ⟨(cx.continuous.tendsto (p, t)).comp hb, (cy.continuous.tendsto (p, t)).comp hb, (cz.continuous.tendsto (p, t)).comp hb⟩
  refine (hg.add (TendstoV3.smul (tendsto_const_nhds (x := d)) hU)).congr' (Eventually.of_forall fun k => ?_)
  obtain ⟨e1, e2⟩ := sampled_deltas S dofs hn (hi k) (hj k)
  rw [PlasmaGrid.offset, unitnormal_of_quotients (one_div_pos.2 (mul_pos hnf (hm0 k))) (neg_neg_of_pos (one_div_pos.2 (hn0 k))) _ _
    (by rw [e1]) (by rw [e2])]
  rfl

/-- The point at distance `d` from a point of the surface along the unit normal. -/
noncomputable def parallelPoint (S : SurfaceShape) (dofs : List ℝ) (d p t : ℝ) : V3 :=
  S.gamma dofs p t + d • ((1 / (S.normal dofs p t).norm) • S.normal dofs p t)

theorem parallelPoint_tendsto (S : SurfaceShape) (dofs : List ℝ) (d : ℝ) {p t : ℝ} (hreg : S.normal dofs p t ≠ 0) {b : ℕ → ℝ × ℝ}
    (hb : Tendsto b atTop (𝓝 (p, t))) : TendstoV3 (fun k => parallelPoint S dofs d (b k).1 (b k).2) (parallelPoint S dofs d p t) := by
  have cont : ∀ a c, TendstoV3 (fun k => S.gammadash dofs a c (b k).1 (b k).2) (S.gammadash dofs a c p t) := by
    intro a c
    obtain ⟨cx, cy, cz⟩ := S.gammadash_contDiff dofs a c
    exact ⟨(cx.continuous.tendsto (p, t)).comp hb, (cy.continuous.tendsto (p, t)).comp hb, (cz.continuous.tendsto (p, t)).comp hb⟩
  have hN : TendstoV3 (fun k => S.normal dofs (b k).1 (b k).2) (S.normal dofs p t) := (cont 1 0).cross (cont 0 1)
  have hnorm : (S.normal dofs p t).norm ≠ 0 := ((V3.norm_pos_iff _).2 hreg).ne'
  exact (cont 0 0).add (TendstoV3.smul (tendsto_const_nhds (x := d))
    (TendstoV3.smul ((tendsto_const_nhds (x := (1 : ℝ))).div hN.norm hnorm) hN))

/-- **C146, fine grids.** The convergence is uniform: on all sufficiently fine grids all points of the offset surface are as close as
wanted to the points at the requested distance along the normal of the plasma. -/
theorem C146_offset_uniform (S : SurfaceShape) (dofs : List ℝ) (hn : S.nfp ≠ 0) (d : ℝ) (hreg : ∀ p t, S.normal dofs p t ≠ 0) {ε : ℝ}
    (hε : 0 < ε) : ∃ M : ℕ, ∀ m n, M ≤ m → M ≤ n → ∀ i < m, ∀ j < n, ((sampled S dofs m n).offset d i j -
      parallelPoint S dofs d ((i : ℝ) / (S.nfp * m)) ((j : ℝ) / n)).norm < ε := by
  by_contra hcon
  push Not at hcon
  choose m n hm hnn i hi j hj hbad using hcon
  have hnf : (1 : ℝ) ≤ S.nfp := by exact_mod_cast Nat.one_le_iff_ne_zero.2 hn
  set b : ℕ → ℝ × ℝ := fun k => ((i k : ℝ) / (S.nfp * m k), (j k : ℝ) / n k) with hbdef
  have hmem : ∀ k, b k ∈ Set.Icc (0 : ℝ) 1 ×ˢ Set.Icc (0 : ℝ) 1 := by
    intro k
    have h1 : (i k : ℝ) < m k := by exact_mod_cast hi k
    have h2 : (j k : ℝ) < n k := by exact_mod_cast hj k
    have h3 : (0 : ℝ) ≤ i k := Nat.cast_nonneg _
    have h4 : (0 : ℝ) ≤ j k := Nat.cast_nonneg _
    refine ⟨⟨by positivity, ?_⟩, ⟨by positivity, ?_⟩⟩
    · show (i k : ℝ) / (S.nfp * m k) ≤ 1
      rw [div_le_one (by nlinarith)]
      nlinarith
    · show (j k : ℝ) / n k ≤ 1
      rw [div_le_one (by linarith)]
      exact h2.le
  obtain ⟨⟨p, t⟩, -, f, hf, hlim⟩ := (isCompact_Icc.prod isCompact_Icc).tendsto_subseq hmem
  have hft := hf.tendsto_atTop
  have hmt : Tendsto (fun k => m (f k)) atTop atTop := tendsto_atTop_mono (fun k => hm (f k)) hft
  have hnt : Tendsto (fun k => n (f k)) atTop atTop := tendsto_atTop_mono (fun k => hnn (f k)) hft
  have h1 := C146_offset_limit S dofs hn d (hreg p t) hmt hnt (fun k => hi (f k)) (fun k => hj (f k))
    ((continuous_fst.tendsto _).comp hlim) ((continuous_snd.tendsto _).comp hlim)
  have h2 := parallelPoint_tendsto S dofs d (hreg p t) hlim
  have h3 := (h1.add (TendstoV3.smul (tendsto_const_nhds (x := (-1 : ℝ))) h2)).norm
  have hz : (S.gamma dofs p t + d • ((1 / (S.normal dofs p t).norm) • S.normal dofs p t) + (-1 : ℝ) • parallelPoint S dofs d p t).norm = 0 := by
    have : S.gamma dofs p t + d • ((1 / (S.normal dofs p t).norm) • S.normal dofs p t) + (-1 : ℝ) • parallelPoint S dofs d p t = 0 := by
      ext <;> simp [parallelPoint]
    rw [this]
    simp [V3.norm, V3.normSq]
  rw [hz] at h3
  have := ge_of_tendsto' h3 fun k => (hbad (f k)).trans_eq (by
    congr 1
    ext <;> simp only [V3.sub_x, V3.sub_y, V3.sub_z, V3.add_x, V3.add_y, V3.add_z, V3.smul_x, V3.smul_y, V3.smul_z, Function.comp_apply, hbdef] <;> ring)
  linarith

/-! ## Coarse grids -/

/-- The approximate normal of a surface of revolution: its square and its vertical component. -/
theorem revolution_normal {nfp nPhi nTheta : ℕ} (hf : 0 < nfp) (p : ℕ → ℝ × ℝ) {i j : ℕ} (hi : i < nPhi) :
    let G := revolutionGrid nfp nPhi nTheta p
    let a := p ((j + nTheta - 1) % nTheta)
    let ε := 2 * π / (nfp * nPhi)
    (G.normalApprox i j).normSq = (p j).1 ^ 2 * ((a.1 - (p j).1) ^ 2 * sin ε ^ 2 + (a.2 - (p j).2) ^ 2 * (2 - 2 * cos ε)) ∧
    (G.normalApprox i j).z = (a.1 - (p j).1) * ((p j).1 * sin ε) := by
  intro G a ε
  have e1 : G.deltaPhi i j = revolve (2 * π * i / (nfp * nPhi) + ε) (p j) - revolve (2 * π * i / (nfp * nPhi)) (p j) :=
    revolution_deltaPhi hf hi
  have e2 : G.deltaTheta i j = revolve (2 * π * i / (nfp * nPhi)) a - revolve (2 * π * i / (nfp * nPhi)) (p j) := rfl
  rw [PlasmaGrid.normalApprox, e1, e2]
  generalize 2 * π * (i : ℝ) / (nfp * nPhi) = φ
  generalize p j = b
  have h1 := sin_sq_add_cos_sq φ
  have h2 := sin_sq_add_cos_sq ε
  simp only [revolve, V3.normSq, V3.cross, V3.sub_x, V3.sub_y, V3.sub_z, cos_add, sin_add]
  generalize sin φ = s at *
  generalize cos φ = c at *
  generalize sin ε = s' at *
  generalize cos ε = c' at *
  have hc : c * (b.1 * (s * c' + c * s') - b.1 * s) - s * (b.1 * (c * c' - s * s') - b.1 * c) = b.1 * s' := by
    linear_combination (b.1 * s') * h1
  have hXY : (b.1 * (s * c' + c * s') - b.1 * s) ^ 2 + (b.1 * (c * c' - s * s') - b.1 * c) ^ 2 = b.1 ^ 2 * (2 - 2 * c') := by
    linear_combination (b.1 ^ 2 * ((c' - 1) ^ 2 + s' ^ 2)) * h1 + b.1 ^ 2 * h2
  generalize b.1 * (s * c' + c * s') - b.1 * s = Y at *
  generalize b.1 * (c * c' - s * s') - b.1 * c = X at *
  constructor
  · linear_combination ((a.2 - b.2) ^ 2) * hXY + ((a.1 - b.1) ^ 2 * (c * Y - s * X + b.1 * s')) * hc
  · linear_combination (a.1 - b.1) * hc

/-- The previous vertex of the circle. -/
theorem circle_previous {nTheta j : ℕ} (hj : j < nTheta) (R r : ℝ) :
    (R + r * cos (2 * π * ((j + nTheta - 1) % nTheta : ℕ) / nTheta), r * sin (2 * π * ((j + nTheta - 1) % nTheta : ℕ) / nTheta)) =
      (R + r * cos (2 * π * j / nTheta - 2 * π / nTheta), r * sin (2 * π * j / nTheta - 2 * π / nTheta)) := by
  have key : ∃ k : ℤ, (((j + nTheta - 1) % nTheta : ℕ) : ℝ) = (j : ℝ) - 1 + k * nTheta := by
    rcases Nat.eq_zero_or_pos j with rfl | h0
    · refine ⟨1, ?_⟩
      rw [Nat.mod_eq_of_lt (by omega), Nat.cast_sub (by omega)]
      push_cast; ring
    · refine ⟨0, ?_⟩
      have : (j + nTheta - 1) % nTheta = j - 1 := by
        rw [show j + nTheta - 1 = (j - 1) + nTheta by omega, Nat.add_mod_right, Nat.mod_eq_of_lt (by omega)]
      rw [this, Nat.cast_sub (by omega)]
      push_cast; ring
  obtain ⟨k, hk⟩ := key
  have hang : 2 * π * ((j : ℝ) - 1 + k * nTheta) / nTheta = 2 * π * j / nTheta - 2 * π / nTheta + k * (2 * π) := by
    have : (nTheta : ℝ) ≠ 0 := by
      have : 0 < nTheta := by omega
      exact_mod_cast this.ne'
    field_simp
  rw [hk, hang, cos_add_int_mul_two_pi, sin_add_int_mul_two_pi]

theorem normal_lower (A S C X Y : ℝ) (h : S ^ 2 ≤ 2 - 2 * C) : (A * S) ^ 2 * (X ^ 2 + Y ^ 2) ≤ A ^ 2 * (X ^ 2 * S ^ 2 + Y ^ 2 * (2 - 2 * C)) := by
  have := mul_nonneg (mul_nonneg (sq_nonneg A) (sq_nonneg Y)) (sub_nonneg.2 h)
  linarith

/-- The axis circle is not further away than one of its points. -/
theorem axis_distance (q : V3) {R φ : ℝ} (hR : 0 < R) :
    (sqrt (q.x ^ 2 + q.y ^ 2) - R) ^ 2 + q.z ^ 2 ≤ (q - revolve φ (R, 0)).normSq := by
  have hs : sqrt (q.x ^ 2 + q.y ^ 2) ^ 2 = q.x ^ 2 + q.y ^ 2 := sq_sqrt (by positivity)
  have hcs : q.x * cos φ + q.y * sin φ ≤ sqrt (q.x ^ 2 + q.y ^ 2) := by
    apply le_sqrt_of_sq_le
    have := sin_sq_add_cos_sq φ
    nlinarith [sq_nonneg (q.x * sin φ - q.y * cos φ)]
  have e : (q - revolve φ (R, 0)).normSq = q.x ^ 2 + q.y ^ 2 - 2 * R * (q.x * cos φ + q.y * sin φ) + R ^ 2 + q.z ^ 2 := by
    simp only [revolve, V3.normSq, V3.sub_x, V3.sub_y, V3.sub_z]
    linear_combination (R ^ 2) * sin_sq_add_cos_sq φ
  rw [e]
  nlinarith

/-- The distance of an offset point from any point. -/
theorem offset_distance (G : PlasmaGrid) {i j : ℕ} (d : ℝ) (c : V3) (hN : 0 < (G.normalApprox i j).norm) :
    (G.offset d i j - c).normSq = (G.gamma i j - c).normSq + 2 * d * V3.dot (G.unitnormalApprox i j) (G.gamma i j - c) + d ^ 2 := by
  have hunit : (G.unitnormalApprox i j).normSq = 1 := by
    have : (G.normalApprox i j).normSq = (G.normalApprox i j).norm ^ 2 := by
      rw [V3.norm, sq_sqrt]
      unfold V3.normSq
      positivity
    rw [PlasmaGrid.unitnormalApprox]
    have h5 := hN.ne'
    simp only [V3.normSq, V3.smul_x, V3.smul_y, V3.smul_z] at this ⊢
    field_simp
    linarith
  have e : (G.offset d i j - c).normSq = (G.gamma i j - c).normSq + 2 * d * V3.dot (G.unitnormalApprox i j) (G.gamma i j - c) +
      d ^ 2 * (G.unitnormalApprox i j).normSq := by
    rw [PlasmaGrid.offset]
    simp only [V3.normSq, V3.dot, V3.sub_x, V3.sub_y, V3.sub_z, V3.add_x, V3.add_y, V3.add_z, V3.smul_x, V3.smul_y, V3.smul_z]
    ring
  rw [e, hunit, mul_one]

theorem circle_chord (R r θ η : ℝ) :
    (R + r * cos (θ - 2 * η) - (R + r * cos θ)) ^ 2 + (r * sin (θ - 2 * η) - r * sin θ) ^ 2 = (2 * r * sin η) ^ 2 := by
  have h1 := sin_sq_add_cos_sq θ
  have h2 := sin_sq_add_cos_sq η
  simp only [cos_sub, sin_sub, sin_two_mul, cos_two_mul]
  generalize sin θ = s at *
  generalize cos θ = k at *
  generalize sin η = s' at *
  generalize cos η = k' at *
  have e : (2 * k' ^ 2 - 1) = 1 - 2 * s' ^ 2 := by linarith
  rw [e]
  linear_combination (r ^ 2 * (4 * s' ^ 4 + 4 * s' ^ 2 * k' ^ 2)) * h1 + (4 * r ^ 2 * s' ^ 2) * h2

theorem circle_ccw (R r θ η : ℝ) :
    ccw (R + r * cos (θ - 2 * η), r * sin (θ - 2 * η)) (R + r * cos θ, r * sin θ) (R, 0) = r * r * (2 * sin η * cos η) := by
  have hsc := sin_sq_add_cos_sq θ
  simp only [ccw, cos_sub, sin_sub]
  rw [← sin_two_mul]
  linear_combination (r * r * sin (2 * η)) * hsc

/-- The samples of the circular torus with radii `R` and `r`. -/
noncomputable def torusGrid (nfp nPhi nTheta : ℕ) (R r : ℝ) : PlasmaGrid :=
  revolutionGrid nfp nPhi nTheta fun j => (R + r * cos (2 * π * j / nTheta), r * sin (2 * π * j / nTheta))

theorem torusGrid_previous {nfp nPhi nTheta : ℕ} (hf : 0 < nfp) {R r : ℝ} {i j : ℕ} (hi : i < nPhi) (hj : j < nTheta) (θ η : ℝ)
    (hθ : θ = 2 * π * j / nTheta) (hη : η = π / nTheta) :
    ((torusGrid nfp nPhi nTheta R r).normalApprox i j).normSq = (R + r * cos θ) ^ 2 *
      ((R + r * cos (θ - 2 * η) - (R + r * cos θ)) ^ 2 * sin (2 * π / (nfp * nPhi)) ^ 2 +
        (r * sin (θ - 2 * η) - r * sin θ) ^ 2 * (2 - 2 * cos (2 * π / (nfp * nPhi)))) ∧
    V3.dot ((torusGrid nfp nPhi nTheta R r).normalApprox i j)
        (revolve (2 * π * i / (nfp * nPhi)) (R, 0) - (torusGrid nfp nPhi nTheta R r).gamma i j) =
      -((R + r * cos θ) * sin (2 * π / (nfp * nPhi)) * (r * r * (2 * sin η * cos η))) := by
  have hprev := circle_previous hj R r
  have hstep : 2 * π / (nTheta : ℝ) = 2 * η := by rw [hη]; ring
  rw [hstep, ← hθ] at hprev
  obtain ⟨hsq, -⟩ := revolution_normal (nTheta := nTheta) hf (fun j => (R + r * cos (2 * π * j / nTheta), r * sin (2 * π * j / nTheta)))
    (j := j) hi
  have hdot := C98_normal_formula (nTheta := nTheta) hf (fun j => (R + r * cos (2 * π * j / nTheta), r * sin (2 * π * j / nTheta)))
    (j := j) hi (R, 0)
  simp only at hsq hdot
  rw [hprev, ← hθ, circle_ccw] at hdot
  rw [(Prod.mk.inj hprev).1, (Prod.mk.inj hprev).2, ← hθ] at hsq
  exact ⟨hsq, hdot⟩

/-- The approximate normal of a circular torus and the direction away from the centre of the cross section. -/
theorem torusGrid_normal {nfp nPhi nTheta : ℕ} (h3 : 3 ≤ nfp * nPhi) (ht : 3 ≤ nTheta) {R r : ℝ} (hr : 0 < r)
    (hR : r < R) {i j : ℕ} (hi : i < nPhi) (hj : j < nTheta) :
    0 < ((torusGrid nfp nPhi nTheta R r).normalApprox i j).norm ∧
    V3.dot ((torusGrid nfp nPhi nTheta R r).unitnormalApprox i j)
      ((torusGrid nfp nPhi nTheta R r).gamma i j - revolve (2 * π * i / (nfp * nPhi)) (R, 0)) ≤ r * cos (π / nTheta) := by
  have hf : 0 < nfp := Nat.pos_of_ne_zero (by rintro rfl; simp at h3)
  have h3' : (3 : ℝ) ≤ nfp * nPhi := by exact_mod_cast h3
  have ht' : (3 : ℝ) ≤ nTheta := by exact_mod_cast ht
  have hhalf : 0 < π / nTheta ∧ π / nTheta < π / 2 := by
    refine ⟨by positivity, ?_⟩
    rw [div_lt_div_iff₀ (by linarith) (by norm_num)]
    nlinarith [pi_pos]
  have hs2 : 0 < sin (π / nTheta) := sin_pos_of_pos_of_lt_pi hhalf.1 (by linarith [pi_pos])
  have hc2 : 0 < cos (π / nTheta) := cos_pos_of_mem_Ioo ⟨by linarith [pi_pos], hhalf.2⟩
  have hse : 0 < sin (2 * π / ((nfp : ℝ) * nPhi)) := by
    apply sin_pos_of_pos_of_lt_pi
    · positivity
    · rw [div_lt_iff₀ (by linarith)]
      nlinarith [pi_pos]
  obtain ⟨hsq, hdot⟩ := torusGrid_previous (R := R) (r := r) hf hi hj _ _ rfl rfl
  have hRj : 0 < R + r * cos (2 * π * j / nTheta) := by nlinarith [neg_one_le_cos (2 * π * j / nTheta)]
  generalize torusGrid nfp nPhi nTheta R r = G at *
  generalize revolve (2 * π * i / (nfp * nPhi)) (R, 0) = c at *
  generalize 2 * π * (j : ℝ) / nTheta = θ at *
  generalize 2 * π / ((nfp : ℝ) * nPhi) = ε at *
  generalize π / (nTheta : ℝ) = η at *
  have hlow : ((R + r * cos θ) * sin ε * (2 * r * sin η)) ^ 2 ≤ (G.normalApprox i j).normSq := by
    rw [hsq, mul_pow, ← circle_chord R r θ η]
    exact normal_lower _ _ _ _ _ (by nlinarith [sin_sq_add_cos_sq ε, sq_nonneg (1 - cos ε)])
  have hlow' : (R + r * cos θ) * sin ε * (2 * r * sin η) ≤ (G.normalApprox i j).norm := by
    rw [V3.norm]
    exact le_sqrt_of_sq_le hlow
  have hpos : 0 < (R + r * cos θ) * sin ε * (2 * r * sin η) := by positivity
  have hnpos : 0 < (G.normalApprox i j).norm := hpos.trans_le hlow'
  refine ⟨hnpos, ?_⟩
  have e : V3.dot (G.unitnormalApprox i j) (G.gamma i j - c) = -(V3.dot (G.normalApprox i j) (c - G.gamma i j)) / (G.normalApprox i j).norm := by
    rw [PlasmaGrid.unitnormalApprox]
    simp only [V3.dot, V3.smul_x, V3.smul_y, V3.smul_z, V3.sub_x, V3.sub_y, V3.sub_z]
    ring
  rw [e, hdot, div_le_iff₀ hnpos]
  calc -(-((R + r * cos θ) * sin ε * (r * r * (2 * sin η * cos η)))) = r * cos η * ((R + r * cos θ) * sin ε * (2 * r * sin η)) := by ring
    _ ≤ r * cos η * (G.normalApprox i j).norm := mul_le_mul_of_nonneg_left hlow' (by positivity)

/-- **C146, coarse grids.** The points of the offset surface of a circular torus with minor radius `r` do not lie on the torus with minor
radius `r + d` that has the requested distance from the plasma: all of them lie inside it, so the distance from the plasma is smaller than
requested. -/
theorem C146_torus_distance_violated_partial {nfp nPhi nTheta : ℕ} (h3 : 3 ≤ nfp * nPhi) (ht : 3 ≤ nTheta) {R r : ℝ} (hr : 0 < r)
    (hR : r < R) {i j : ℕ} (hi : i < nPhi) (hj : j < nTheta) {d : ℝ} (hd : 0 < d) :
    let q := (torusGrid nfp nPhi nTheta R r).offset d i j
    (sqrt (q.x ^ 2 + q.y ^ 2) - R) ^ 2 + q.z ^ 2 ≤ r ^ 2 + d ^ 2 + 2 * r * d * cos (π / nTheta) ∧
      (sqrt (q.x ^ 2 + q.y ^ 2) - R) ^ 2 + q.z ^ 2 < (r + d) ^ 2 := by
  intro q
  have ht' : (3 : ℝ) ≤ nTheta := by exact_mod_cast ht
  have hhalf : 0 < π / nTheta ∧ π / nTheta < π := by
    refine ⟨by positivity, ?_⟩
    rw [div_lt_iff₀ (by linarith)]
    nlinarith [pi_pos]
  have hs2 : 0 < sin (π / nTheta) := sin_pos_of_pos_of_lt_pi hhalf.1 hhalf.2
  have hc1 : cos (π / nTheta) < 1 := by nlinarith [sin_sq_add_cos_sq (π / nTheta), cos_le_one (π / nTheta)]
  obtain ⟨hN, hdot⟩ := torusGrid_normal h3 ht hr hR hi hj
  have hgc : ((torusGrid nfp nPhi nTheta R r).gamma i j - revolve (2 * π * i / (nfp * nPhi)) (R, 0)).normSq = r ^ 2 := by
    have hg : (torusGrid nfp nPhi nTheta R r).gamma i j =
      revolve (2 * π * i / (nfp * nPhi)) (R + r * cos (2 * π * j / nTheta), r * sin (2 * π * j / nTheta)) := rfl
    rw [hg]
    generalize 2 * π * (i : ℝ) / (nfp * nPhi) = φ
    generalize 2 * π * (j : ℝ) / nTheta = θ
    simp only [revolve, V3.normSq, V3.sub_x, V3.sub_y, V3.sub_z]
    linear_combination (r ^ 2 * cos θ ^ 2) * sin_sq_add_cos_sq φ + r ^ 2 * sin_sq_add_cos_sq θ
  have h : (sqrt (q.x ^ 2 + q.y ^ 2) - R) ^ 2 + q.z ^ 2 ≤ r ^ 2 + d ^ 2 + 2 * r * d * cos (π / nTheta) := by
    refine (axis_distance q (φ := 2 * π * i / (nfp * nPhi)) (hr.trans hR)).trans ?_
    rw [show q = (torusGrid nfp nPhi nTheta R r).offset d i j from rfl, offset_distance _ d _ hN, hgc]
    nlinarith
  exact ⟨h, by nlinarith [mul_pos hr hd]⟩

/-- **C146, coarse grids.** The offset of a circular torus is not symmetric about its midplane: the point that belongs to the outermost
plasma point, which lies in the midplane and is its own mirror image, lies below the midplane. -/
theorem C146_torus_symmetry_violated_partial {nfp nPhi nTheta : ℕ} (h3 : 3 ≤ nfp * nPhi) (ht : 3 ≤ nTheta) {R r : ℝ} (hr : 0 < r)
    (hR : r < R) {i : ℕ} (hi : i < nPhi) {d : ℝ} (hd : 0 < d) :
    let G := torusGrid nfp nPhi nTheta R r
    (G.gamma i 0).z = 0 ∧ (G.offset d i 0).z < 0 := by
  intro G
  have hf : 0 < nfp := Nat.pos_of_ne_zero (by rintro rfl; simp at h3)
  have h3' : (3 : ℝ) ≤ nfp * nPhi := by exact_mod_cast h3
  have ht' : (3 : ℝ) ≤ nTheta := by exact_mod_cast ht
  have hg : (G.gamma i 0).z = 0 := by
    show r * sin (2 * π * ((0 : ℕ) : ℝ) / nTheta) = 0
    simp
  refine ⟨hg, ?_⟩
  obtain ⟨-, hz⟩ := revolution_normal (nTheta := nTheta) hf (fun j => (R + r * cos (2 * π * j / nTheta), r * sin (2 * π * j / nTheta)))
    (j := 0) hi
  simp only at hz
  have hprev := circle_previous (nTheta := nTheta) (j := 0) (by omega) R r
  simp only [Prod.mk.injEq] at hprev
  rw [hprev.1] at hz
  change (G.normalApprox i 0).z = _ at hz
  have hse : 0 < sin (2 * π / ((nfp : ℝ) * nPhi)) := by
    apply sin_pos_of_pos_of_lt_pi
    · positivity
    · rw [div_lt_iff₀ (by linarith)]
      nlinarith [pi_pos]
  have hst : 0 < sin (2 * π / (nTheta : ℝ)) := by
    apply sin_pos_of_pos_of_lt_pi
    · positivity
    · rw [div_lt_iff₀ (by linarith)]
      nlinarith [pi_pos]
  have hct : cos (2 * π / (nTheta : ℝ)) < 1 := by nlinarith [sin_sq_add_cos_sq (2 * π / (nTheta : ℝ)), cos_le_one (2 * π / (nTheta : ℝ))]
  have hneg : (G.normalApprox i 0).z < 0 := by
    rw [hz]
    simp only [Nat.cast_zero, mul_zero, zero_div, zero_sub, cos_neg, cos_zero, mul_one]
    have h1 : R + r * cos (2 * π / nTheta) - (R + r) < 0 := by nlinarith
    exact mul_neg_of_neg_of_pos h1 (mul_pos (by linarith) hse)
  have hn : 0 < (G.normalApprox i 0).norm := by
    rw [V3.norm]
    apply sqrt_pos.2
    rw [V3.normSq]
    nlinarith [sq_nonneg (G.normalApprox i 0).x, sq_nonneg (G.normalApprox i 0).y]
  show (G.gamma i 0).z + d * (1 / (G.normalApprox i 0).norm * (G.normalApprox i 0).z) < 0
  rw [hg, zero_add]
  exact mul_neg_of_pos_of_neg hd (mul_neg_of_pos_of_neg (by positivity) hneg)

/-- The circular torus meets the hypotheses of the uniform limit. -/
example : ∃ M : ℕ, ∀ m n, M ≤ m → M ≤ n → ∀ i < m, ∀ j < n, ((sampled circularTorus.surf circularTorus.wdofs m n).offset (1 / 2) i j -
    parallelPoint circularTorus.surf circularTorus.wdofs (1 / 2) ((i : ℝ) / (circularTorus.surf.nfp * m)) ((j : ℝ) / n)).norm < 1e-3 :=
  C146_offset_uniform circularTorus.surf circularTorus.wdofs (by decide) (1 / 2) (fun p t => (circularTorus_regular p t).1)
    (by norm_num)

/-- A torus with 34 poloidal points. -/
example : ((torusGrid 2 32 34 3 1).offset 1 5 0).z < 0 :=
  (C146_torus_symmetry_violated_partial (by norm_num) (by norm_num) one_pos (by norm_num) (by norm_num) one_pos).2

end Verif
