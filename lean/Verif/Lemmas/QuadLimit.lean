import Verif.Lemmas.LeastSquares
import Mathlib.Topology.Algebra.Order.LiminfLimsup
import Mathlib.Topology.Order.Compact
import Mathlib.Analysis.Normed.Group.Bounded

/-!
# Minimisers of converging quadratic functions converge
-/

open Filter Topology

namespace Verif

variable {L : ℕ}

/-- A polynomial of degree two, written with its own values at the corners of a cube. -/
def IsQuad (F : (Fin L → ℝ) → ℝ) : Prop :=
  ∀ x, F x = F 0 + ∑ i, x i * ((F (Pi.single i 1) - F (-Pi.single i 1)) / 2) +
    ∑ i, ∑ j, x i * x j * ((F (Pi.single i 1 + Pi.single j 1) - F (Pi.single i 1) - F (Pi.single j 1) + F 0) / 2)

theorem IsQuad.affine_sq {f : (Fin L → ℝ) → ℝ} (hf : IsAffineFn f) (w : ℝ) : IsQuad fun x => w * f x ^ 2 := by
  obtain ⟨T, hT⟩ := hf.linear
  intro x
  have hx : T x = ∑ i, x i * T (Pi.single i 1) := by
    conv_lhs => rw [← Finset.univ_sum_single x]
    rw [map_sum]
    refine Finset.sum_congr rfl fun i _ => ?_
    have : Pi.single i (x i) = x i • (Pi.single i 1 : Fin L → ℝ) := by
      rw [← Pi.single_smul]
      simp
    rw [this, map_smul, smul_eq_mul]
  have e1 : ∀ i, ((w * f (Pi.single i 1) ^ 2 - w * f (-Pi.single i 1) ^ 2) / 2) = 2 * w * f 0 * T (Pi.single i 1) := by
    intro i
    rw [hT (Pi.single i 1), hT (-Pi.single i 1), map_neg]
    ring
  have e2 : ∀ i j, ((w * f (Pi.single i 1 + Pi.single j 1) ^ 2 - w * f (Pi.single i 1) ^ 2 - w * f (Pi.single j 1) ^ 2 + w * f 0 ^ 2) / 2) =
      w * T (Pi.single i 1) * T (Pi.single j 1) := by
    intro i j
    rw [hT (Pi.single i 1), hT (Pi.single j 1), hT (Pi.single i 1 + Pi.single j 1), map_add]
    ring
  simp only [e1, e2]
  have s1 : ∑ i, x i * (2 * w * f 0 * T (Pi.single i 1)) = 2 * w * f 0 * T x := by
    rw [hx, Finset.mul_sum]
    exact Finset.sum_congr rfl fun i _ => by ring
  have s2 : ∑ i, ∑ j, x i * x j * (w * T (Pi.single i 1) * T (Pi.single j 1)) = w * (T x * T x) := by
    rw [hx, Finset.sum_mul_sum, Finset.mul_sum]
    refine Finset.sum_congr rfl fun i _ => ?_
    rw [Finset.mul_sum]
    exact Finset.sum_congr rfl fun j _ => by ring
  rw [s1, s2, hT x]
  ring

theorem IsQuad.add {F G : (Fin L → ℝ) → ℝ} (hF : IsQuad F) (hG : IsQuad G) : IsQuad fun x => F x + G x := by
  intro x
  show F x + G x = _
  rw [hF x, hG x]
  have e1 : ∑ i, x i * ((F (Pi.single i 1) + G (Pi.single i 1) - (F (-Pi.single i 1) + G (-Pi.single i 1))) / 2) =
      ∑ i, x i * ((F (Pi.single i 1) - F (-Pi.single i 1)) / 2) + ∑ i, x i * ((G (Pi.single i 1) - G (-Pi.single i 1)) / 2) := by
    rw [← Finset.sum_add_distrib]
    exact Finset.sum_congr rfl fun i _ => by ring
  have e2 : ∑ i, ∑ j, x i * x j * ((F (Pi.single i 1 + Pi.single j 1) + G (Pi.single i 1 + Pi.single j 1) -
        (F (Pi.single i 1) + G (Pi.single i 1)) - (F (Pi.single j 1) + G (Pi.single j 1)) + (F 0 + G 0)) / 2) =
      ∑ i, ∑ j, x i * x j * ((F (Pi.single i 1 + Pi.single j 1) - F (Pi.single i 1) - F (Pi.single j 1) + F 0) / 2) +
      ∑ i, ∑ j, x i * x j * ((G (Pi.single i 1 + Pi.single j 1) - G (Pi.single i 1) - G (Pi.single j 1) + G 0) / 2) := by
    rw [← Finset.sum_add_distrib]
    refine Finset.sum_congr rfl fun i _ => ?_
    rw [← Finset.sum_add_distrib]
    exact Finset.sum_congr rfl fun j _ => by ring
  rw [e1, e2]
  ring

theorem IsQuad.const_mul {F : (Fin L → ℝ) → ℝ} (hF : IsQuad F) (w : ℝ) : IsQuad fun x => w * F x := by
  intro x
  show w * F x = _
  rw [hF x, mul_add, mul_add, Finset.mul_sum, Finset.mul_sum]
  congr 1
  · congr 1
    exact Finset.sum_congr rfl fun i _ => by ring
  · refine Finset.sum_congr rfl fun i _ => ?_
    rw [Finset.mul_sum]
    exact Finset.sum_congr rfl fun j _ => by ring

theorem IsQuad.list_sum (l : List (ℝ × ((Fin L → ℝ) → ℝ))) (h : ∀ t ∈ l, IsAffineFn t.2) :
    IsQuad fun x => (l.map fun t => t.1 * t.2 x ^ 2).sum := by
  induction l with
  | nil => intro x; simp
  | cons t l ih =>
    simp only [List.map_cons, List.sum_cons]
    exact (IsQuad.affine_sq (h t (List.mem_cons_self ..)) t.1).add (ih fun s hs => h s (List.mem_cons_of_mem _ hs))

theorem IsQuad.continuous {F : (Fin L → ℝ) → ℝ} (hF : IsQuad F) : Continuous F := by
  rw [show F = _ from funext hF]
  fun_prop

/-- The pointwise limit of quadratic functions is quadratic. -/
theorem IsQuad.limit {F : ℕ → (Fin L → ℝ) → ℝ} {G : (Fin L → ℝ) → ℝ} (hF : ∀ k, IsQuad (F k))
    (h : ∀ x, Tendsto (fun k => F k x) atTop (𝓝 (G x))) : IsQuad G := by
  intro x
  refine tendsto_nhds_unique (h x) ?_
  rw [show (fun k => F k x) = _ from funext fun k => hF k x]
  refine ((h 0).add (tendsto_finset_sum _ fun i _ => (((h _).sub (h _)).div_const 2).const_mul _)).add
    (tendsto_finset_sum _ fun i _ => tendsto_finset_sum _ fun j _ => ?_)
  exact (((((h _).sub (h _)).sub (h _)).add (h 0)).div_const 2).const_mul _

/-- Pointwise convergence of quadratic functions is uniform on bounded sets. -/
theorem IsQuad.uniform {F : ℕ → (Fin L → ℝ) → ℝ} {G : (Fin L → ℝ) → ℝ} (hF : ∀ k, IsQuad (F k))
    (h : ∀ x, Tendsto (fun k => F k x) atTop (𝓝 (G x))) (R : ℝ) {ε : ℝ} (hε : 0 < ε) :
    ∀ᶠ k in atTop, ∀ x, ‖x‖ ≤ R → |F k x - G x| ≤ ε := by
  have hG := IsQuad.limit hF h
  have hD : ∀ k, IsQuad fun x => F k x + (-1) * G x := fun k => (hF k).add (hG.const_mul (-1))
  have h0 : ∀ x, Tendsto (fun k => F k x + (-1) * G x) atTop (𝓝 0) := by
    intro x
    have := (h x).add_const ((-1) * G x)
    simpa using this
  have hB : Tendsto (fun k => |F k 0 + (-1) * G 0| +
      ∑ i : Fin L, R * |((F k (Pi.single i 1) + (-1) * G (Pi.single i 1)) - (F k (-Pi.single i 1) + (-1) * G (-Pi.single i 1))) / 2| +
      ∑ i : Fin L, ∑ j : Fin L, R * R * |((F k (Pi.single i 1 + Pi.single j 1) + (-1) * G (Pi.single i 1 + Pi.single j 1)) -
        (F k (Pi.single i 1) + (-1) * G (Pi.single i 1)) - (F k (Pi.single j 1) + (-1) * G (Pi.single j 1)) + (F k 0 + (-1) * G 0)) / 2|)
      atTop (𝓝 0) := by
    have := ((h0 0).abs.add (tendsto_finset_sum Finset.univ fun (i : Fin L) _ =>
      ((((h0 (Pi.single i 1)).sub (h0 (-Pi.single i 1))).div_const 2).abs.const_mul R))).add
      (tendsto_finset_sum Finset.univ fun (i : Fin L) _ => tendsto_finset_sum Finset.univ fun (j : Fin L) _ =>
        ((((((h0 (Pi.single i 1 + Pi.single j 1)).sub (h0 (Pi.single i 1))).sub (h0 (Pi.single j 1))).add (h0 0)).div_const 2).abs.const_mul (R * R)))
    simpa using this
  filter_upwards [hB.eventually_le_const hε] with k hk x hx
  have hi : ∀ i, |x i| ≤ R := fun i => (norm_le_pi_norm x i).trans hx
  have hR : 0 ≤ R := (norm_nonneg _).trans hx
  have e : F k x - G x = F k x + (-1) * G x := by ring
  have hDx : F k x + (-1) * G x = _ := hD k x
  rw [e, hDx]
  refine le_trans ((abs_add_le _ _).trans (add_le_add ((abs_add_le _ _).trans (add_le_add le_rfl ?_)) ?_)) hk
  · refine (Finset.abs_sum_le_sum_abs _ _).trans (Finset.sum_le_sum fun i _ => ?_)
    rw [abs_mul]
    exact mul_le_mul_of_nonneg_right (hi i) (abs_nonneg _)
  · refine (Finset.abs_sum_le_sum_abs _ _).trans (Finset.sum_le_sum fun i _ => ?_)
    refine (Finset.abs_sum_le_sum_abs _ _).trans (Finset.sum_le_sum fun j _ => ?_)
    rw [abs_mul, abs_mul]
    exact mul_le_mul_of_nonneg_right (mul_le_mul (hi i) (hi j) (abs_nonneg _) hR) (abs_nonneg _)

/-- A quadratic function that lies strictly below its chords at their middle has exactly one minimiser. -/
theorem IsQuad.exists_unique {F : (Fin L → ℝ) → ℝ} (hF : IsQuad F)
    (hs : ∀ x y, x ≠ y → F ((1 / 2 : ℝ) • (x + y)) < (F x + F y) / 2) : ∃! x, ∀ y, F x ≤ F y := by
  have huniq : ∀ x y, (∀ z, F x ≤ F z) → (∀ z, F y ≤ F z) → x = y := by
    intro x y hx hy
    by_contra hne
    have h1 := hs x y hne
    have h2 := hx ((1 / 2 : ℝ) • (x + y))
    have h3 := hy x
    have h4 := hx y
    linarith
  let q : (Fin L → ℝ) → ℝ := fun v =>
    ∑ i, ∑ j, v i * v j * ((F (Pi.single i 1 + Pi.single j 1) - F (Pi.single i 1) - F (Pi.single j 1) + F 0) / 2)
  let b : (Fin L → ℝ) → ℝ := fun v => ∑ i, v i * ((F (Pi.single i 1) - F (-Pi.single i 1)) / 2)
  have hFq : ∀ v, F v = F 0 + b v + q v := hF
  have hbneg : ∀ v, b (-v) = -b v := by
    intro v
    simp only [b, Pi.neg_apply, neg_mul, Finset.sum_neg_distrib]
  have hqneg : ∀ v, q (-v) = q v := by
    intro v
    simp only [q, Pi.neg_apply, neg_mul_neg]
  have hqs : ∀ (r : ℝ) v, q (r • v) = r ^ 2 * q v := by
    intro r v
    simp only [q, Pi.smul_apply, smul_eq_mul, Finset.mul_sum]
    exact Finset.sum_congr rfl fun i _ => Finset.sum_congr rfl fun j _ => by ring
  have hqc : Continuous q := by
    simp only [q]
    fun_prop
  have hqpos : ∀ v, v ≠ 0 → 0 < q v := by
    intro v hv
    have h1 := hs v (-v) (by
      intro h
      apply hv
      funext i
      have := congrFun h i
      simp only [Pi.neg_apply] at this
      simp only [Pi.zero_apply]
      linarith)
    rw [add_neg_cancel, smul_zero, hFq v, hFq (-v), hbneg, hqneg] at h1
    linarith
  obtain ⟨lam, hlam, hq⟩ : ∃ lam : ℝ, 0 < lam ∧ ∀ v, lam * ‖v‖ ^ 2 ≤ q v := by
    rcases (Metric.sphere (0 : Fin L → ℝ) 1).eq_empty_or_nonempty with he | hne
    · refine ⟨1, one_pos, fun v => ?_⟩
      have hv : v = 0 := by
        by_contra hv
        have hn : ‖v‖ ≠ 0 := norm_ne_zero_iff.2 hv
        have : ‖v‖⁻¹ • v ∈ Metric.sphere (0 : Fin L → ℝ) 1 := by
          rw [mem_sphere_zero_iff_norm, norm_smul, norm_inv, norm_norm, inv_mul_cancel₀ hn]
        rw [he] at this
        exact this
      rw [hv]
      simp [q]
    · obtain ⟨u, hu, hmin⟩ := (isCompact_sphere (0 : Fin L → ℝ) 1).exists_isMinOn hne hqc.continuousOn
      have hu1 : ‖u‖ = 1 := by simpa using hu
      refine ⟨q u, hqpos u (by rintro rfl; simp at hu1), fun v => ?_⟩
      by_cases hv : v = 0
      · rw [hv]
        simp [q]
      · have hn : ‖v‖ ≠ 0 := norm_ne_zero_iff.2 hv
        have hmem : ‖v‖⁻¹ • v ∈ Metric.sphere (0 : Fin L → ℝ) 1 := by
          rw [mem_sphere_zero_iff_norm, norm_smul, norm_inv, norm_norm, inv_mul_cancel₀ hn]
        have h1 : q u ≤ q (‖v‖⁻¹ • v) := hmin hmem
        have h2 : q v = ‖v‖ ^ 2 * q (‖v‖⁻¹ • v) := by
          rw [hqs]
          field_simp
        rw [h2, mul_comm]
        exact mul_le_mul_of_nonneg_left h1 (by positivity)
  obtain ⟨C, hC0, hC⟩ : ∃ C : ℝ, 0 ≤ C ∧ ∀ v, |b v| ≤ C * ‖v‖ := by
    refine ⟨∑ i, |(F (Pi.single i 1) - F (-Pi.single i 1)) / 2|, Finset.sum_nonneg fun i _ => abs_nonneg _, fun v => ?_⟩
    rw [Finset.sum_mul]
    refine (Finset.abs_sum_le_sum_abs _ _).trans (Finset.sum_le_sum fun i _ => ?_)
    rw [abs_mul, mul_comm]
    exact mul_le_mul_of_nonneg_left (norm_le_pi_norm v i) (abs_nonneg _)
  have hcoer : ∀ v, C / lam < ‖v‖ → F 0 < F v := by
    intro v hv
    rw [hFq v]
    have h1 := abs_le.1 (hC v)
    have h2 := hq v
    rw [div_lt_iff₀ hlam] at hv
    have h3 : 0 ≤ C / lam := by positivity
    have h4 : 0 < ‖v‖ := by
      rcases (norm_nonneg v).eq_or_lt with h | h
      · rw [← h] at hv
        nlinarith
      · exact h
    nlinarith
  obtain ⟨x, hx⟩ : ∃ x, ∀ y, F x ≤ F y := by
    obtain ⟨x, -, hx⟩ := (isCompact_closedBall (0 : Fin L → ℝ) (C / lam)).exists_isMinOn
      ⟨0, by simp; positivity⟩ hF.continuous.continuousOn
    refine ⟨x, fun y => ?_⟩
    by_cases hy : ‖y‖ ≤ C / lam
    · exact hx (by simpa using hy)
    · push Not at hy
      exact le_trans (hx (by simp; positivity)) (hcoer y hy).le
  exact ⟨x, hx, fun y hy => huniq y x hy hx⟩

/-- Minimisers of converging convex quadratic functions converge to the unique minimiser of the limit. -/
theorem IsQuad.minimisers {F : ℕ → (Fin L → ℝ) → ℝ} {G : (Fin L → ℝ) → ℝ} (hF : ∀ k, IsQuad (F k))
    (hconv : ∀ᶠ k in atTop, ∀ (x y : Fin L → ℝ) (a : ℝ), 0 ≤ a → a ≤ 1 → F k (a • x + (1 - a) • y) ≤ a * F k x + (1 - a) * F k y)
    (h : ∀ x, Tendsto (fun k => F k x) atTop (𝓝 (G x))) {x : Fin L → ℝ} (hx : ∀ y, y ≠ x → G x < G y) {u : ℕ → Fin L → ℝ}
    (hu : ∀ᶠ k in atTop, ∀ y, F k (u k) ≤ F k y) :
    Tendsto u atTop (𝓝 x) ∧ Tendsto (fun k => F k (u k)) atTop (𝓝 (G x)) := by
  have hGc := (IsQuad.limit hF h).continuous
  have key : Tendsto u atTop (𝓝 x) := by
    rw [Metric.tendsto_nhds]
    intro ε hε
    obtain ⟨δ, hδ, hmin⟩ : ∃ δ : ℝ, 0 < δ ∧ ∀ z, ‖z - x‖ = ε → G x + δ ≤ G z := by
      rcases (Metric.sphere x ε).eq_empty_or_nonempty with he | hne
      · refine ⟨1, one_pos, fun z hz => ?_⟩
        have : z ∈ Metric.sphere x ε := by rwa [mem_sphere_iff_norm]
        rw [he] at this
        exact this.elim
      · obtain ⟨z0, hz0, hm⟩ := (isCompact_sphere x ε).exists_isMinOn hne hGc.continuousOn
        have hne' : z0 ≠ x := by
          rintro rfl
          simp at hz0
          linarith
        refine ⟨G z0 - G x, by linarith [hx z0 hne'], fun z hz => ?_⟩
        have : G z0 ≤ G z := hm (by rwa [mem_sphere_iff_norm])
        linarith
    filter_upwards [IsQuad.uniform hF h (‖x‖ + ε) (by linarith : (0 : ℝ) < δ / 3), hconv, hu] with k hk hc hm
    by_contra hcon
    rw [dist_eq_norm] at hcon
    push Not at hcon
    have hpos : 0 < ‖u k - x‖ := lt_of_lt_of_le hε hcon
    set a : ℝ := ε / ‖u k - x‖ with ha
    have ha0 : 0 ≤ a := by positivity
    have ha1 : a ≤ 1 := by rwa [ha, div_le_one hpos]
    set z := a • u k + (1 - a) • x with hz
    have hzx : z - x = a • (u k - x) := by
      rw [hz, sub_smul, one_smul, smul_sub]
      abel
    have hzn : ‖z - x‖ = ε := by
      rw [hzx, norm_smul, Real.norm_eq_abs, abs_of_nonneg ha0, ha, div_mul_cancel₀ _ hpos.ne']
    have hzR : ‖z‖ ≤ ‖x‖ + ε := by
      calc ‖z‖ = ‖x + (z - x)‖ := by rw [add_sub_cancel]
        _ ≤ _ := norm_add_le _ _
        _ = _ := by rw [hzn]
    have h1 := hc (u k) x a ha0 ha1
    have h2 := hm x
    have h3 := abs_le.1 (hk z hzR)
    have h4 := abs_le.1 (hk x (by linarith))
    have h5 := hmin z hzn
    have h6 : a * F k (u k) ≤ a * F k x := mul_le_mul_of_nonneg_left h2 ha0
    rw [← hz] at h1
    linarith
  refine ⟨key, ?_⟩
  rw [Metric.tendsto_nhds]
  intro ε hε
  have hGu : Tendsto (fun k => G (u k)) atTop (𝓝 (G x)) := (hGc.tendsto x).comp key
  have hb : ∀ᶠ k in atTop, ‖u k‖ ≤ ‖x‖ + 1 := key.norm.eventually_le_const (by linarith)
  filter_upwards [IsQuad.uniform hF h (‖x‖ + 1) (by linarith : (0 : ℝ) < ε / 2), hb,
    (Metric.tendsto_nhds.1 hGu) (ε / 2) (by linarith)] with k h1 h2 h3
  have h4 := h1 (u k) h2
  rw [Real.dist_eq] at h3 ⊢
  calc _ ≤ |F k (u k) - G (u k)| + |G (u k) - G x| := abs_sub_le _ _ _
    _ < _ := by linarith

end Verif
