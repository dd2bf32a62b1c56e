import Verif.Lemmas.LeastSquares
import Mathlib.Analysis.Convex.Continuous
import Mathlib.Topology.MetricSpace.ProperSpace

/-! Sums of squares of affine functions on convex sets: unique minimisers, growth away from them, and dependence on the data. -/

namespace Verif

variable {L : ℕ}

/-- The sum of weighted squares. -/
noncomputable def termsSq (T : List (ℝ × ((Fin L → ℝ) → ℝ))) (x : Fin L → ℝ) : ℝ := (T.map fun t => t.1 * t.2 x ^ 2).sum

/-- The same for the differences of the terms at two points. -/
noncomputable def diffSq (T : List (ℝ × ((Fin L → ℝ) → ℝ))) (x y : Fin L → ℝ) : ℝ := (T.map fun t => t.1 * (t.2 x - t.2 y) ^ 2).sum

theorem termsSq_comb (T : List (ℝ × ((Fin L → ℝ) → ℝ))) (hf : ∀ t ∈ T, IsAffineFn t.2) (x y : Fin L → ℝ) (a : ℝ) :
    termsSq T (fun i => a * x i + (1 - a) * y i) = a * termsSq T x + (1 - a) * termsSq T y - a * (1 - a) * diffSq T x y := by
  induction T with
  | nil => simp [termsSq, diffSq]
  | cons t T ih =>
    have h := ih fun t ht => hf t (by simp [ht])
    simp only [termsSq, diffSq, List.map_cons, List.sum_cons] at h ⊢
    rw [h, hf t (by simp)]
    ring

theorem diffSq_nonneg (T : List (ℝ × ((Fin L → ℝ) → ℝ))) (hw : ∀ t ∈ T, 0 ≤ t.1) (x y : Fin L → ℝ) : 0 ≤ diffSq T x y := by
  refine List.sum_nonneg fun z hz => ?_
  obtain ⟨t, ht, rfl⟩ := List.mem_map.1 hz
  exact mul_nonneg (hw t ht) (sq_nonneg _)

theorem diffSq_le (T : List (ℝ × ((Fin L → ℝ) → ℝ))) (hw : ∀ t ∈ T, 0 ≤ t.1) (x y : Fin L → ℝ) :
    diffSq T x y ≤ 2 * termsSq T x + 2 * termsSq T y := by
  induction T with
  | nil => simp [termsSq, diffSq]
  | cons t T ih =>
    have h := ih fun t ht => hw t (by simp [ht])
    have h0 := hw t (by simp)
    simp only [termsSq, diffSq, List.map_cons, List.sum_cons] at h ⊢
    nlinarith [mul_nonneg h0 (sq_nonneg (t.2 x + t.2 y))]

theorem IsAffineFn.sub {f : (Fin L → ℝ) → ℝ} (h : IsAffineFn f) (x y : Fin L → ℝ) : f x - f y = f (x - y) - f 0 := by
  obtain ⟨T, hT⟩ := h.linear
  rw [hT x, hT y, hT (x - y), map_sub]
  ring

theorem IsAffineFn.smul {f : (Fin L → ℝ) → ℝ} (h : IsAffineFn f) (a : ℝ) (x : Fin L → ℝ) : f (a • x) - f 0 = a * (f x - f 0) := by
  obtain ⟨T, hT⟩ := h.linear
  rw [hT x, hT (a • x), map_smul, smul_eq_mul]
  ring

theorem IsAffineFn.continuous {f : (Fin L → ℝ) → ℝ} (h : IsAffineFn f) : Continuous f := by
  obtain ⟨T, hT⟩ := h.linear
  rw [funext hT]
  exact T.continuous_of_finiteDimensional.add continuous_const

theorem diffSq_sub (T : List (ℝ × ((Fin L → ℝ) → ℝ))) (hf : ∀ t ∈ T, IsAffineFn t.2) (x y : Fin L → ℝ) :
    diffSq T x y = diffSq T (x - y) 0 := by
  rw [diffSq, diffSq]
  congr 1
  exact List.map_congr_left fun t ht => by rw [(hf t ht).sub]

theorem diffSq_smul (T : List (ℝ × ((Fin L → ℝ) → ℝ))) (hf : ∀ t ∈ T, IsAffineFn t.2) (a : ℝ) (x : Fin L → ℝ) :
    diffSq T (a • x) 0 = a ^ 2 * diffSq T x 0 := by
  rw [diffSq, diffSq, ← List.sum_map_mul_left]
  congr 1
  exact List.map_congr_left fun t ht => by
    rw [(hf t ht).smul]
    ring

theorem continuous_termsSq (T : List (ℝ × ((Fin L → ℝ) → ℝ))) (hf : ∀ t ∈ T, IsAffineFn t.2) : Continuous (termsSq T) := by
  induction T with
  | nil =>
    have e : termsSq ([] : List (ℝ × ((Fin L → ℝ) → ℝ))) = fun _ => 0 := by
      funext x
      simp [termsSq]
    rw [e]
    exact continuous_const
  | cons t T ih =>
    have h := ih fun t ht => hf t (by simp [ht])
    have h0 := (hf t (by simp)).continuous
    have e : termsSq (t :: T) = fun x => t.1 * t.2 x ^ 2 + termsSq T x := by
      funext x
      simp [termsSq]
    rw [e]
    exact (continuous_const.mul (h0.pow 2)).add h

theorem continuous_diffSq (T : List (ℝ × ((Fin L → ℝ) → ℝ))) (hf : ∀ t ∈ T, IsAffineFn t.2) : Continuous fun x => diffSq T x 0 := by
  induction T with
  | nil => simpa [diffSq] using (continuous_const : Continuous fun _ : Fin L → ℝ => (0 : ℝ))
  | cons t T ih =>
    have h := ih fun t ht => hf t (by simp [ht])
    have h0 := (hf t (by simp)).continuous
    have e : (fun x => diffSq (t :: T) x 0) = fun x => t.1 * (t.2 x - t.2 0) ^ 2 + diffSq T x 0 := by
      funext x
      simp [diffSq]
    rw [e]
    exact (continuous_const.mul ((h0.sub continuous_const).pow 2)).add h

/-- The terms separate points. -/
def Definite (T : List (ℝ × ((Fin L → ℝ) → ℝ))) : Prop := ∀ x y, diffSq T x y = 0 → x = y

/-- A definite sum of squares grows at least like the square of the distance. -/
theorem Definite.coercive {T : List (ℝ × ((Fin L → ℝ) → ℝ))} (hd : Definite T) (hf : ∀ t ∈ T, IsAffineFn t.2)
    (hw : ∀ t ∈ T, 0 ≤ t.1) : ∃ μ > 0, ∀ x y, μ * ∑ i, (x i - y i) ^ 2 ≤ diffSq T x y := by
  let S : Set (Fin L → ℝ) := {v | ∑ i, v i ^ 2 = 1}
  have hS : IsCompact S := by
    refine Metric.isCompact_of_isClosed_isBounded ?_ ?_
    · exact isClosed_eq (continuous_finsetSum _ fun i _ => (continuous_apply i).pow 2) continuous_const
    · refine (Metric.isBounded_closedBall (x := (0 : Fin L → ℝ)) (r := 1)).subset fun v hv => ?_
      rw [mem_closedBall_zero_iff, pi_norm_le_iff_of_nonneg zero_le_one]
      intro i
      rw [Real.norm_eq_abs, ← sq_le_one_iff_abs_le_one]
      exact (Finset.single_le_sum (f := fun i => v i ^ 2) (fun i _ => sq_nonneg _) (Finset.mem_univ i)).trans_eq hv
  by_cases hne : S.Nonempty
  · obtain ⟨v, hv, hmin⟩ := hS.exists_isMinOn hne (continuous_diffSq T hf).continuousOn
    have hpos : 0 < diffSq T v 0 := by
      refine lt_of_le_of_ne (diffSq_nonneg T hw _ _) fun h0 => ?_
      have := hd v 0 h0.symm
      rw [this] at hv
      simp [S] at hv
    refine ⟨_, hpos, fun x y => ?_⟩
    have hs : 0 ≤ ∑ i, (x i - y i) ^ 2 := Finset.sum_nonneg fun i _ => sq_nonneg _
    rcases hs.eq_or_lt with h0 | h0
    · rw [← h0, mul_zero]
      exact diffSq_nonneg T hw _ _
    · set s := ∑ i, (x i - y i) ^ 2 with hs'
      have hr : 0 < Real.sqrt s := Real.sqrt_pos.2 h0
      have hmem : (Real.sqrt s)⁻¹ • (x - y) ∈ S := by
        show ∑ i, ((Real.sqrt s)⁻¹ • (x - y)) i ^ 2 = 1
        simp only [Pi.smul_apply, Pi.sub_apply, smul_eq_mul, mul_pow, ← Finset.mul_sum, ← hs', inv_pow, Real.sq_sqrt hs]
        exact inv_mul_cancel₀ h0.ne'
      have h1 := hmin hmem
      change diffSq T v 0 ≤ diffSq T _ 0 at h1
      rw [diffSq_smul T hf, inv_pow, Real.sq_sqrt hs, ← diffSq_sub T hf, inv_mul_eq_div, le_div_iff₀ h0] at h1
      exact h1
  · refine ⟨1, one_pos, fun x y => ?_⟩
    have : ∑ i, (x i - y i) ^ 2 = 0 := by
      by_contra h0
      have hs : 0 ≤ ∑ i, (x i - y i) ^ 2 := Finset.sum_nonneg fun i _ => sq_nonneg _
      refine hne ⟨(Real.sqrt (∑ i, (x i - y i) ^ 2))⁻¹ • (x - y), ?_⟩
      show ∑ i, ((Real.sqrt (∑ i, (x i - y i) ^ 2))⁻¹ • (x - y)) i ^ 2 = 1
      simp only [Pi.smul_apply, Pi.sub_apply, smul_eq_mul, mul_pow, ← Finset.mul_sum, inv_pow, Real.sq_sqrt hs]
      exact inv_mul_cancel₀ h0
    rw [this, mul_zero]
    exact diffSq_nonneg T hw _ _

/-- A set that contains the segment between any two of its points. -/
def SegmentClosed (S : Set (Fin L → ℝ)) : Prop :=
  ∀ x ∈ S, ∀ y ∈ S, ∀ a : ℝ, 0 ≤ a → a ≤ 1 → (fun i => a * x i + (1 - a) * y i) ∈ S

/-- A convex function on the coefficient space. -/
def ConvexFn (H : (Fin L → ℝ) → ℝ) : Prop :=
  ∀ (x y : Fin L → ℝ) (a : ℝ), 0 ≤ a → a ≤ 1 → H (fun i => a * x i + (1 - a) * y i) ≤ a * H x + (1 - a) * H y

theorem ConvexFn.continuous {H : (Fin L → ℝ) → ℝ} (h : ConvexFn H) : Continuous H := by
  have hc : ConvexOn ℝ Set.univ H := by
    refine ⟨convex_univ, fun x _ y _ a b ha hb hab => ?_⟩
    have hb' : b = 1 - a := by linarith
    subst hb'
    exact h x y a ha (by linarith)
  exact continuousOn_univ.1 (hc.continuousOn isOpen_univ)

/-- At a minimiser of a sum of squares plus a convex function over a convex set the objective grows by at least the squares of the
differences. -/
theorem growth {T : List (ℝ × ((Fin L → ℝ) → ℝ))} (hf : ∀ t ∈ T, IsAffineFn t.2) {H : (Fin L → ℝ) → ℝ} (hH : ConvexFn H)
    {S : Set (Fin L → ℝ)} (hS : SegmentClosed S) {x : Fin L → ℝ} (hx : x ∈ S) (hmin : ∀ y ∈ S, termsSq T x + H x ≤ termsSq T y + H y)
    (y : Fin L → ℝ) (hy : y ∈ S) : diffSq T x y ≤ (termsSq T y + H y) - (termsSq T x + H x) := by
  by_contra hlt
  push Not at hlt
  have key : ∀ a : ℝ, 0 < a → a ≤ 1 → (1 - a) * diffSq T x y ≤ (termsSq T y + H y) - (termsSq T x + H x) := by
    intro a h0 h1
    have h := hmin _ (hS x hx y hy (1 - a) (by linarith) (by linarith))
    have h2 := hH x y (1 - a) (by linarith) (by linarith)
    rw [termsSq_comb T hf] at h
    have : 0 ≤ a * ((termsSq T y + H y) - (termsSq T x + H x) - (1 - a) * diffSq T x y) := by linarith
    have := nonneg_of_mul_nonneg_right this h0
    linarith
  have h0 := sub_nonneg.2 (hmin y hy)
  have hD : 0 < diffSq T x y := lt_of_le_of_lt h0 hlt
  have := key ((diffSq T x y - ((termsSq T y + H y) - (termsSq T x + H x))) / (2 * diffSq T x y)) (by
    refine div_pos ?_ ?_ <;> linarith) (by
    rw [div_le_one (by linarith)]
    linarith)
  rw [sub_mul, div_mul_eq_mul_div, one_mul, mul_comm _ (diffSq T x y), mul_comm 2, mul_div_mul_left _ _ hD.ne'] at this
  linarith

/-- A definite sum of squares plus a convex function that is bounded below has exactly one minimiser on a closed convex set that is
not empty. -/
theorem Definite.exists_unique {T : List (ℝ × ((Fin L → ℝ) → ℝ))} (hd : Definite T) (hf : ∀ t ∈ T, IsAffineFn t.2)
    (hw : ∀ t ∈ T, 0 ≤ t.1) {H : (Fin L → ℝ) → ℝ} (hH : ConvexFn H) (hH0 : ∀ x, 0 ≤ H x) {S : Set (Fin L → ℝ)}
    (hS : SegmentClosed S) (hc : IsClosed S) (hne : S.Nonempty) :
    ∃! x, x ∈ S ∧ ∀ y ∈ S, termsSq T x + H x ≤ termsSq T y + H y := by
  obtain ⟨μ, hμ, hco⟩ := hd.coercive hf hw
  obtain ⟨x0, hx0⟩ := hne
  have hcont : Continuous fun x => termsSq T x + H x := (continuous_termsSq T hf).add hH.continuous
  have hcomp : IsCompact (S ∩ {x | termsSq T x + H x ≤ termsSq T x0 + H x0}) := by
    refine Metric.isCompact_of_isClosed_isBounded (hc.inter (isClosed_le hcont continuous_const)) ?_
    refine (Metric.isBounded_closedBall (x := x0) (r := Real.sqrt (4 * (termsSq T x0 + H x0) / μ))).subset fun x hx => ?_
    have h1 : diffSq T x x0 ≤ 4 * (termsSq T x0 + H x0) := by
      have := diffSq_le T hw x x0
      have h2 : termsSq T x + H x ≤ termsSq T x0 + H x0 := hx.2
      linarith [hH0 x, hH0 x0]
    rw [Metric.mem_closedBall, dist_eq_norm, pi_norm_le_iff_of_nonneg (Real.sqrt_nonneg _)]
    intro i
    rw [Real.norm_eq_abs]
    refine Real.abs_le_sqrt ?_
    rw [le_div_iff₀ hμ, mul_comm]
    refine le_trans ?_ ((hco x x0).trans h1)
    refine mul_le_mul_of_nonneg_left ?_ hμ.le
    exact Finset.single_le_sum (f := fun i => (x i - x0 i) ^ 2) (fun i _ => sq_nonneg _) (Finset.mem_univ i)
  obtain ⟨x, hx, hmin⟩ := hcomp.exists_isMinOn ⟨x0, hx0, le_refl (termsSq T x0 + H x0)⟩ hcont.continuousOn
  have hbest : ∀ y ∈ S, termsSq T x + H x ≤ termsSq T y + H y := by
    intro y hy
    rcases le_total (termsSq T y + H y) (termsSq T x0 + H x0) with h | h
    · exact hmin ⟨hy, h⟩
    · exact le_trans hx.2 h
  refine ⟨x, ⟨hx.1, hbest⟩, fun y hy => ?_⟩
  have h1 := growth hf hH hS hx.1 hbest y hy.1
  have h2 := hy.2 x hx.1
  exact (hd x y (le_antisymm (by linarith) (diffSq_nonneg T hw _ _))).symm

/-! ## Change of the data -/

/-- The inner product of the terms at `x` with the differences of the terms at `y` and `z`. -/
noncomputable def cross3 (T : List (ℝ × ((Fin L → ℝ) → ℝ))) (x y z : Fin L → ℝ) : ℝ :=
  (T.map fun t => t.1 * t.2 x * (t.2 y - t.2 z)).sum

theorem termsSq_expand (T : List (ℝ × ((Fin L → ℝ) → ℝ))) (x y : Fin L → ℝ) :
    termsSq T y = termsSq T x + 2 * cross3 T x y x + diffSq T x y := by
  induction T with
  | nil => simp [termsSq, diffSq, cross3]
  | cons t T ih =>
    simp only [termsSq, diffSq, cross3, List.map_cons, List.sum_cons] at ih ⊢
    rw [ih]
    ring

/-- The variational inequality at a minimiser. -/
theorem variational {T : List (ℝ × ((Fin L → ℝ) → ℝ))} (hf : ∀ t ∈ T, IsAffineFn t.2) {S : Set (Fin L → ℝ)} (hS : SegmentClosed S)
    {x : Fin L → ℝ} (hx : x ∈ S) (hmin : ∀ y ∈ S, termsSq T x ≤ termsSq T y) (y : Fin L → ℝ) (hy : y ∈ S) : 0 ≤ cross3 T x y x := by
  have h1 := growth hf (H := fun _ => 0) (fun _ _ a _ _ => by simp) hS hx (by simpa using hmin) y hy
  have h2 := termsSq_expand T x y
  simp only [add_zero] at h1
  linarith

/-- Two problems that differ by constants in the terms: the minimisers over a convex set are at most as far apart as the data. -/
theorem minimisers_stable (U : List (ℝ × ((Fin L → ℝ) → ℝ) × ℝ × ℝ)) (hf : ∀ u ∈ U, IsAffineFn u.2.1) (hw : ∀ u ∈ U, 0 ≤ u.1)
    {S : Set (Fin L → ℝ)} (hS : SegmentClosed S) {x y : Fin L → ℝ} (hx : x ∈ S) (hy : y ∈ S)
    (hxm : ∀ z ∈ S, (U.map fun u => u.1 * (u.2.1 x + u.2.2.1) ^ 2).sum ≤ (U.map fun u => u.1 * (u.2.1 z + u.2.2.1) ^ 2).sum)
    (hym : ∀ z ∈ S, (U.map fun u => u.1 * (u.2.1 y + u.2.2.2) ^ 2).sum ≤ (U.map fun u => u.1 * (u.2.1 z + u.2.2.2) ^ 2).sum) :
    (U.map fun u => u.1 * (u.2.1 x - u.2.1 y) ^ 2).sum ≤ (U.map fun u => u.1 * (u.2.2.1 - u.2.2.2) ^ 2).sum := by
  have key : ∀ (g : ℝ × ((Fin L → ℝ) → ℝ) × ℝ × ℝ → ℝ) {x : Fin L → ℝ}, x ∈ S →
      (∀ z ∈ S, (U.map fun u => u.1 * (u.2.1 x + g u) ^ 2).sum ≤ (U.map fun u => u.1 * (u.2.1 z + g u) ^ 2).sum) →
      ∀ y ∈ S, 0 ≤ (U.map fun u => u.1 * (u.2.1 x + g u) * (u.2.1 y - u.2.1 x)).sum := by
    intro g x hx hm y hy
    have hA : ∀ t ∈ U.map fun u => (u.1, fun x => u.2.1 x + g u), IsAffineFn t.2 := by
      intro t ht
      obtain ⟨u, hu, rfl⟩ := List.mem_map.1 ht
      intro a b s
      simp only [hf u hu a b s]
      ring
    have hv := variational hA hS hx (fun z hz => by
      have := hm z hz
      simpa [termsSq, List.map_map, Function.comp_def] using this) y hy
    simpa [cross3, List.map_map, Function.comp_def] using hv
  have h1 := key (fun u => u.2.2.1) hx hxm y hy
  have h2 := key (fun u => u.2.2.2) hy hym x hx
  have h3 : 2 * ((U.map fun u => u.1 * (u.2.1 x + u.2.2.1) * (u.2.1 y - u.2.1 x)).sum +
      (U.map fun u => u.1 * (u.2.1 y + u.2.2.2) * (u.2.1 x - u.2.1 y)).sum) + (U.map fun u => u.1 * (u.2.1 x - u.2.1 y) ^ 2).sum ≤
      (U.map fun u => u.1 * (u.2.2.1 - u.2.2.2) ^ 2).sum := by
    clear h1 h2 key hxm hym hf
    induction U with
    | nil => simp
    | cons u U ih =>
      have h := ih fun u hu => hw u (by simp [hu])
      have h0 := hw u (by simp)
      simp only [List.map_cons, List.sum_cons] at h ⊢
      nlinarith [mul_nonneg h0 (sq_nonneg (u.2.2.1 - u.2.2.2 - (u.2.1 y - u.2.1 x)))]
  linarith

end Verif
