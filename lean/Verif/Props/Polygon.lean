import Verif.Model.Winding
import Mathlib.Analysis.Convex.Segment
import Mathlib.LinearAlgebra.LinearIndependent.Lemmas
import Mathlib.Algebra.Order.BigOperators.Group.Finset
import Mathlib.Algebra.Ring.Parity
import Mathlib.Algebra.BigOperators.Intervals
import Mathlib.Tactic.FieldSimp
import Mathlib.Tactic.LinearCombination

/-!
# Properties C49, C50, C53, C64, C65: segments and polygons
-/

namespace Verif

open Finset

/-! ## C49 -/

theorem lineDenom_ne_iff (p0 p1 p2 p3 : ℝ × ℝ) :
    lineDenom p0 p1 p2 p3 ≠ 0 ↔ LinearIndependent ℝ ![p1 - p0, p3 - p2] := by
  rw [LinearIndependent.pair_iff]
  constructor
  · intro h s t hst
    have h1 := congrArg Prod.fst hst
    have h2 := congrArg Prod.snd hst
    simp only [Prod.fst_add, Prod.smul_fst, Prod.snd_add, Prod.smul_snd, smul_eq_mul, Prod.fst_zero, Prod.snd_zero] at h1 h2
    have e1 : s * lineDenom p0 p1 p2 p3 = 0 := by
      rw [lineDenom]
      linear_combination (p3 - p2).2 * h1 - (p3 - p2).1 * h2
    have e2 : t * lineDenom p0 p1 p2 p3 = 0 := by
      rw [lineDenom]
      linear_combination -(p1 - p0).2 * h1 + (p1 - p0).1 * h2
    exact ⟨(mul_eq_zero.1 e1).resolve_right h, (mul_eq_zero.1 e2).resolve_right h⟩
  · intro h h0
    rw [lineDenom] at h0
    have k1 := h ((p3 - p2).2) (-(p1 - p0).2) (by
      ext
      · simp only [Prod.fst_add, Prod.smul_fst, smul_eq_mul, Prod.fst_zero]
        linear_combination h0
      · simp only [Prod.snd_add, Prod.smul_snd, smul_eq_mul, Prod.snd_zero]
        ring)
    have k2 := h ((p3 - p2).1) (-(p1 - p0).1) (by
      ext
      · simp only [Prod.fst_add, Prod.smul_fst, smul_eq_mul, Prod.fst_zero]
        ring
      · simp only [Prod.snd_add, Prod.smul_snd, smul_eq_mul, Prod.snd_zero]
        linear_combination -h0)
    have z : (p1 - p0) = 0 := by
      ext
      · simpa using neg_eq_zero.1 k2.2
      · simpa using neg_eq_zero.1 k1.2
    have := h 1 0 (by rw [z]; simp)
    simp at this

/-- **C49.** The test is positive exactly when the segments are not parallel (nor degenerate) and have a common point, end
points included. -/
theorem C49_intersection_iff (p0 p1 p2 p3 : ℝ × ℝ) :
    lineIntersection p0 p1 p2 p3 ↔
      LinearIndependent ℝ ![p1 - p0, p3 - p2] ∧ (segment ℝ p0 p1 ∩ segment ℝ p2 p3).Nonempty := by
  rw [← lineDenom_ne_iff]
  by_cases hd : lineDenom p0 p1 p2 p3 = 0
  · simp [lineIntersection, hd]
  simp only [ne_eq, hd, not_false_eq_true, true_and]
  have hinv : lineInvDenom p0 p1 p2 p3 = 1 / lineDenom p0 p1 p2 p3 := by simp [lineInvDenom, hd]
  rw [segment_eq_image', segment_eq_image']
  constructor
  · rintro ⟨h1, h2, h3, h4, -⟩
    rw [hinv] at h1 h2 h3 h4
    refine ⟨_, ⟨_, ⟨h3, h4⟩, rfl⟩, ⟨_, ⟨h1, h2⟩, ?_⟩⟩
    have hD : lineDenom p0 p1 p2 p3 = -(p3.1 - p2.1) * (p1.2 - p0.2) + (p1.1 - p0.1) * (p3.2 - p2.2) := rfl
    generalize lineDenom p0 p1 p2 p3 = D at hD hd
    ext
    · simp only [Prod.fst_add, Prod.smul_fst, smul_eq_mul, Prod.fst_sub, Prod.snd_sub]
      field_simp
      linear_combination (p2.1 - p0.1) * hD
    · simp only [Prod.snd_add, Prod.smul_snd, smul_eq_mul, Prod.fst_sub, Prod.snd_sub]
      field_simp
      linear_combination (p2.2 - p0.2) * hD
  · rintro ⟨x, ⟨t, ht, hx⟩, ⟨s, hs, hx'⟩⟩
    have h := hx.trans hx'.symm
    have e1 := congrArg Prod.fst h
    have e2 := congrArg Prod.snd h
    simp only [Prod.fst_add, Prod.smul_fst, Prod.snd_add, Prod.smul_snd, smul_eq_mul] at e1 e2
    have hS : (-(p1 - p0).2 * (p0.1 - p2.1) + (p1 - p0).1 * (p0.2 - p2.2)) * lineInvDenom p0 p1 p2 p3 = s := by
      rw [hinv, mul_one_div, div_eq_iff hd, lineDenom]
      linear_combination -(p1 - p0).2 * e1 + (p1 - p0).1 * e2
    have hT : ((p3 - p2).1 * (p0.2 - p2.2) - (p3 - p2).2 * (p0.1 - p2.1)) * lineInvDenom p0 p1 p2 p3 = t := by
      rw [hinv, mul_one_div, div_eq_iff hd, lineDenom]
      linear_combination -(p3 - p2).2 * e1 + (p3 - p2).1 * e2
    simp only [lineIntersection, hS, hT]
    exact ⟨hs.1, hs.2, ht.1, ht.2, hd⟩

/-- **C49.** The order of the two segments, and their directions, do not matter. -/
theorem C49_symmetric (p0 p1 p2 p3 : ℝ × ℝ) :
    (lineIntersection p0 p1 p2 p3 ↔ lineIntersection p2 p3 p0 p1) ∧
    (lineIntersection p0 p1 p2 p3 ↔ lineIntersection p1 p0 p2 p3) := by
  have e1 : LinearIndependent ℝ ![p1 - p0, p3 - p2] ↔ LinearIndependent ℝ ![p3 - p2, p1 - p0] := by
    rw [← lineDenom_ne_iff, ← lineDenom_ne_iff, show lineDenom p2 p3 p0 p1 = -lineDenom p0 p1 p2 p3 by
      simp only [lineDenom]; ring, neg_ne_zero]
  have e2 : LinearIndependent ℝ ![p1 - p0, p3 - p2] ↔ LinearIndependent ℝ ![p0 - p1, p3 - p2] := by
    rw [← lineDenom_ne_iff, ← lineDenom_ne_iff, show lineDenom p1 p0 p2 p3 = -lineDenom p0 p1 p2 p3 by
      simp only [lineDenom, Prod.fst_sub, Prod.snd_sub]; ring, neg_ne_zero]
  constructor
  · rw [C49_intersection_iff, C49_intersection_iff, Set.inter_comm, e1]
  · rw [C49_intersection_iff, C49_intersection_iff, segment_symm ℝ p0 p1, e2]

example : lineIntersection (0, 0) (2, 2) (0, 2) (2, 0) ∧ ¬ lineIntersection (0, 0) (2, 2) (0, 1) (2, 3) ∧
    ¬ lineIntersection (0, 0) (1, 1) (0, 4) (4, 0) := by
  refine ⟨?_, ?_, ?_⟩ <;> simp only [lineIntersection, lineInvDenom, lineDenom] <;> norm_num

/-! ## C50, C64 -/

open Classical in
/-- Number of edges among `0, ..., k-1` that cross a non-neighbouring edge. -/
noncomputable def crossingEdges (n : ℕ) (P : ℕ → ℝ × ℝ) (k : ℕ) : ℕ := #{a ∈ range k | edgeCrosses n P a}

open Classical in
theorem crossingEdges_succ (n : ℕ) (P : ℕ → ℝ × ℝ) (k : ℕ) :
    crossingEdges n P (k + 1) = crossingEdges n P k + if edgeCrosses n P k then 1 else 0 := by
  rw [crossingEdges, range_add_one, filter_insert]
  split_ifs with h
  · rw [card_insert_of_notMem (by simp)]
    rfl
  · rfl

theorem scanWeight_eq (n : ℕ) (P : ℕ → ℝ × ℝ) (a : ℕ) : scanWeight n P a = (-1) ^ crossingEdges n P (a + 1) := by
  induction a with
  | zero =>
    rw [crossingEdges_succ, scanWeight, show crossingEdges n P 0 = 0 by simp [crossingEdges]]
    split_ifs <;> simp
  | succ a ih =>
    rw [crossingEdges_succ, scanWeight, ih]
    split_ifs
    · rw [pow_succ]
      ring
    · rw [add_zero]

theorem half_zero_iff (k : ℕ) : ((-1 : ℝ) ^ k + 1) / 2 = 0 ↔ ¬ Even k := by
  rcases Nat.even_or_odd k with h | h
  · simp [h.neg_one_pow, h]
  · simp [h.neg_one_pow, h]

/-- **C50.** Every weight is 0 or 1. -/
theorem C50_weights_zero_or_one (n : ℕ) (P : ℕ → ℝ × ℝ) (j : ℕ) : polygonWeight n P j = 0 ∨ polygonWeight n P j = 1 := by
  rw [polygonWeight]
  split_ifs
  · exact Or.inl rfl
  · exact Or.inr rfl

/-- **C50.** A vertex is kept exactly when the number of crossing edges on the way to it from vertex 0 is even; for vertex 0
itself the way is once around the polygon. -/
theorem C50_weight_parity (n : ℕ) (hn : 0 < n) (P : ℕ → ℝ × ℝ) :
    (∀ j, 0 < j → j < n → (polygonWeight n P j = 1 ↔ Even (crossingEdges n P j))) ∧
    (polygonWeight n P 0 = 1 ↔ Even (crossingEdges n P n)) := by
  constructor
  · intro j h0 hj
    rw [polygonWeight, show (j + n - 1) % n = j - 1 by
      rw [show j + n - 1 = j - 1 + n by omega, Nat.add_mod_right, Nat.mod_eq_of_lt (by omega)], scanWeight_eq,
      show j - 1 + 1 = j by omega]
    simp only [half_zero_iff]
    by_cases h : Even (crossingEdges n P j) <;> simp [h]
  · rw [polygonWeight, show (0 + n - 1) % n = n - 1 by rw [zero_add, Nat.mod_eq_of_lt (by omega)], scanWeight_eq,
      show n - 1 + 1 = n by omega]
    simp only [half_zero_iff]
    by_cases h : Even (crossingEdges n P n) <;> simp [h]

/-- **C50.** A polygon without crossings of non-neighbouring edges keeps every vertex. The hypothesis is stated with the
segments themselves. -/
theorem C50_simple_polygon_kept (n : ℕ) (hn : 0 < n) (P : ℕ → ℝ × ℝ)
    (hs : ∀ a b, a < n → b < n → a ≠ b → a ≠ (b + 1) % n → b ≠ (a + 1) % n →
      segment ℝ (P a) (P ((a + 1) % n)) ∩ segment ℝ (P b) (P ((b + 1) % n)) = ∅) (j : ℕ) (hj : j < n) :
    polygonWeight n P j = 1 := by
  have hc : ∀ a < n, ¬ edgeCrosses n P a := by
    rintro a ha ⟨b, hb, hi, ho⟩
    simp only [edgesOverlap, not_or] at ho
    have := hs a b ha hb ho.1 ho.2.1 (fun h => ho.2.2 h.symm)
    rw [C49_intersection_iff] at hi
    rw [nextVertex, nextVertex, this] at hi
    simp at hi
  have hz : ∀ k ≤ n, crossingEdges n P k = 0 := by
    intro k hk
    classical
    rw [crossingEdges, card_eq_zero, filter_eq_empty_iff]
    intro a ha
    exact hc a (lt_of_lt_of_le (mem_range.1 ha) hk)
  have h := C50_weight_parity n hn P
  rcases Nat.eq_zero_or_pos j with rfl | h0
  · exact h.2.2 (by rw [hz n le_rfl]; simp)
  · exact (h.1 j h0 hj).2 (by rw [hz j hj.le]; simp)

/-- A square. -/
noncomputable def square : ℕ → ℝ × ℝ
  | 0 => (0, 0)
  | 1 => (1, 0)
  | 2 => (1, 1)
  | _ => (0, 1)

example : ∀ a b, a < 4 → b < 4 → a ≠ b → a ≠ (b + 1) % 4 → b ≠ (a + 1) % 4 →
    segment ℝ (square a) (square ((a + 1) % 4)) ∩ segment ℝ (square b) (square ((b + 1) % 4)) = ∅ := by
  intro a b ha hb h1 h2 h3
  rw [segment_eq_image', segment_eq_image', Set.eq_empty_iff_forall_notMem]
  rintro x ⟨⟨t, ht, rfl⟩, ⟨s, hs, he⟩⟩
  have e1 := congrArg Prod.fst he
  have e2 := congrArg Prod.snd he
  have : (a = 0 ∧ b = 2) ∨ (a = 1 ∧ b = 3) ∨ (a = 2 ∧ b = 0) ∨ (a = 3 ∧ b = 1) := by omega
  rcases this with ⟨rfl, rfl⟩ | ⟨rfl, rfl⟩ | ⟨rfl, rfl⟩ | ⟨rfl, rfl⟩ <;> simp [square] at e1 e2

/-- A hexagon whose bottom edge is crossed by a spike: three edges cross. Both edges at vertex 0 are free of crossings. -/
noncomputable def spiked : ℕ → ℝ × ℝ
  | 0 => (0, 3)
  | 1 => (0, 0)
  | 2 => (10, 0)
  | 3 => (10, 5)
  | 4 => (5, -1)
  | _ => (0, 5)

theorem spiked_crossings : (¬ edgeCrosses 6 spiked 0 ∧ edgeCrosses 6 spiked 1 ∧ ¬ edgeCrosses 6 spiked 2) ∧
    edgeCrosses 6 spiked 3 ∧ edgeCrosses 6 spiked 4 ∧ ¬ edgeCrosses 6 spiked 5 := by
  have no : ∀ a, a < 6 → (∀ b, b < 6 → ¬ edgesOverlap 6 a b →
      ¬ lineIntersection (spiked a) (nextVertex 6 spiked a) (spiked b) (nextVertex 6 spiked b)) → ¬ edgeCrosses 6 spiked a := by
    rintro a ha h ⟨b, hb, hi, ho⟩
    exact h b hb ho hi
  refine ⟨⟨?_, ?_, ?_⟩, ?_, ?_, ?_⟩
  · apply no 0 (by norm_num)
    intro b hb ho
    simp only [edgesOverlap] at ho
    have : b = 2 ∨ b = 3 ∨ b = 4 := by omega
    rcases this with rfl | rfl | rfl <;> simp only [lineIntersection, lineInvDenom, lineDenom, nextVertex, spiked] <;> norm_num
  · refine ⟨3, by norm_num, ?_, by simp [edgesOverlap]⟩
    simp only [lineIntersection, lineInvDenom, lineDenom, nextVertex, spiked]
    norm_num
  · apply no 2 (by norm_num)
    intro b hb ho
    simp only [edgesOverlap] at ho
    have : b = 0 ∨ b = 4 ∨ b = 5 := by omega
    rcases this with rfl | rfl | rfl <;> simp only [lineIntersection, lineInvDenom, lineDenom, nextVertex, spiked] <;> norm_num
  · refine ⟨1, by norm_num, ?_, by simp [edgesOverlap]⟩
    simp only [lineIntersection, lineInvDenom, lineDenom, nextVertex, spiked]
    norm_num
  · refine ⟨1, by norm_num, ?_, by simp [edgesOverlap]⟩
    simp only [lineIntersection, lineInvDenom, lineDenom, nextVertex, spiked]
    norm_num
  · apply no 5 (by norm_num)
    intro b hb ho
    simp only [edgesOverlap] at ho
    have : b = 1 ∨ b = 2 ∨ b = 3 := by omega
    rcases this with rfl | rfl | rfl <;> simp only [lineIntersection, lineInvDenom, lineDenom, nextVertex, spiked] <;> norm_num

/-- **C64.** False of the code: there is a polygon whose first vertex gets weight 0, although neither edge at that vertex
takes part in a crossing. -/
theorem C64_first_vertex_dropped_violated_partial :
    polygonWeight 6 spiked 0 = 0 ∧ ¬ edgeCrosses 6 spiked 0 ∧ ¬ edgeCrosses 6 spiked 5 := by
  obtain ⟨⟨h0, h1, h2⟩, h3, h4, h5⟩ := spiked_crossings
  refine ⟨?_, h0, h5⟩
  have hp := (C50_weight_parity 6 (by norm_num) spiked).2
  have hc : crossingEdges 6 spiked 6 = 3 := by
    simp only [show (6 : ℕ) = 0 + 1 + 1 + 1 + 1 + 1 + 1 from rfl, crossingEdges_succ]
    simp [h0, h1, h2, h3, h4, h5, crossingEdges]
  rcases C50_weights_zero_or_one 6 spiked 0 with h | h
  · exact h
  · rw [hp, hc] at h
    exact absurd h (by decide)

/-- **C64 (when it is right).** The first vertex is kept exactly when the number of crossing edges is even. -/
theorem C64_first_vertex_kept_iff_partial (n : ℕ) (hn : 0 < n) (P : ℕ → ℝ × ℝ) :
    polygonWeight n P 0 = 1 ↔ Even (crossingEdges n P n) := (C50_weight_parity n hn P).2

/-! ## C53, C65 -/

theorem arclength_eq (n : ℕ) (P : ℕ → ℝ × ℝ) (j : ℕ) : arclength n P j = ∑ k ∈ range (j + 1), segmentLength n P k := by
  induction j with
  | zero => simp [arclength]
  | succ j ih => rw [arclength, ih, sum_range_succ _ (j + 1)]

theorem segmentLength_pos (n : ℕ) (P : ℕ → ℝ × ℝ) (j : ℕ) (h : P ((j + 1) % n) ≠ P j) : 0 < segmentLength n P j := by
  rw [segmentLength, nextVertex]
  apply Real.sqrt_pos.2
  by_contra hn
  push Not at hn
  apply h
  have h1 := sq_nonneg ((P ((j + 1) % n)).1 - (P j).1)
  have h2 := sq_nonneg ((P ((j + 1) % n)).2 - (P j).2)
  have e1 : (P ((j + 1) % n)).1 - (P j).1 = 0 := pow_eq_zero_iff (two_ne_zero) |>.1 (by linarith)
  have e2 : (P ((j + 1) % n)).2 - (P j).2 = 0 := pow_eq_zero_iff (two_ne_zero) |>.1 (by linarith)
  ext <;> linarith

/-- Euclidean length of edge `k` of a closed polygon with `n` vertices. -/
noncomputable def edgeLength (n : ℕ) (P : ℕ → ℝ × ℝ) (k : ℕ) : ℝ :=
  Real.sqrt (((P ((k + 1) % n)).1 - (P k).1) ^ 2 + ((P ((k + 1) % n)).2 - (P k).2) ^ 2)

/-- Perimeter of a closed polygon. -/
noncomputable def perimeter (n : ℕ) (P : ℕ → ℝ × ℝ) : ℝ := ∑ k ∈ range n, edgeLength n P k

/-- **C53.** If neighbouring vertices are distinct, the angles start at 0, increase strictly, stay below 1, and the step to
vertex `j+1` is the length of an edge divided by the perimeter. -/
theorem C53_angles_valid (n : ℕ) (hn : 0 < n) (P : ℕ → ℝ × ℝ) (hP : ∀ j < n, P ((j + 1) % n) ≠ P j) :
    thetaArc n P 0 = 0 ∧
    (∀ i j, i < j → j < n → thetaArc n P i < thetaArc n P j) ∧
    (∀ j < n, thetaArc n P j < 1) ∧
    ∀ j, j + 1 < n → thetaArc n P (j + 1) - thetaArc n P j = edgeLength n P (j + 1) / perimeter n P := by
  have htot : arclength n P (n - 1) = perimeter n P := by
    rw [arclength_eq, show n - 1 + 1 = n by omega]
    rfl
  have hpos : 0 < perimeter n P :=
    sum_pos (fun k hk => segmentLength_pos n P k (hP k (mem_range.1 hk))) ⟨0, mem_range.2 hn⟩
  have step : ∀ j, j + 1 < n → thetaArc n P (j + 1) - thetaArc n P j = edgeLength n P (j + 1) / perimeter n P := by
    intro j hj
    simp only [thetaArc, htot, arclength]
    rw [← sub_div]
    congr 1
    rw [show segmentLength n P (j + 1) = edgeLength n P (j + 1) from rfl]
    ring
  have mono : ∀ d i, i + d + 1 < n → thetaArc n P i < thetaArc n P (i + d + 1) := by
    intro d
    induction d with
    | zero =>
      intro i hi
      have := step i (by omega)
      have h2 : 0 < edgeLength n P (i + 1) / perimeter n P :=
        div_pos (segmentLength_pos n P _ (hP _ (by omega))) hpos
      simp only [add_zero]
      linarith
    | succ d ih =>
      intro i hi
      have h1 := ih i (by omega)
      have h3 := step (i + d + 1) (by omega)
      have h2 : 0 < edgeLength n P (i + d + 1 + 1) / perimeter n P :=
        div_pos (segmentLength_pos n P _ (hP _ (by omega))) hpos
      rw [show i + (d + 1) + 1 = i + d + 1 + 1 by ring]
      linarith
  refine ⟨by simp [thetaArc], ?_, ?_, step⟩
  · intro i j hij hj
    obtain ⟨d, rfl⟩ : ∃ d, j = i + d + 1 := ⟨j - i - 1, by omega⟩
    exact mono d i hj
  · intro j hj
    rw [thetaArc, htot, div_lt_one hpos]
    have h1 : arclength n P j ≤ perimeter n P := by
      rw [arclength_eq]
      exact sum_le_sum_of_subset_of_nonneg (range_subset_range.2 (by omega)) fun k _ _ => Real.sqrt_nonneg _
    have h2 : 0 < arclength n P 0 := segmentLength_pos n P 0 (hP 0 hn)
    linarith

example : ∀ j < 4, square ((j + 1) % 4) ≠ square j := by
  intro j hj
  have : j = 0 ∨ j = 1 ∨ j = 2 ∨ j = 3 := by omega
  rcases this with rfl | rfl | rfl | rfl <;> simp [square]

/-- **C65 (what is computed).** The angle of vertex `j` is the length of the edges `1, ..., j` divided by the perimeter. -/
theorem C65_angle_formula_partial (n : ℕ) (hn : 0 < n) (P : ℕ → ℝ × ℝ) (j : ℕ) :
    thetaArc n P j = (∑ k ∈ range j, edgeLength n P (k + 1)) / perimeter n P := by
  rw [thetaArc, arclength_eq, arclength_eq, arclength_eq, show n - 1 + 1 = n by omega, sum_range_succ', zero_add,
    sum_range_one, add_sub_cancel_right]
  rfl

/-- **C65 (when it is right).** The angle of vertex `j` is its normalised arc length from vertex 0 exactly when the edges 0
and `j` have the same length. -/
theorem C65_arc_length_iff_partial (n : ℕ) (hn : 0 < n) (P : ℕ → ℝ × ℝ) (hP : ∀ j < n, P ((j + 1) % n) ≠ P j) (j : ℕ) :
    thetaArc n P j = (∑ k ∈ range j, edgeLength n P k) / perimeter n P ↔ edgeLength n P j = edgeLength n P 0 := by
  have hpos : 0 < perimeter n P :=
    sum_pos (fun k hk => segmentLength_pos n P k (hP k (mem_range.1 hk))) ⟨0, mem_range.2 hn⟩
  rw [C65_angle_formula_partial n hn, div_left_inj' hpos.ne']
  have h := sum_range_succ (edgeLength n P) j
  rw [sum_range_succ'] at h
  constructor <;> intro hh <;> linarith

/-- A rectangle with sides 2 and 1. -/
noncomputable def rectangle : ℕ → ℝ × ℝ
  | 0 => (0, 0)
  | 1 => (2, 0)
  | 2 => (2, 1)
  | _ => (0, 1)

/-- **C65.** False of the code: vertex 1 of a 2 by 1 rectangle, at arc length 2 of 6, gets the angle 1/6. -/
theorem C65_rectangle_violated_partial :
    thetaArc 4 rectangle 1 = 1 / 6 ∧ (∑ k ∈ range 1, edgeLength 4 rectangle k) / perimeter 4 rectangle = 1 / 3 := by
  have s4 : Real.sqrt 4 = 2 := by rw [show (4 : ℝ) = 2 ^ 2 by norm_num, Real.sqrt_sq (by norm_num)]
  have h0 : edgeLength 4 rectangle 0 = 2 := by
    simp only [edgeLength, rectangle]
    norm_num [s4]
  have h1 : edgeLength 4 rectangle 1 = 1 := by
    simp only [edgeLength, rectangle]
    norm_num
  have h2 : edgeLength 4 rectangle 2 = 2 := by
    simp only [edgeLength, rectangle]
    norm_num [s4]
  have h3 : edgeLength 4 rectangle 3 = 1 := by
    simp only [edgeLength, rectangle]
    norm_num
  have hp : perimeter 4 rectangle = 6 := by
    simp only [perimeter, sum_range_succ, sum_range_zero, h0, h1, h2, h3]
    norm_num
  rw [C65_angle_formula_partial 4 (by norm_num), hp]
  simp only [sum_range_one, h0, zero_add, h1]
  norm_num

end Verif
