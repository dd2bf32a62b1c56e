import Verif.Lemmas.Graham
import Mathlib.Analysis.SpecialFunctions.Trigonometric.Basic
import Mathlib.Tactic.NormNum
import Mathlib.Data.List.GetD

/-!
# C99, C100: the hull rule of the arc length generator

C99: the points marked by `graham_scan` are the extreme points of the convex hull of the cross section. This holds when the lowest
point is unique (up to repetitions). Otherwise the lowest point on the left is lost.
-/

namespace Verif

open Real

/-! ## Sorting -/

theorem mem_lexsort {n : ℕ} {sec prim : ℕ → ℝ} {i : ℕ} : i ∈ lexsort n sec prim ↔ i < n := by
  simp [lexsort]

theorem lexsort_pairwise (n : ℕ) (sec prim : ℕ → ℝ) :
    (lexsort n sec prim).Pairwise fun i j => prim i < prim j ∨ prim i = prim j ∧ sec i ≤ sec j := by
  have h := List.pairwise_mergeSort
    (le := fun i j => (decide (prim i < prim j ∨ prim i = prim j ∧ sec i ≤ sec j) : Bool)) (by
      intro a b c hab hbc
      simp only [decide_eq_true_eq] at hab hbc ⊢
      rcases hab with hab | ⟨hab, hab'⟩ <;> rcases hbc with hbc | ⟨hbc, hbc'⟩
      · exact Or.inl (hab.trans hbc)
      · exact Or.inl (hbc ▸ hab)
      · exact Or.inl (hab ▸ hbc)
      · exact Or.inr ⟨hab.trans hbc, hab'.trans hbc'⟩) (by
      intro a b
      simp only [Bool.or_eq_true, decide_eq_true_eq]
      rcases lt_trichotomy (prim a) (prim b) with h | h | h
      · exact Or.inl (Or.inl h)
      · rcases le_total (sec a) (sec b) with h' | h'
        · exact Or.inl (Or.inr ⟨h, h'⟩)
        · exact Or.inr (Or.inr ⟨h.symm, h'⟩)
      · exact Or.inr (Or.inl h)) (List.range n)
  unfold lexsort
  refine h.imp fun hab => ?_
  simpa using hab

theorem lexsort_head {n : ℕ} (hn : 0 < n) (sec prim : ℕ → ℝ) : ∃ i l, lexsort n sec prim = i :: l ∧ i < n ∧
    ∀ j < n, prim i < prim j ∨ prim i = prim j ∧ sec i ≤ sec j := by
  cases hl : lexsort n sec prim with
  | nil =>
    have : (0 : ℕ) ∈ lexsort n sec prim := mem_lexsort.mpr hn
    rw [hl] at this
    simp at this
  | cons i l =>
    have hi : i < n := mem_lexsort.mp (hl ▸ List.mem_cons_self)
    refine ⟨i, l, rfl, hi, fun j hj => ?_⟩
    have hj' : j ∈ i :: l := hl ▸ mem_lexsort.mpr hj
    have hp := lexsort_pairwise n sec prim
    rw [hl] at hp
    rcases List.mem_cons.mp hj' with rfl | h
    · exact Or.inr ⟨rfl, le_rfl⟩
    · exact (List.pairwise_cons.mp hp).1 j h

/-- `P0` is a lowest point, and among those the leftmost. -/
theorem hullStart_spec {n : ℕ} (hn : 0 < n) (P : ℕ → ℝ × ℝ) : ∃ i < n, P i = hullStart n P ∧
    ∀ j < n, (P i).2 < (P j).2 ∨ (P i).2 = (P j).2 ∧ (P i).1 ≤ (P j).1 := by
  obtain ⟨i, l, hl, hi, h⟩ := lexsort_head hn (fun i => (P i).1) (fun i => (P i).2)
  refine ⟨i, hi, ?_, h⟩
  rw [hullStart, hl]
  rfl

/-! ## One point per angle -/

theorem keepUnique_spec (angle dist : ℕ → ℝ) (l : List ℕ) (i : ℕ)
    (h : (i :: l).Pairwise fun i j => angle i < angle j ∨ angle i = angle j ∧ -dist i ≤ -dist j) :
    (i :: keepNew angle (angle i) l).Pairwise (fun i j => angle i < angle j) ∧
      (∀ j ∈ i :: l, ∃ k ∈ i :: keepNew angle (angle i) l, angle k = angle j ∧ dist j ≤ dist k) ∧
      ∀ k ∈ i :: keepNew angle (angle i) l, k ∈ i :: l := by
  induction l generalizing i with
  | nil => simp [keepNew]
  | cons j l ih =>
    rw [List.pairwise_cons] at h
    obtain ⟨hi, hjl⟩ := h
    by_cases hne : angle j ≠ angle i
    · obtain ⟨h1, h2, h3⟩ := ih j hjl
      rw [keepNew, if_pos hne]
      have hij : angle i < angle j := by
        rcases hi j (by simp) with h | h
        · exact h
        · exact absurd h.1.symm hne
      refine ⟨List.pairwise_cons.mpr ⟨fun k hk => ?_, h1⟩, fun k hk => ?_, fun k hk => ?_⟩
      · rcases List.mem_cons.mp hk with rfl | hk'
        · exact hij
        · exact hij.trans ((List.pairwise_cons.mp h1).1 k hk')
      · rcases List.mem_cons.mp hk with rfl | hk'
        · exact ⟨k, by simp, rfl, le_rfl⟩
        · obtain ⟨k', hk'', he⟩ := h2 k hk'
          exact ⟨k', List.mem_cons_of_mem _ hk'', he⟩
      · rcases List.mem_cons.mp hk with rfl | hk'
        · simp
        · exact List.mem_cons_of_mem _ (h3 k hk')
    · rw [keepNew, if_neg hne]
      push Not at hne
      obtain ⟨h1, h2, h3⟩ := ih i (List.pairwise_cons.mpr ⟨fun k hk => hi k (List.mem_cons_of_mem _ hk),
        (List.pairwise_cons.mp hjl).2⟩)
      refine ⟨h1, fun k hk => ?_, fun k hk => ?_⟩
      · rcases List.mem_cons.mp hk with rfl | hk'
        · exact ⟨k, by simp, rfl, le_rfl⟩
        · rcases List.mem_cons.mp hk' with rfl | hk''
          · refine ⟨i, by simp, hne.symm, ?_⟩
            rcases hi k (by simp) with h | h
            · exact absurd hne h.ne'
            · linarith [h.2]
          · exact h2 k (List.mem_cons_of_mem _ hk'')
      · rcases List.mem_cons.mp (h3 k hk) with rfl | hk'
        · simp
        · exact List.mem_cons_of_mem _ (List.mem_cons_of_mem _ hk')

/-- The kept indices: distinct angles in growing order; each point has a kept one under the same angle, at least as far. -/
theorem hullKept_spec {n : ℕ} (hn : 0 < n) (P : ℕ → ℝ × ℝ) : ∃ i l, hullKept n P = i :: l ∧
    (∀ j < n, hullAngle n P i < hullAngle n P j ∨ hullAngle n P i = hullAngle n P j ∧ hullDist n P j ≤ hullDist n P i) ∧
    (hullKept n P).Pairwise (fun i j => hullAngle n P i < hullAngle n P j) ∧
    (∀ j < n, ∃ k ∈ hullKept n P, hullAngle n P k = hullAngle n P j ∧ hullDist n P j ≤ hullDist n P k) ∧
    ∀ k ∈ hullKept n P, k < n := by
  obtain ⟨i, l, hl, hi, h⟩ := lexsort_head hn (fun i => -hullDist n P i) (hullAngle n P)
  have hp := lexsort_pairwise n (fun i => -hullDist n P i) (hullAngle n P)
  rw [hl] at hp
  obtain ⟨h1, h2, h3⟩ := keepUnique_spec _ (hullDist n P) l i hp
  have hk : hullKept n P = i :: keepNew (hullAngle n P) (hullAngle n P i) l := by
    rw [hullKept, hullSorted, hl, keepUnique]
  refine ⟨i, _, hk, fun j hj => ?_, hk ▸ h1, fun j hj => ?_, fun k hk' => ?_⟩
  · rcases h j hj with h | h
    · exact Or.inl h
    · exact Or.inr ⟨h.1, by linarith [h.2]⟩
  · rw [hk]
    exact h2 j (hl ▸ mem_lexsort.mpr hj)
  · rw [hk] at hk'
    exact mem_lexsort.mp (hl ▸ h3 k hk')

/-! ## Angles -/

theorem arg_cross {z w : ℂ} (h0 : 0 < z.arg) (h : z.arg < w.arg) (hπ : w.arg < π) : 0 < z.re * w.im - w.re * z.im := by
  have hz : z ≠ 0 := by rintro rfl; simp at h0
  have hw : w ≠ 0 := by rintro rfl; rw [Complex.arg_zero] at h; linarith
  rw [← Complex.norm_mul_cos_arg z, ← Complex.norm_mul_sin_arg z, ← Complex.norm_mul_cos_arg w, ← Complex.norm_mul_sin_arg w]
  have hs : 0 < sin (w.arg - z.arg) := sin_pos_of_pos_of_lt_pi (by linarith) (by linarith)
  rw [sin_sub] at hs
  have := mul_pos (mul_pos (norm_pos_iff.mpr hz) (norm_pos_iff.mpr hw)) hs
  linarith

/-- Two points in the same direction. -/
theorem arg_same {z w : ℂ} (h : z.arg = w.arg) (hd : z.re ^ 2 + z.im ^ 2 ≤ w.re ^ 2 + w.im ^ 2) (hw : w ≠ 0) :
    ∃ t : ℝ, 0 ≤ t ∧ t ≤ 1 ∧ z.re = t * w.re ∧ z.im = t * w.im := by
  have hw' := norm_pos_iff.mpr hw
  have hn : ‖z‖ ≤ ‖w‖ := by
    rw [Complex.norm_eq_sqrt_sq_add_sq, Complex.norm_eq_sqrt_sq_add_sq]
    exact sqrt_le_sqrt hd
  refine ⟨‖z‖ / ‖w‖, by positivity, (div_le_one hw').mpr hn, ?_, ?_⟩
  · rw [← Complex.norm_mul_cos_arg z, ← Complex.norm_mul_cos_arg w, h]
    field_simp
  · rw [← Complex.norm_mul_sin_arg z, ← Complex.norm_mul_sin_arg w, h]
    field_simp

/-- The lowest point of the cross section is unique, up to repetitions. -/
def UniqueLowest (n : ℕ) (P : ℕ → ℝ × ℝ) : Prop :=
  ∀ i < n, (∀ k < n, (P i).2 ≤ (P k).2) → ∀ j < n, (P j).2 = (P i).2 → P j = P i

theorem UniqueLowest.start {n : ℕ} {P : ℕ → ℝ × ℝ} (hn : 0 < n) (hU : UniqueLowest n P) {j : ℕ} (hj : j < n)
    (h : (P j).2 = (hullStart n P).2) : P j = hullStart n P := by
  obtain ⟨i, hi, he, hlow⟩ := hullStart_spec hn P
  rw [← he] at h ⊢
  refine hU i hi (fun k hk => ?_) j hj h
  rcases hlow k hk with h | h
  · exact h.le
  · exact h.1.le

theorem hullAngle_nonneg {n : ℕ} (hn : 0 < n) (P : ℕ → ℝ × ℝ) {j : ℕ} (hj : j < n) : 0 ≤ hullAngle n P j := by
  obtain ⟨i, hi, he, hlow⟩ := hullStart_spec hn P
  rw [hullAngle, Complex.arg_nonneg_iff, ← he]
  rcases hlow j hj with h | h
  · simpa using h.le
  · simp [h.1]

theorem hullAngle_start {n : ℕ} (P : ℕ → ℝ × ℝ) {j : ℕ} (h : P j = hullStart n P) : hullAngle n P j = 0 := by
  rw [hullAngle, h]
  simp only [sub_self]
  exact Complex.arg_zero

theorem hullAngle_pos {n : ℕ} {P : ℕ → ℝ × ℝ} (hn : 0 < n) (hU : UniqueLowest n P) {j : ℕ} (hj : j < n)
    (h : P j ≠ hullStart n P) : 0 < hullAngle n P j ∧ hullAngle n P j < π := by
  have him : (P j).2 - (hullStart n P).2 ≠ 0 := fun h0 => h (hU.start hn hj (by linarith))
  constructor
  · refine lt_of_le_of_ne (hullAngle_nonneg hn P hj) fun h0 => ?_
    exact him (Complex.arg_eq_zero_iff.mp h0.symm).2
  · refine lt_of_le_of_ne (Complex.arg_le_pi _) fun h0 => ?_
    exact him (Complex.arg_eq_pi_iff.mp h0).2

/-! ## The marked points -/

section
variable {n : ℕ} {P : ℕ → ℝ × ℝ}

theorem hullPoint_zero (hn : 0 < n) (hU : UniqueLowest n P) : hullPoint n P 0 = hullStart n P := by
  obtain ⟨i, l, hl, hfirst, -, -, hlt⟩ := hullKept_spec hn P
  obtain ⟨s, hs, hse, -⟩ := hullStart_spec hn P
  have hi : i < n := hlt i (hl ▸ List.mem_cons_self)
  have : hullPoint n P 0 = P i := by rw [hullPoint, hl]; rfl
  rw [this]
  by_contra hne
  have h1 := (hullAngle_pos hn hU hi hne).1
  have h2 := hullAngle_start P hse
  rcases hfirst s hs with h | h <;> linarith [h]

theorem hull_fan (hn : 0 < n) (hU : UniqueLowest n P) : Fan (hullPoint n P) (hullKept n P).length := by
  obtain ⟨i0, l, hl, hfirst, hpw, -, hlt⟩ := hullKept_spec hn P
  intro i j hi hij hj
  rw [hullPoint_zero hn hU]
  have hget : ∀ k (hk : k < (hullKept n P).length), hullPoint n P k = P ((hullKept n P)[k]) := by
    intro k hk
    rw [hullPoint, List.getD_eq_getElem _ _ hk]
  rw [hget i (hij.trans hj), hget j hj]
  rw [List.pairwise_iff_getElem] at hpw
  have h0i := hpw 0 i (by omega) (hij.trans hj) (by omega)
  have hij' := hpw i j (hij.trans hj) hj hij
  have hin := hlt _ (List.getElem_mem (hij.trans hj))
  have hjn := hlt _ (List.getElem_mem hj)
  have h00 := hullAngle_nonneg hn P (hlt _ (List.getElem_mem (show 0 < (hullKept n P).length by omega)))
  have hpos : 0 < hullAngle n P ((hullKept n P)[i]) := h00.trans_lt h0i
  have hj' : P ((hullKept n P)[j]) ≠ hullStart n P := by
    intro h
    have := hullAngle_start P h
    linarith
  have hπ := (hullAngle_pos hn hU hjn hj').2
  have := arg_cross (z := ⟨_, _⟩) (w := ⟨_, _⟩) hpos hij' hπ
  simp only at this
  unfold ccw
  linarith

theorem hull_kept_hull (hn : 0 < n) (hU : UniqueLowest n P) :
    convexHull ℝ (P '' {i | i < n}) = convexHull ℝ (hullPoint n P '' {k | k < (hullKept n P).length}) := by
  obtain ⟨i0, l, hl, hfirst, hpw, hcov, hlt⟩ := hullKept_spec hn P
  have hget : ∀ k (hk : k < (hullKept n P).length), hullPoint n P k = P ((hullKept n P)[k]) := by
    intro k hk
    rw [hullPoint, List.getD_eq_getElem _ _ hk]
  apply Set.Subset.antisymm
  · refine convexHull_min ?_ (convex_convexHull ℝ _)
    rintro _ ⟨j, hj, rfl⟩
    have hlen : 0 < (hullKept n P).length := by rw [hl]; simp
    have h0 : hullStart n P ∈ hullPoint n P '' {k | k < (hullKept n P).length} := ⟨0, hlen, hullPoint_zero hn hU⟩
    by_cases hjs : P j = hullStart n P
    · rw [hjs]; exact subset_convexHull ℝ _ h0
    · obtain ⟨k, hk, hang, hdist⟩ := hcov j hj
      obtain ⟨m, hm, rfl⟩ := List.getElem_of_mem hk
      have hkm : P ((hullKept n P)[m]) ∈ hullPoint n P '' {k | k < (hullKept n P).length} := ⟨m, hm, hget m hm⟩
      have hw : (⟨(P ((hullKept n P)[m])).1 - (hullStart n P).1, (P ((hullKept n P)[m])).2 - (hullStart n P).2⟩ : ℂ) ≠ 0 := by
        intro h
        have h1 := congrArg Complex.re h
        have h2 := congrArg Complex.im h
        simp only [Complex.zero_re, Complex.zero_im] at h1 h2
        have := hullAngle_start (n := n) P (j := (hullKept n P)[m]) (by ext <;> linarith)
        have := (hullAngle_pos hn hU hj hjs).1
        linarith
      obtain ⟨t, ht0, ht1, hre, him⟩ := arg_same hang.symm hdist hw
      simp only at hre him
      have heq : P j = (1 - t) • hullStart n P + t • P ((hullKept n P)[m]) := by
        ext
        · simp only [Prod.fst_add, Prod.smul_fst, smul_eq_mul]; linarith
        · simp only [Prod.snd_add, Prod.smul_snd, smul_eq_mul]; linarith
      rw [heq]
      exact convex_convexHull ℝ _ (subset_convexHull ℝ _ h0) (subset_convexHull ℝ _ hkm) (by linarith) ht0 (by ring)
  · refine convexHull_mono ?_
    rintro _ ⟨k, hk, rfl⟩
    exact ⟨_, hlt _ (List.getElem_mem hk), (hget k hk).symm⟩

/-- C99, under the condition that the lowest point is unique: called outside of `jit` and `vmap`, the scan marks exactly the
extreme points of the convex hull.

Missing: the scan runs under `vmap` only (C100), and with two different lowest points the statement is false
(`C99_lowest_lost_violated_partial`). -/
theorem C99_marks_hull_partial (hU : UniqueLowest n P) {hull : List ℕ} (h : grahamScan false n P = .ok hull) :
    (∀ i ∈ hull, i < n) ∧ P '' {i | i ∈ hull} = (convexHull ℝ (P '' {i | i < n})).extremePoints ℝ := by
  have hn : 0 < n := by
    rcases Nat.eq_zero_or_pos n with rfl | hn
    · exfalso
      have : hullKept 0 P = [] := by simp [hullKept, hullSorted, lexsort, keepUnique]
      simp [grahamScan, this] at h
    · exact hn
  have hF := hull_fan hn hU
  simp only [grahamScan, Bool.false_eq_true, if_false] at h
  split_ifs at h with hlen
  push Not at hlen
  simp only [Except.ok.injEq] at h
  subst h
  have hst := hullStack_chain hF hlen le_rfl
  have hmlt : ∀ k ∈ hullStack (hullPoint n P) (hullKept n P).length, k < (hullKept n P).length :=
    hst.1.mem_lt (by rw [hst.2]; simp; omega)
  obtain ⟨-, -, -, -, -, -, hlt⟩ := hullKept_spec hn P
  constructor
  · intro i hi
    obtain ⟨k, hk, rfl⟩ := List.mem_map.mp hi
    rw [List.getD_eq_getElem _ _ (hmlt k hk)]
    exact hlt _ (List.getElem_mem _)
  · rw [hull_kept_hull hn hU, ← hullStack_extreme hF hlen]
    ext x
    constructor
    · rintro ⟨i, hi, rfl⟩
      obtain ⟨k, hk, rfl⟩ := List.mem_map.mp hi
      exact ⟨k, hk, rfl⟩
    · rintro ⟨k, hk, rfl⟩
      exact ⟨_, List.mem_map.mpr ⟨k, hk, rfl⟩, rfl⟩

/-- The scan succeeds as soon as there are two different points. -/
theorem C99_succeeds_partial (hU : UniqueLowest n P) {i j : ℕ} (hi : i < n) (hj : j < n) (hij : P i ≠ P j) :
    ∃ hull, grahamScan false n P = .ok hull := by
  have hn : 0 < n := by omega
  simp only [grahamScan, Bool.false_eq_true, if_false]
  rw [if_neg]
  · exact ⟨_, rfl⟩
  intro hlen
  obtain ⟨i0, l, hl, -, -, hcov, -⟩ := hullKept_spec hn P
  obtain rfl : l = [] := by
    rw [hl] at hlen
    cases l with
    | nil => rfl
    | cons => simp at hlen
  have key : ∀ k < n, hullAngle n P k = hullAngle n P i0 := by
    intro k hk
    obtain ⟨m, hm, he, -⟩ := hcov k hk
    rw [hl] at hm
    simp only [List.mem_singleton] at hm
    rw [← he, hm]
  obtain ⟨s, hs, hse, -⟩ := hullStart_spec hn P
  have h0 : ∀ k < n, P k = hullStart n P := by
    intro k hk
    by_contra hne
    have h1 := (hullAngle_pos hn hU hk hne).1
    rw [key k hk, ← key s hs, hullAngle_start P hse] at h1
    exact lt_irrefl _ h1
  exact hij ((h0 i hi).trans (h0 j hj).symm)

end

/-! ### Concrete case: a triangle with a point inside -/

/-- A triangle and an inner point. -/
noncomputable def dart : ℕ → ℝ × ℝ := fun i => [(0, 0), (2, 1), (0, 1), (-2, 1)].getD i (0, 0)

theorem dart_uniqueLowest : UniqueLowest 4 dart := by
  intro i hi hlow j hj hz
  have h0 := hlow 0 (by omega)
  interval_cases i <;> interval_cases j <;> simp [dart] at h0 hz ⊢ <;> norm_num at *

example : ∃ hull, grahamScan false 4 dart = .ok hull ∧
    dart '' {i | i ∈ hull} = (convexHull ℝ (dart '' {i | i < 4})).extremePoints ℝ := by
  obtain ⟨hull, h⟩ := C99_succeeds_partial dart_uniqueLowest (i := 0) (j := 1) (by omega) (by omega) (by simp [dart])
  exact ⟨hull, h, (C99_marks_hull_partial dart_uniqueLowest h).2⟩

/-! ## Two lowest points -/

theorem popStack_subset (v : ℕ → ℝ × ℝ) (i : ℕ) (l : List ℕ) : ∀ k ∈ popStack v i l, k ∈ l := by
  induction l with
  | nil => simp [popStack]
  | cons t l ih =>
    cases l with
    | nil => simp [popStack]
    | cons s l =>
      intro k hk
      rw [popStack] at hk
      split_ifs at hk
      · exact List.mem_cons_of_mem _ (ih k hk)
      · exact hk

theorem hullStack_lt (v : ℕ → ℝ × ℝ) {m : ℕ} (hm : 2 ≤ m) : ∀ k ∈ hullStack v m, k < m := by
  induction m, hm using Nat.le_induction with
  | base => simp [hullStack]
  | succ m hm ih =>
    intro k hk
    rw [hullStack_succ v hm] at hk
    rcases List.mem_cons.mp hk with rfl | hk'
    · omega
    · have := ih k (popStack_subset _ _ _ k hk')
      omega

theorem lex_extreme {A : Set (ℝ × ℝ)} {p : ℝ × ℝ} (hp : p ∈ A) (h : ∀ q ∈ A, p.2 < q.2 ∨ p.2 = q.2 ∧ p.1 ≤ q.1) :
    p ∈ (convexHull ℝ A).extremePoints ℝ := by
  have hconv : Convex ℝ {q : ℝ × ℝ | p.2 < q.2 ∨ p.2 = q.2 ∧ p.1 ≤ q.1} := by
    rintro x hx y hy a b ha hb hab
    simp only [Set.mem_ofPred_eq, Prod.snd_add, Prod.smul_snd, Prod.fst_add, Prod.smul_fst, smul_eq_mul] at hx hy ⊢
    have hp2 : p.2 = a * p.2 + b * p.2 := by rw [← add_mul, hab, one_mul]
    have hp1 : p.1 = a * p.1 + b * p.1 := by rw [← add_mul, hab, one_mul]
    rcases ha.eq_or_lt with rfl | ha'
    · obtain rfl : b = 1 := by linarith
      simpa using hy
    rcases hb.eq_or_lt with rfl | hb'
    · obtain rfl : a = 1 := by linarith
      simpa using hx
    rcases hx with hx | ⟨hx, hx'⟩ <;> rcases hy with hy | ⟨hy, hy'⟩
    · left; nlinarith [mul_lt_mul_of_pos_left hx ha', mul_lt_mul_of_pos_left hy hb']
    · left; rw [← hy]; nlinarith [mul_lt_mul_of_pos_left hx ha']
    · left; rw [← hx]; nlinarith [mul_lt_mul_of_pos_left hy hb']
    · right
      rw [← hx, ← hy]
      exact ⟨hp2, by nlinarith [mul_le_mul_of_nonneg_left hx' ha, mul_le_mul_of_nonneg_left hy' hb]⟩
  have hsub : convexHull ℝ A ⊆ _ := convexHull_min h hconv
  rw [mem_extremePoints]
  refine ⟨subset_convexHull ℝ A hp, fun x hx y hy hseg => ?_⟩
  obtain ⟨a, b, ha, hb, hab, hxy⟩ := hseg
  have e1 : p.1 = a * x.1 + b * y.1 := by rw [← hxy]; simp
  have e2 : p.2 = a * x.2 + b * y.2 := by rw [← hxy]; simp
  have hp2 : p.2 = a * p.2 + b * p.2 := by rw [← add_mul, hab, one_mul]
  have hp1 : p.1 = a * p.1 + b * p.1 := by rw [← add_mul, hab, one_mul]
  rcases hsub hx with hx | ⟨hx, hx'⟩ <;> rcases hsub hy with hy | ⟨hy, hy'⟩
  · exfalso; nlinarith [mul_lt_mul_of_pos_left hx ha, mul_lt_mul_of_pos_left hy hb]
  · exfalso; rw [← hy] at e2; nlinarith [mul_lt_mul_of_pos_left hx ha]
  · exfalso; rw [← hx] at e2; nlinarith [mul_lt_mul_of_pos_left hy hb]
  · have k1 := mul_le_mul_of_nonneg_left hx' ha.le
    have k2 := mul_le_mul_of_nonneg_left hy' hb.le
    have hx1 : a * (x.1 - p.1) = 0 := by linarith
    have hy1 : b * (y.1 - p.1) = 0 := by linarith
    have hx2 := (mul_eq_zero.mp hx1).resolve_left ha.ne'
    have hy2 := (mul_eq_zero.mp hy1).resolve_left hb.ne'
    exact ⟨by ext <;> linarith, by ext <;> linarith⟩

/-- C99 is false: if another point is as low as the lowest point on the left, then the latter is never marked, although it is a
corner of the hull. The starting point has angle 0 and distance 0, so the other point is kept in its place. -/
theorem C99_lowest_lost_violated_partial {n : ℕ} {P : ℕ → ℝ × ℝ} {i j : ℕ} (hi : i < n) (hj : j < n)
    (hlow : ∀ k < n, (P i).2 < (P k).2 ∨ (P i).2 = (P k).2 ∧ (P i).1 ≤ (P k).1) (hz : (P j).2 = (P i).2) (hij : P j ≠ P i)
    {hull : List ℕ} (h : grahamScan false n P = .ok hull) :
    P i ∈ (convexHull ℝ (P '' {i | i < n})).extremePoints ℝ ∧ P i ∉ P '' {i | i ∈ hull} := by
  have hn : 0 < n := by omega
  constructor
  · refine lex_extreme ⟨i, hi, rfl⟩ ?_
    rintro _ ⟨k, hk, rfl⟩
    exact hlow k hk
  · obtain ⟨s, hs, hse, hslow⟩ := hullStart_spec hn P
    have hstart : hullStart n P = P i := by
      rw [← hse]
      have h1 := hslow i hi
      have h2 := hlow s hs
      rcases h1 with h1 | h1 <;> rcases h2 with h2 | h2
      · linarith
      · linarith [h2.1]
      · linarith [h1.1]
      · ext
        · linarith [h1.2, h2.2]
        · exact h1.1
    obtain ⟨i0, l, hl, hfirst, hpw, hcov, hlt⟩ := hullKept_spec hn P
    -- the other lowest point has angle 0 and a positive distance
    have hr : (P i).1 < (P j).1 := by
      rcases hlow j hj with h | h
      · linarith
      · refine lt_of_le_of_ne h.2 fun he => hij ?_
        ext
        · exact he.symm
        · exact hz
    have hjang : hullAngle n P j = 0 := by
      rw [hullAngle, hstart, hz, sub_self]
      exact Complex.arg_ofReal_of_nonneg (x := (P j).1 - (P i).1) (by linarith)
    have hjd : 0 < hullDist n P j := by
      rw [hullDist, hstart]
      have : 0 < ((P j).1 - (P i).1) ^ 2 := by
        have : 0 < (P j).1 - (P i).1 := by linarith
        positivity
      nlinarith [sq_nonneg ((P j).2 - (P i).2)]
    -- nothing kept has the coordinates of the starting point
    have hkept : ∀ k ∈ hullKept n P, P k ≠ P i := by
      intro k hk hki
      have hk0 : hullAngle n P k = 0 := hullAngle_start P (hki.trans hstart.symm)
      have hkd : hullDist n P k = 0 := by rw [hullDist, hstart, hki]; simp
      rw [hl] at hk
      rcases List.mem_cons.mp hk with rfl | hk'
      · rcases hfirst j hj with h | h
        · linarith
        · linarith [h.2]
      · rw [hl] at hpw
        have h1 := (List.pairwise_cons.mp hpw).1 k hk'
        have h2 := hullAngle_nonneg hn P (hlt i0 (hl ▸ List.mem_cons_self))
        linarith
    simp only [grahamScan, Bool.false_eq_true, if_false] at h
    split_ifs at h with hlen
    push Not at hlen
    simp only [Except.ok.injEq] at h
    subst h
    rintro ⟨m, hm, hmi⟩
    obtain ⟨k, hk, rfl⟩ := List.mem_map.mp hm
    have hkl := hullStack_lt (hullPoint n P) hlen k hk
    rw [List.getD_eq_getElem _ _ hkl] at hmi
    exact hkept _ (List.getElem_mem hkl) hmi

/-! ### Concrete case: the unit square -/

/-- The corners of the unit square. -/
noncomputable def unitSquare : ℕ → ℝ × ℝ := fun i => [(0, 0), (1, 0), (1, 1), (0, 1)].getD i (0, 0)

theorem unitSquare_low : ∀ k < 4, (unitSquare 0).2 < (unitSquare k).2 ∨
    (unitSquare 0).2 = (unitSquare k).2 ∧ (unitSquare 0).1 ≤ (unitSquare k).1 := by
  intro k hk
  interval_cases k <;> simp [unitSquare]

/-- The scan runs on the unit square and does not mark the corner at the origin. -/
theorem C99_square_violated_partial : ∃ hull, grahamScan false 4 unitSquare = .ok hull ∧ (0, 0) ∉ unitSquare '' {i | i ∈ hull} ∧
    (0, 0) ∈ (convexHull ℝ (unitSquare '' {i | i < 4})).extremePoints ℝ := by
  have hlen : ¬ (hullKept 4 unitSquare).length < 2 := by
    intro hlen
    obtain ⟨i0, l, hl, -, -, hcov, -⟩ := hullKept_spec (n := 4) (by omega) unitSquare
    obtain rfl : l = [] := by
      rw [hl] at hlen
      cases l with
      | nil => rfl
      | cons => simp at hlen
    obtain ⟨s, hs, hse, hslow⟩ := hullStart_spec (n := 4) (by omega) unitSquare
    have hstart : hullStart 4 unitSquare = unitSquare 0 := by
      rw [← hse]
      have h1 := hslow 0 (by omega)
      interval_cases s <;> simp [unitSquare] at h1 ⊢
      all_goals norm_num at h1
    have key : ∀ k < 4, hullAngle 4 unitSquare k = hullAngle 4 unitSquare i0 := by
      intro k hk
      obtain ⟨m, hm, he, -⟩ := hcov k hk
      rw [hl] at hm
      simp only [List.mem_singleton] at hm
      rw [← he, hm]
    have h03 : hullAngle 4 unitSquare 3 = 0 := by
      rw [key 3 (by omega), ← key 0 (by omega)]
      exact hullAngle_start _ hstart.symm
    rw [hullAngle, hstart, Complex.arg_eq_zero_iff] at h03
    simp [unitSquare] at h03
  have hok : grahamScan false 4 unitSquare = .ok ((hullStack (hullPoint 4 unitSquare) (hullKept 4 unitSquare).length).map fun k =>
      (hullKept 4 unitSquare).getD k 0) := by
    simp only [grahamScan, Bool.false_eq_true, if_false]
    rw [if_neg hlen]
  have := C99_lowest_lost_violated_partial (i := 0) (j := 1) (by omega) (by omega) unitSquare_low (by simp [unitSquare])
    (by simp [unitSquare]) hok
  exact ⟨_, hok, this.2, this.1⟩

/-! ## C100: the rules -/

/-- C100 for the first rule and for unknown rules. Missing: `hull`, see `C100_hull_violated_partial`. -/
theorem C100_rules_partial (n : ℕ) (P : ℕ → ℝ × ℝ) :
    ruleWeights "self-intersection" n P = .ok ((List.range n).map (polygonWeight n P)) ∧
      ∀ rule, rule ≠ "self-intersection" → rule ≠ "hull" → ruleWeights rule n P = .error .valueError := by
  refine ⟨by simp [ruleWeights], fun rule h1 h2 => by simp [ruleWeights, h1, h2]⟩

/-- C100 is false: the rule `hull` fails with `TypeError` on every cross section, and so does the rule `intersection` that the
error message names. -/
theorem C100_hull_violated_partial (n : ℕ) (P : ℕ → ℝ × ℝ) :
    ruleWeights "hull" n P = .error .typeError ∧ ruleWeights "intersection" n P = .error .valueError := by
  constructor
  · simp [ruleWeights, grahamScan]; rfl
  · simp [ruleWeights]

end Verif
