import Verif.Model.Hull
import Mathlib.Analysis.Convex.Extreme
import Mathlib.Analysis.Convex.Hull
import Mathlib.Analysis.Convex.Combination
import Mathlib.Tactic.FinCases
import Mathlib.Tactic.Linarith
import Mathlib.Tactic.Ring
import Mathlib.Tactic.Positivity
import Mathlib.Tactic.FieldSimp
import Mathlib.Tactic.IntervalCases

/-!
# The scan of `graham_scan`

`v 0` is the starting point, `v 1, ..., v (M - 1)` are seen from it under strictly growing angles: `0 < ccw (v 0) (v i) (v j)` for
`1 ≤ i < j`.
-/

namespace Verif

/-! ## Four points -/

theorem ccw_rotate (a b c : ℝ × ℝ) : ccw a b c = ccw b c a := by unfold ccw; ring

theorem ccw_swap (a b c : ℝ × ℝ) : ccw a c b = -ccw a b c := by unfold ccw; ring

theorem ccw_self_left (a b : ℝ × ℝ) : ccw a b a = 0 := by unfold ccw; ring

theorem ccw_self_right (a b : ℝ × ℝ) : ccw a b b = 0 := by unfold ccw; ring

theorem ccw_self_start (a b : ℝ × ℝ) : ccw a a b = 0 := by unfold ccw; ring

/-- The relation between the six areas seen from one point. -/
theorem ccw_plucker (o a b c d : ℝ × ℝ) :
    ccw o a b * ccw o c d - ccw o a c * ccw o b d + ccw o a d * ccw o b c = 0 := by
  unfold ccw; ring

/-- A popped point `t` above `s` hides nothing from `p`. -/
theorem ccw_pop {o s t p q : ℝ × ℝ} (hst : 0 < ccw o s t) (hsp : 0 < ccw o s p) (hpop : ccw s t p ≤ 0)
    (hq : 0 ≤ ccw s t q) (hsq : 0 < ccw o s q) : 0 ≤ ccw s p q := by
  have hP := ccw_plucker s t p q o
  have h1 : ccw s p o = ccw o s p := (ccw_rotate o s p).symm
  have h2 : ccw s q o = ccw o s q := (ccw_rotate o s q).symm
  have h3 : ccw s t o = ccw o s t := (ccw_rotate o s t).symm
  rw [h1, h2, h3] at hP
  by_contra hn
  push Not at hn
  have := mul_neg_of_pos_of_neg hst hn
  have := mul_nonneg hq hsp.le
  have := mul_nonpos_of_nonpos_of_nonneg hpop hsq.le
  linarith

/-- At a left turn `r, s, p`, the points not beyond `s` are on the left of the new edge. -/
theorem ccw_push {o r s p q : ℝ × ℝ} (hrs : 0 < ccw o r s) (hsp : 0 < ccw o s p) (hturn : 0 < ccw r s p)
    (hq : 0 ≤ ccw r s q) (hsq : ccw o s q ≤ 0) : 0 ≤ ccw s p q := by
  have hP := ccw_plucker s p q o r
  have h1 : ccw s p o = ccw o s p := (ccw_rotate o s p).symm
  have h2 : ccw s q o = ccw o s q := (ccw_rotate o s q).symm
  have h3 : ccw s o r = ccw o r s := by rw [ccw_rotate o r s, ccw_rotate r s o]
  have h4 : ccw s q r = ccw r s q := (ccw_rotate r s q).symm
  have h5 : ccw s p r = ccw r s p := (ccw_rotate r s p).symm
  rw [h1, h2, h3, h4, h5] at hP
  by_contra hn
  push Not at hn
  have := mul_neg_of_neg_of_pos hn hrs
  have := mul_nonneg hsp.le hq
  have := mul_nonpos_of_nonneg_of_nonpos hturn.le hsq
  linarith

/-- A point to the left of an edge is to the left of the edge before it. -/
theorem ccw_back {o a b c p : ℝ × ℝ} (hab : 0 < ccw o a b) (hbc : 0 < ccw o b c) (hbp : 0 < ccw o b p)
    (hturn : 0 < ccw a b c) (hp : 0 < ccw b c p) : 0 < ccw a b p := by
  have hP := ccw_plucker b c p o a
  have h1 : ccw b p o = ccw o b p := (ccw_rotate o b p).symm
  have h2 : ccw b c o = ccw o b c := (ccw_rotate o b c).symm
  have h3 : ccw b o a = ccw o a b := by rw [ccw_rotate o a b, ccw_rotate a b o]
  have h4 : ccw b p a = ccw a b p := (ccw_rotate a b p).symm
  have h5 : ccw b c a = ccw a b c := (ccw_rotate a b c).symm
  rw [h1, h2, h3, h4, h5] at hP
  by_contra hn
  push Not at hn
  have := mul_pos hp hab
  have := mul_nonpos_of_nonneg_of_nonpos hbc.le hn
  have := mul_pos hturn hbp
  linarith

/-! ## The stack -/

/-- The stack after the points below `m` were treated: strictly convex, all of them on its left. -/
inductive HullChain (v : ℕ → ℝ × ℝ) (m : ℕ) : List ℕ → Prop where
  | base (h : ∀ q < m, 0 ≤ ccw (v 0) (v 1) (v q)) : HullChain v m [1, 0]
  | cons {t s r : ℕ} {l : List ℕ} (hts : s < t) (hturn : 0 < ccw (v r) (v s) (v t))
      (hleft : ∀ q < m, 0 ≤ ccw (v s) (v t) (v q)) (h : HullChain v m (s :: r :: l)) : HullChain v m (t :: s :: r :: l)

/-- The points are seen from `v 0` under growing angles. -/
def Fan (v : ℕ → ℝ × ℝ) (M : ℕ) : Prop := ∀ i j, 1 ≤ i → i < j → j < M → 0 < ccw (v 0) (v i) (v j)

variable {v : ℕ → ℝ × ℝ} {M m : ℕ}

theorem HullChain.pos {l : List ℕ} (h : HullChain v m l) : ∀ t ∈ l.head?, 1 ≤ t := by
  induction h with
  | base => simp
  | cons hts _ _ _ ih => simp at ih ⊢; omega

theorem HullChain.shape {l : List ℕ} (h : HullChain v m l) : ∃ t s r, l = t :: s :: r ∧ 1 ≤ t ∧ s < t := by
  cases h with
  | base => exact ⟨1, 0, [], rfl, le_rfl, by omega⟩
  | @cons t s r l hts _ _ h => exact ⟨t, s, r :: l, rfl, by omega, hts⟩

theorem Fan.nonneg (hF : Fan v M) {i j : ℕ} (hi : 1 ≤ i) (hij : i ≤ j) (hj : j < M) : 0 ≤ ccw (v 0) (v i) (v j) := by
  rcases Nat.lt_or_eq_of_le hij with h | h
  · exact (hF i j hi h hj).le
  · subst h; rw [ccw_self_right]

/-- Popping leaves a chain, ending in a left turn towards the new point, with all earlier points left of the new edge. -/
theorem popStack_spec (hF : Fan v M) {i : ℕ} (hi : i < M) (hmi : m ≤ i) {l : List ℕ} (h : HullChain v m l)
    (hl : ∀ t ∈ l.head?, t < m) (hK : ∀ t ∈ l.head?, ∀ q < m, 0 < ccw (v 0) (v t) (v q) → 0 ≤ ccw (v t) (v i) (v q)) :
    ∃ s r k, popStack v i l = s :: r :: k ∧ HullChain v m (s :: r :: k) ∧ s < m ∧ 0 < ccw (v r) (v s) (v i) ∧
      ∀ q < m, 0 ≤ ccw (v s) (v i) (v q) := by
  induction h with
  | base hb =>
    simp only [List.head?_cons, Option.mem_def, Option.some.injEq, forall_eq'] at hl hK
    have h01 : 0 < ccw (v 0) (v 1) (v i) := hF 1 i le_rfl (by omega) hi
    refine ⟨1, 0, [], ?_, .base hb, hl, h01, fun q hq => ?_⟩
    · simp only [popStack]
      rw [if_neg (not_le.mpr h01)]
    · rcases Nat.lt_or_ge 1 q with h1 | h1
      · exact hK q hq (hF 1 q le_rfl h1 (by omega))
      · rcases Nat.le_one_iff_eq_zero_or_eq_one.mp h1 with rfl | rfl
        · rw [← ccw_rotate]; exact h01.le
        · rw [ccw_self_left]
  | @cons t s r l hts hturn hleft h ih =>
    simp only [List.head?_cons, Option.mem_def, Option.some.injEq, forall_eq'] at hl hK ih
    have hs1 : 1 ≤ s := h.pos s (by simp)
    have h0st : 0 < ccw (v 0) (v s) (v t) := hF s t hs1 hts (by omega)
    have h0si : 0 < ccw (v 0) (v s) (v i) := hF s i hs1 (by omega) hi
    have h0ti : 0 < ccw (v 0) (v t) (v i) := hF t i (by omega) (by omega) hi
    rw [popStack]
    by_cases hc : ccw (v s) (v t) (v i) ≤ 0
    · rw [if_pos hc]
      exact ih (by omega) fun q hq h0 => ccw_pop h0st h0si hc (hleft q hq) h0
    · rw [if_neg hc]
      push Not at hc
      refine ⟨t, s, r :: l, rfl, .cons hts hturn hleft h, hl, hc, fun q hq => ?_⟩
      rcases lt_or_ge 0 (ccw (v 0) (v t) (v q)) with h0 | h0
      · exact hK q hq h0
      · exact ccw_push h0st h0ti hc (hleft q hq) h0

/-- A point left of the top edge is left of every edge. -/
theorem HullChain.extend (hF : Fan v M) (hm : m < M) {l : List ℕ} (h : HullChain v m l) (hl : ∀ t ∈ l.head?, t < m)
    (hturn : ∀ s r k, l = s :: r :: k → 0 < ccw (v r) (v s) (v m)) : HullChain v (m + 1) l := by
  induction h with
  | base hb =>
    refine .base fun q hq => ?_
    rcases Nat.lt_or_eq_of_le (Nat.lt_succ_iff.mp hq) with h | rfl
    · exact hb q h
    · exact (hturn 1 0 [] rfl).le
  | @cons t s r l hts hturn' hleft h ih =>
    simp only [List.head?_cons, Option.mem_def, Option.some.injEq, forall_eq'] at hl ih
    have hs1 : 1 ≤ s := h.pos s (by simp)
    have htop : 0 < ccw (v s) (v t) (v m) := hturn t s (r :: l) rfl
    refine .cons hts hturn' (fun q hq => ?_) (ih (by omega) ?_)
    · rcases Nat.lt_or_eq_of_le (Nat.lt_succ_iff.mp hq) with h | rfl
      · exact hleft q h
      · exact htop.le
    · rintro s' r' k' heq
      obtain ⟨rfl, rfl, rfl⟩ : s = s' ∧ r = r' ∧ l = k' := by simpa using heq
      rcases Nat.eq_zero_or_pos r with rfl | hr
      · exact hF s m hs1 (by omega) hm
      · have hrs : r < s := by
          obtain ⟨_, _, _, he, _, hlt⟩ := h.shape
          simp only [List.cons.injEq] at he
          omega
        exact ccw_back (hF r s hr hrs (by omega)) (hF s t hs1 hts (by omega)) (hF s m hs1 (by omega) hm) hturn' htop

theorem hullStack_succ (v : ℕ → ℝ × ℝ) {m : ℕ} (hm : 2 ≤ m) :
    hullStack v (m + 1) = m :: popStack v m (hullStack v m) := by
  unfold hullStack
  have : m + 1 - 2 = (m - 2) + 1 := by omega
  rw [this, List.range'_concat, List.foldl_append]
  simp only [List.foldl_cons, List.foldl_nil]
  rw [show 2 + 1 * (m - 2) = m by omega]

/-- The stack at the end of the scan. -/
theorem hullStack_chain (hF : Fan v M) (h2 : 2 ≤ m) (hm : m ≤ M) :
    HullChain v m (hullStack v m) ∧ (hullStack v m).head? = some (m - 1) := by
  induction m, h2 using Nat.le_induction with
  | base =>
    refine ⟨?_, rfl⟩
    refine .base fun q hq => ?_
    interval_cases q
    · rw [ccw_self_left]
    · rw [ccw_self_right]
  | succ m h2 ih =>
    obtain ⟨hc, hh⟩ := ih (by omega)
    rw [hullStack_succ v h2]
    refine ⟨?_, by simp⟩
    have hl : ∀ t ∈ (hullStack v m).head?, t < m := by
      rw [hh]; simp; omega
    obtain ⟨s, r, k, hpop, hc', hsm, hturn, hleft⟩ := popStack_spec (m := m) hF (i := m) (by omega) le_rfl hc hl (by
      rw [hh]
      simp only [Option.mem_def, Option.some.injEq, forall_eq']
      intro q hq h0
      exfalso
      rcases Nat.eq_zero_or_pos q with rfl | hq0
      · rw [ccw_self_left] at h0; exact lt_irrefl _ h0
      · have := hF.nonneg hq0 (show q ≤ m - 1 by omega) (by omega)
        rw [ccw_swap] at h0
        linarith)
    rw [hpop]
    have hext := hc'.extend (m := m) hF (by omega) (by simpa using hsm) (by
      rintro s' r' k' heq
      obtain ⟨rfl, rfl, rfl⟩ : s = s' ∧ r = r' ∧ k = k' := by simpa using heq
      exact hturn)
    refine .cons hsm hturn (fun q hq => ?_) hext
    rcases Nat.lt_or_eq_of_le (Nat.lt_succ_iff.mp hq) with h | rfl
    · exact hleft q h
    · rw [ccw_self_right]

/-! ## The hull -/

theorem HullChain.zero_mem {l : List ℕ} (h : HullChain v m l) : 0 ∈ l := by
  induction h with
  | base => simp
  | cons _ _ _ _ ih => exact List.mem_cons_of_mem _ ih

theorem mem_convexHull_triangle {a b c x : ℝ × ℝ} {A : Set (ℝ × ℝ)} (ha : a ∈ A) (hb : b ∈ A) (hc : c ∈ A)
    (hpos : 0 < ccw a b c) (h1 : 0 ≤ ccw a b x) (h2 : 0 ≤ ccw b c x) (h3 : 0 ≤ ccw c a x) : x ∈ convexHull ℝ A := by
  have hx : x = (ccw b c x / ccw a b c) • a + (ccw c a x / ccw a b c) • b + (ccw a b x / ccw a b c) • c := by
    have hne := hpos.ne'
    ext
    · simp only [Prod.fst_add, Prod.smul_fst, smul_eq_mul]
      field_simp
      unfold ccw; ring
    · simp only [Prod.snd_add, Prod.smul_snd, smul_eq_mul]
      field_simp
      unfold ccw; ring
  have hsum : ccw b c x / ccw a b c + ccw c a x / ccw a b c + ccw a b x / ccw a b c = 1 := by
    have hne := hpos.ne'
    field_simp
    unfold ccw; ring
  rw [hx]
  have hconv := convex_convexHull ℝ A
  have hs := hconv.sum_mem (t := Finset.univ) (w := ![ccw b c x / ccw a b c, ccw c a x / ccw a b c, ccw a b x / ccw a b c])
    (z := ![a, b, c]) (by
      intro i _
      fin_cases i <;> simp <;> positivity) (by simp [Fin.sum_univ_three]; linarith) (by
      intro i _
      fin_cases i
      · exact subset_convexHull ℝ A ha
      · exact subset_convexHull ℝ A hb
      · exact subset_convexHull ℝ A hc)
  simpa [Fin.sum_univ_three] using hs

/-- Every point seen so far lies in the hull of the stack. -/
theorem HullChain.mem_hull (hF : Fan v M) (hm : m ≤ M) {l : List ℕ} (h : HullChain v m l) (hl : ∀ t ∈ l.head?, t < m) {q : ℕ}
    (hq : q < m) (hq' : ∀ t ∈ l.head?, ccw (v 0) (v t) (v q) ≤ 0) : v q ∈ convexHull ℝ (v '' {k | k ∈ l}) := by
  induction h with
  | base hb =>
    simp only [List.head?_cons, Option.mem_def, Option.some.injEq, forall_eq'] at hq'
    refine subset_convexHull ℝ _ ⟨q, ?_, rfl⟩
    rcases Nat.lt_or_ge 1 q with h1 | h1
    · exact absurd (hF 1 q le_rfl h1 (by omega)) (not_lt.mpr hq')
    · rcases Nat.le_one_iff_eq_zero_or_eq_one.mp h1 with rfl | rfl <;> simp
  | @cons t s r l hts hturn hleft h ih =>
    simp only [List.head?_cons, Option.mem_def, Option.some.injEq, forall_eq'] at hl hq' ih
    have hs1 : 1 ≤ s := h.pos s (by simp)
    rcases le_or_gt (ccw (v 0) (v s) (v q)) 0 with h0 | h0
    · refine convexHull_mono ?_ (ih (by omega) h0)
      exact Set.image_mono fun k hk => List.mem_cons_of_mem _ hk
    · have hz : 0 ∈ t :: s :: r :: l := List.mem_cons_of_mem _ h.zero_mem
      refine mem_convexHull_triangle (a := v 0) (b := v s) (c := v t) ⟨0, hz, rfl⟩ ⟨s, by simp, rfl⟩ ⟨t, by simp, rfl⟩
        (hF s t hs1 hts (by omega)) h0.le (hleft q hq) ?_
      rw [ccw_rotate, ccw_swap]
      linarith

/-- A functional that is smallest only at `p` makes it an extreme point. -/
theorem extreme_of_strict {A : Set (ℝ × ℝ)} {p : ℝ × ℝ} (L : ℝ × ℝ →ₗ[ℝ] ℝ) (hp : p ∈ A)
    (h : ∀ q ∈ A, q ≠ p → L p < L q) : p ∈ (convexHull ℝ A).extremePoints ℝ := by
  have hsub : ∀ x ∈ convexHull ℝ A, x = p ∨ L p < L x := by
    have hconv : Convex ℝ {x | x = p ∨ L p < L x} := by
      rintro x hx y hy a b ha hb hab
      have hxl : L p ≤ L x := by rcases hx with rfl | hx; exacts [le_rfl, hx.le]
      have hyl : L p ≤ L y := by rcases hy with rfl | hy; exacts [le_rfl, hy.le]
      have hlin : L (a • x + b • y) = a * L x + b * L y := by simp
      have hLp : L p = a * L p + b * L p := by rw [← add_mul, hab, one_mul]
      rcases ha.eq_or_lt with rfl | ha'
      · obtain rfl : b = 1 := by linarith
        simpa using hy
      rcases hb.eq_or_lt with rfl | hb'
      · obtain rfl : a = 1 := by linarith
        simpa using hx
      rcases hx with rfl | hx
      · rcases hy with rfl | hy
        · left
          rw [← add_smul, hab, one_smul]
        · right
          change L x < L (a • x + b • y)
          rw [hlin]
          have := mul_lt_mul_of_pos_left hy hb'
          linarith
      · right
        change L p < L (a • x + b • y)
        rw [hlin]
        have := mul_lt_mul_of_pos_left hx ha'
        have := mul_le_mul_of_nonneg_left hyl hb
        linarith
    have hA : A ⊆ {x | x = p ∨ L p < L x} := fun q hq => by
      by_cases hqp : q = p
      · exact Or.inl hqp
      · exact Or.inr (h q hq hqp)
    exact fun x hx => convexHull_min hA hconv hx
  rw [mem_extremePoints]
  refine ⟨subset_convexHull ℝ A hp, fun x hx y hy hseg => ?_⟩
  obtain ⟨a, b, ha, hb, hab, hxy⟩ := hseg
  have hlin : L p = a * L x + b * L y := by rw [← hxy]; simp
  have hLp : L p = a * L p + b * L p := by rw [← add_mul, hab, one_mul]
  have hx' : L p ≤ L x := by rcases hsub x hx with rfl | h; exacts [le_rfl, h.le]
  have hy' : L p ≤ L y := by rcases hsub y hy with rfl | h; exacts [le_rfl, h.le]
  have h1 := mul_le_mul_of_nonneg_left hx' ha.le
  have h2 := mul_le_mul_of_nonneg_left hy' hb.le
  constructor
  · rcases hsub x hx with h | h
    · exact h
    · have := mul_lt_mul_of_pos_left h ha
      linarith
  · rcases hsub y hy with h | h
    · exact h
    · have := mul_lt_mul_of_pos_left h hb
      linarith

/-- The linear part of `ccw a b`. -/
def edgeForm (a b : ℝ × ℝ) : ℝ × ℝ →ₗ[ℝ] ℝ where
  toFun x := (b.1 - a.1) * x.2 - x.1 * (b.2 - a.2)
  map_add' x y := by simp only [Prod.fst_add, Prod.snd_add]; ring
  map_smul' c x := by simp only [Prod.smul_fst, Prod.smul_snd, smul_eq_mul, RingHom.id_apply]; ring

theorem edgeForm_sub (a b x y : ℝ × ℝ) : edgeForm a b x - edgeForm a b y = ccw a b x - ccw a b y := by
  simp only [edgeForm, LinearMap.coe_mk, AddHom.coe_mk]; unfold ccw; ring

/-- A corner between two edges that have all points on their left is an extreme point. -/
theorem extreme_of_turn {A : Set (ℝ × ℝ)} {a b c : ℝ × ℝ} (hb : b ∈ A) (hturn : 0 < ccw a b c)
    (h1 : ∀ x ∈ A, 0 ≤ ccw a b x) (h2 : ∀ x ∈ A, 0 ≤ ccw b c x) : b ∈ (convexHull ℝ A).extremePoints ℝ := by
  refine extreme_of_strict (edgeForm a b + edgeForm b c) hb fun x hx hne => ?_
  have e1 := edgeForm_sub a b x b
  have e2 := edgeForm_sub b c x b
  rw [ccw_self_right] at e1
  rw [ccw_self_left] at e2
  simp only [LinearMap.add_apply]
  have p1 := h1 x hx
  have p2 := h2 x hx
  rcases p1.eq_or_lt with q1 | q1
  · rcases p2.eq_or_lt with q2 | q2
    · exfalso
      apply hne
      have k1 : ccw a b c * (x.1 - b.1) = 0 := by
        have : ccw a b c * (x.1 - b.1) = (c.1 - b.1) * ccw a b x - (b.1 - a.1) * ccw b c x := by unfold ccw; ring
        rw [this, ← q1, ← q2]; ring
      have k2 : ccw a b c * (x.2 - b.2) = 0 := by
        have : ccw a b c * (x.2 - b.2) = (c.2 - b.2) * ccw a b x - (b.2 - a.2) * ccw b c x := by unfold ccw; ring
        rw [this, ← q1, ← q2]; ring
      have k1' := (mul_eq_zero.mp k1).resolve_left hturn.ne'
      have k2' := (mul_eq_zero.mp k2).resolve_left hturn.ne'
      ext <;> linarith
    · linarith
  · linarith

/-- Inner corners of the chain. -/
theorem HullChain.corner {l : List ℕ} (h : HullChain v m l) {k : ℕ} (hk : k ∈ l.tail) (hk0 : k ≠ 0) :
    ∃ t r, 0 < ccw (v r) (v k) (v t) ∧ (∀ q < m, 0 ≤ ccw (v r) (v k) (v q)) ∧ (∀ q < m, 0 ≤ ccw (v k) (v t) (v q)) := by
  induction h with
  | base => simp at hk; exact absurd hk hk0
  | @cons t s r l hts hturn hleft h ih =>
    simp only [List.tail_cons] at hk ih
    rcases List.mem_cons.mp hk with rfl | hk'
    · refine ⟨t, r, hturn, ?_, hleft⟩
      cases h with
      | base hb => exact hb
      | cons _ _ hl _ => exact hl
    · exact ih hk'

theorem HullChain.second_pos {t s : ℕ} {l : List ℕ} (h : HullChain v m (t :: s :: l)) (ht : t ≠ 1) : 1 ≤ s := by
  cases h with
  | base => exact absurd rfl ht
  | cons _ _ _ h => exact h.pos s (by simp)

/-- The top edge of the chain. -/
theorem HullChain.top {t s : ℕ} {l : List ℕ} (h : HullChain v m (t :: s :: l)) : ∀ q < m, 0 ≤ ccw (v s) (v t) (v q) := by
  cases h with
  | base hb => exact hb
  | cons _ _ hl _ => exact hl

theorem HullChain.mem_lt {l : List ℕ} (h : HullChain v m l) (hl : ∀ t ∈ l.head?, t < m) : ∀ k ∈ l, k < m := by
  induction h with
  | base => simp at hl ⊢; omega
  | @cons t s r l hts _ _ h ih =>
    simp only [List.head?_cons, Option.mem_def, Option.some.injEq, forall_eq'] at hl ih
    intro k hk
    rcases List.mem_cons.mp hk with rfl | hk'
    · exact hl
    · exact ih (by omega) k hk'

/-- The scan finds the extreme points of the convex hull. -/
theorem hullStack_extreme (hF : Fan v M) (h2 : 2 ≤ M) :
    v '' {k | k ∈ hullStack v M} = (convexHull ℝ (v '' {k | k < M})).extremePoints ℝ := by
  obtain ⟨hc, hh⟩ := hullStack_chain hF h2 le_rfl
  have hl : ∀ t ∈ (hullStack v M).head?, t < M := by rw [hh]; simp; omega
  have hback : ∀ q < M, ccw (v 0) (v (M - 1)) (v q) ≤ 0 := by
    intro q hq
    rcases Nat.eq_zero_or_pos q with rfl | hq0
    · rw [ccw_self_left]
    · rw [ccw_swap]
      have := hF.nonneg hq0 (show q ≤ M - 1 by omega) (by omega)
      linarith
  have hhull : convexHull ℝ (v '' {k | k < M}) = convexHull ℝ (v '' {k | k ∈ hullStack v M}) := by
    apply Set.Subset.antisymm
    · refine convexHull_min ?_ (convex_convexHull ℝ _)
      rintro _ ⟨q, hq, rfl⟩
      exact hc.mem_hull hF le_rfl hl hq (by rw [hh]; simpa using hback q hq)
    · exact convexHull_mono (Set.image_mono fun k hk => hc.mem_lt hl k hk)
  apply Set.Subset.antisymm
  · rintro _ ⟨k, hk, rfl⟩
    have hkM := hc.mem_lt hl k hk
    have hmem : v k ∈ v '' {k | k < M} := ⟨k, hkM, rfl⟩
    rcases Nat.lt_or_eq_of_le h2 with h3 | h3
    · -- at least three points
      obtain ⟨t, s, r, hst, ht1, hs⟩ := hc.shape
      obtain rfl : t = M - 1 := by rw [hst] at hh; simpa using hh
      have htop := (hst ▸ hc).top
      rcases Nat.eq_zero_or_pos k with rfl | hk0
      · refine extreme_of_turn (a := v (M - 1)) (c := v 1) hmem ?_ ?_ ?_
        · rw [ccw_rotate]; exact hF 1 (M - 1) le_rfl (by omega) (by omega)
        · rintro _ ⟨q, hq, rfl⟩
          rw [ccw_rotate, ccw_swap]
          linarith [hback q hq]
        · rintro _ ⟨q, hq, rfl⟩
          rcases Nat.eq_zero_or_pos q with rfl | hq0
          · rw [ccw_self_left]
          · exact hF.nonneg le_rfl hq0 hq
      · by_cases hkt : k = M - 1
        · subst hkt
          refine extreme_of_turn (a := v s) (c := v 0) hmem ?_ ?_ ?_
          · rw [ccw_rotate, ccw_rotate]
            have hs0 : 1 ≤ s := (hst ▸ hc).second_pos (by omega)
            exact hF s (M - 1) hs0 hs (by omega)
          · rintro _ ⟨q, hq, rfl⟩
            exact htop q hq
          · rintro _ ⟨q, hq, rfl⟩
            rw [ccw_rotate, ccw_swap]
            linarith [hback q hq]
        · have hkt' : k ∈ (hullStack v M).tail := by
            rw [hst] at hk ⊢
            rcases List.mem_cons.mp hk with h | h
            · exact absurd h hkt
            · exact h
          obtain ⟨t, r, hturn, hl1, hl2⟩ := hc.corner hkt' (by omega)
          refine extreme_of_turn hmem hturn ?_ ?_
          · rintro _ ⟨q, hq, rfl⟩; exact hl1 q hq
          · rintro _ ⟨q, hq, rfl⟩; exact hl2 q hq
    · -- two points
      subst h3
      have hA : ∀ q < 2, q = 0 ∨ q = 1 := by omega
      let D : ℝ × ℝ →ₗ[ℝ] ℝ :=
        { toFun := fun x => ((v 1).1 - (v 0).1) * x.1 + ((v 1).2 - (v 0).2) * x.2
          map_add' := fun x y => by simp only [Prod.fst_add, Prod.snd_add]; ring
          map_smul' := fun c x => by simp only [Prod.smul_fst, Prod.smul_snd, smul_eq_mul, RingHom.id_apply]; ring }
      have hD : v 1 ≠ v 0 → D (v 0) < D (v 1) := by
        intro hne
        have : 0 < ((v 1).1 - (v 0).1) ^ 2 + ((v 1).2 - (v 0).2) ^ 2 := by
          by_contra hcon
          push Not at hcon
          apply hne
          ext
          · nlinarith [sq_nonneg ((v 1).1 - (v 0).1), sq_nonneg ((v 1).2 - (v 0).2)]
          · nlinarith [sq_nonneg ((v 1).1 - (v 0).1), sq_nonneg ((v 1).2 - (v 0).2)]
        simp only [D, LinearMap.coe_mk, AddHom.coe_mk]
        nlinarith
      rcases hA k hkM with rfl | rfl
      · refine extreme_of_strict D hmem ?_
        rintro _ ⟨q, hq, rfl⟩ hne
        rcases hA q hq with rfl | rfl
        · exact absurd rfl hne
        · exact hD hne
      · refine extreme_of_strict (-D) hmem ?_
        rintro _ ⟨q, hq, rfl⟩ hne
        rcases hA q hq with rfl | rfl
        · have := hD (Ne.symm hne)
          simpa using this
        · exact absurd rfl hne
  · rw [hhull]
    exact extremePoints_convexHull_subset

end Verif
