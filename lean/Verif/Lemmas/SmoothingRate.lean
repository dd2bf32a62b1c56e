import Verif.Lemmas.Growth
import Verif.Lemmas.Lse
import Mathlib.Tactic.Linarith
import Mathlib.Tactic.Positivity
import Mathlib.Tactic.FieldSimp

/-! Families of convex problems that approach a limit problem linearly. -/

namespace Verif

variable {L : ℕ}

/-- One bound for a list of families at a point. -/
theorem common_bound (gs : List (ℝ → (Fin L → ℝ) → ℝ)) (x : Fin L → ℝ)
    (h : ∀ g ∈ gs, ∃ C, ∀ eps, 0 < eps → eps ≤ 1 → g eps x ≤ eps * C) :
    ∃ C ≥ 0, ∀ g ∈ gs, ∀ eps, 0 < eps → eps ≤ 1 → g eps x ≤ eps * C := by
  induction gs with
  | nil => exact ⟨0, le_rfl, by simp⟩
  | cons g gs ih =>
    obtain ⟨C, hC, h1⟩ := ih fun g hg => h g (List.mem_cons_of_mem _ hg)
    obtain ⟨D, h2⟩ := h g List.mem_cons_self
    refine ⟨max C D, le_max_of_le_left hC, fun g' hg' eps h0 h1' => ?_⟩
    rcases List.mem_cons.1 hg' with rfl | hg'
    · exact (h2 eps h0 h1').trans (mul_le_mul_of_nonneg_left (le_max_right _ _) h0.le)
    · exact (h1 g' hg' eps h0 h1').trans (mul_le_mul_of_nonneg_left (le_max_left _ _) h0.le)

/-- One margin for a list of families at a point. -/
theorem common_margin (gs : List (ℝ → (Fin L → ℝ) → ℝ)) (z : Fin L → ℝ)
    (h : ∀ g ∈ gs, ∃ δ > 0, ∃ C, ∀ eps, 0 < eps → eps ≤ 1 → g eps z ≤ -δ + eps * C) :
    ∃ δ > 0, ∃ C ≥ 0, ∀ g ∈ gs, ∀ eps, 0 < eps → eps ≤ 1 → g eps z ≤ -δ + eps * C := by
  induction gs with
  | nil => exact ⟨1, one_pos, 0, le_rfl, by simp⟩
  | cons g gs ih =>
    obtain ⟨δ, hδ, C, hC, h1⟩ := ih fun g hg => h g (List.mem_cons_of_mem _ hg)
    obtain ⟨δ', hδ', D, h2⟩ := h g List.mem_cons_self
    refine ⟨min δ δ', lt_min hδ hδ', max C D, le_max_of_le_left hC, fun g' hg' eps h0 h1' => ?_⟩
    have m1 := min_le_left δ δ'
    have m2 := min_le_right δ δ'
    rcases List.mem_cons.1 hg' with rfl | hg'
    · have := mul_le_mul_of_nonneg_left (le_max_right C D) h0.le
      linarith [h2 eps h0 h1']
    · have := mul_le_mul_of_nonneg_left (le_max_left C D) h0.le
      linarith [h1 g' hg' eps h0 h1']

/-- If the constraints are violated by at most a multiple of `eps` at `x`, and satisfied with a margin at `z`, then for small `eps` there is
a point at which they hold and the objective exceeds the limit at `x` by at most a multiple of `eps`. -/
theorem exists_feasible_near (gs : List (ℝ → (Fin L → ℝ) → ℝ)) (F : ℝ → (Fin L → ℝ) → ℝ) (F0 : (Fin L → ℝ) → ℝ) (x z : Fin L → ℝ)
    (hg : ∀ g ∈ gs, ∀ eps, 0 < eps → ConvexFn (g eps)) (hF : ∀ eps, 0 < eps → ConvexFn (F eps))
    (hFx : ∀ y, ∃ C, ∀ eps, 0 < eps → eps ≤ 1 → F eps y ≤ F0 y + eps * C)
    (hx : ∀ g ∈ gs, ∃ C, ∀ eps, 0 < eps → eps ≤ 1 → g eps x ≤ eps * C)
    (hz : ∀ g ∈ gs, ∃ δ > 0, ∃ C, ∀ eps, 0 < eps → eps ≤ 1 → g eps z ≤ -δ + eps * C) :
    ∃ K, ∃ eps0 > 0, eps0 ≤ 1 ∧ ∀ eps, 0 < eps → eps ≤ eps0 → ∃ y, (∀ g ∈ gs, g eps y ≤ 0) ∧ F eps y ≤ F0 x + K * eps := by
  obtain ⟨C, hC, h1⟩ := common_bound gs x hx
  obtain ⟨δ, hδ, D, hD, h2⟩ := common_margin gs z hz
  obtain ⟨A, hA⟩ := hFx x
  obtain ⟨B, hB⟩ := hFx z
  refine ⟨|A| + 2 * C / δ * (|F0 z - F0 x| + |B|), min 1 (min (δ / (2 * (D + 1))) (δ / (2 * (C + 1)))), by positivity, min_le_left _ _,
    fun eps h0 hle => ?_⟩
  have e1 : eps ≤ 1 := hle.trans (min_le_left _ _)
  have e2 : eps ≤ δ / (2 * (D + 1)) := hle.trans ((min_le_right _ _).trans (min_le_left _ _))
  have e3 : eps ≤ δ / (2 * (C + 1)) := hle.trans ((min_le_right _ _).trans (min_le_right _ _))
  rw [le_div_iff₀ (by positivity)] at e2 e3
  set t : ℝ := 2 * C / δ * eps with ht
  have ht0 : 0 ≤ t := by positivity
  have htd : t * δ = 2 * C * eps := by
    rw [ht]
    field_simp
  have ht1 : t ≤ 1 := by
    have : t * δ ≤ 1 * δ := by
      rw [htd, one_mul]
      linarith
    exact le_of_mul_le_mul_right this hδ
  refine ⟨fun i => (1 - t) * x i + (1 - (1 - t)) * z i, fun g hgm => ?_, ?_⟩
  · have h3 := hg g hgm eps h0 x z (1 - t) (by linarith) (by linarith)
    have h4 := mul_le_mul_of_nonneg_left (h1 g hgm eps h0 e1) (by linarith : 0 ≤ 1 - t)
    have h5 := mul_le_mul_of_nonneg_left (h2 g hgm eps h0 e1) ht0
    have h6 : t * (eps * (D + 1)) ≤ t * (δ / 2) := mul_le_mul_of_nonneg_left (by linarith) ht0
    have h7 : (1 - t) * (eps * C) ≤ eps * C := by nlinarith [mul_nonneg h0.le hC, mul_nonneg ht0 (mul_nonneg h0.le hC)]
    have h8 : 0 ≤ t * eps := mul_nonneg ht0 h0.le
    have h9 : t * (-δ + eps * D) = -(t * δ) + t * (eps * (D + 1)) - t * eps := by ring
    have h10 : (1 - (1 - t)) * g eps z = t * g eps z := by ring
    rw [h10] at h3
    linarith
  · have h3 := hF eps h0 x z (1 - t) (by linarith) (by linarith)
    have h4 := mul_le_mul_of_nonneg_left (hA eps h0 e1) (by linarith : 0 ≤ 1 - t)
    have h5 := mul_le_mul_of_nonneg_left (hB eps h0 e1) ht0
    have h6 : (1 - t) * (eps * A) ≤ eps * |A| := by
      have : (1 - t) * (eps * A) ≤ (1 - t) * (eps * |A|) :=
        mul_le_mul_of_nonneg_left (mul_le_mul_of_nonneg_left (le_abs_self A) h0.le) (by linarith)
      nlinarith [mul_nonneg ht0 (mul_nonneg h0.le (abs_nonneg A))]
    have h7 : eps * B ≤ |B| := by
      have := mul_le_mul_of_nonneg_left (le_abs_self B) h0.le
      nlinarith [abs_nonneg B]
    have h8 := mul_le_mul_of_nonneg_left (add_le_add (le_abs_self (F0 z - F0 x)) h7) ht0
    have h9 : (|A| + 2 * C / δ * (|F0 z - F0 x| + |B|)) * eps = eps * |A| + t * (|F0 z - F0 x| + |B|) := by
      rw [ht]
      ring
    rw [h9]
    have h10 : (1 - (1 - t)) * F eps z = t * F eps z := by ring
    rw [h10] at h3
    have h11 : t * (F0 z - F0 x + eps * B) = t * (F0 z + eps * B) - t * F0 x := by ring
    linarith

/-- The smooth maximum of families. -/
theorem maxLse_bound (gs : List (ℝ → (Fin L → ℝ) → ℝ)) (x : Fin L → ℝ) (h : ∀ g ∈ gs, ∃ C, ∀ eps, 0 < eps → eps ≤ 1 → g eps x ≤ eps * C)
    (hne : gs ≠ []) : ∃ C, ∀ eps, 0 < eps → eps ≤ 1 → maxLse (gs.map fun g => g eps x) eps ≤ eps * C := by
  obtain ⟨C, -, h1⟩ := common_bound gs x h
  refine ⟨C + Real.log gs.length, fun eps h0 hle => ?_⟩
  have := maxLse_le (xs := gs.map fun g => g eps x) (t := eps * C) h0 (by simpa using hne) (by
    intro v hv
    obtain ⟨g, hg, rfl⟩ := List.mem_map.1 hv
    exact h1 g hg eps h0 hle)
  rw [List.length_map] at this
  linarith

theorem maxLse_margin (gs : List (ℝ → (Fin L → ℝ) → ℝ)) (z : Fin L → ℝ)
    (h : ∀ g ∈ gs, ∃ δ > 0, ∃ C, ∀ eps, 0 < eps → eps ≤ 1 → g eps z ≤ -δ + eps * C) (hne : gs ≠ []) :
    ∃ δ > 0, ∃ C, ∀ eps, 0 < eps → eps ≤ 1 → maxLse (gs.map fun g => g eps z) eps ≤ -δ + eps * C := by
  obtain ⟨δ, hδ, C, -, h1⟩ := common_margin gs z h
  refine ⟨δ, hδ, C + Real.log gs.length, fun eps h0 hle => ?_⟩
  have := maxLse_le (xs := gs.map fun g => g eps z) (t := -δ + eps * C) h0 (by simpa using hne) (by
    intro v hv
    obtain ⟨g, hg, rfl⟩ := List.mem_map.1 hv
    exact h1 g hg eps h0 hle)
  rw [List.length_map] at this
  linarith

end Verif
