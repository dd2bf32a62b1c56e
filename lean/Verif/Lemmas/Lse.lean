import Verif.Model.Lse
import Mathlib.Tactic.Linarith
import Mathlib.Tactic.Positivity
import Mathlib.Tactic.FieldSimp
import Mathlib.Algebra.Order.BigOperators.Group.List
import Mathlib.Topology.Order.Basic
import Mathlib.Topology.Algebra.Order.Field

namespace Verif

theorem le_jmax {xs : List ℝ} {x : ℝ} (h : x ∈ xs) : x ≤ jmax xs := by
  cases xs with
  | nil => simp at h
  | cons a l =>
    change x ∈ a :: l at h
    show x ≤ l.foldr max a
    induction l with
    | nil => simp at h; simp [h]
    | cons b l ih =>
      rw [List.foldr_cons]
      simp only [List.mem_cons] at h ih
      rcases h with h | h | h
      · exact le_trans (ih (Or.inl h)) (le_max_right _ _)
      · exact h ▸ le_max_left _ _
      · exact le_trans (ih (Or.inr h)) (le_max_right _ _)

theorem jmax_mem {xs : List ℝ} (h : xs ≠ []) : jmax xs ∈ xs := by
  cases xs with
  | nil => exact absurd rfl h
  | cons a l =>
    clear h
    show l.foldr max a ∈ a :: l
    induction l with
    | nil => simp
    | cons b l ih =>
      rw [List.foldr_cons]
      simp only [List.mem_cons] at ih ⊢
      rcases max_choice b (l.foldr max a) with h | h <;> rw [h]
      · exact Or.inr (Or.inl rfl)
      · rcases ih with ih | ih
        · exact Or.inl ih
        · exact Or.inr (Or.inr ih)

theorem jmax_le_iff {xs : List ℝ} (h : xs ≠ []) (t : ℝ) : jmax xs ≤ t ↔ ∀ x ∈ xs, x ≤ t :=
  ⟨fun H _ hx => (le_jmax hx).trans H, fun H => H _ (jmax_mem h)⟩

theorem jmax_eq {xs : List ℝ} {m : ℝ} (hm : m ∈ xs) (hle : ∀ x ∈ xs, x ≤ m) : jmax xs = m :=
  le_antisymm ((jmax_le_iff (List.ne_nil_of_mem hm) m).2 hle) (le_jmax hm)

theorem sum_exp_pos {xs : List ℝ} (h : xs ≠ []) (eps : ℝ) :
    0 < (xs.map fun x => Real.exp (x / eps)).sum := by
  cases xs with
  | nil => exact absurd rfl h
  | cons a l =>
    simp only [List.map_cons, List.sum_cons]
    have : 0 ≤ (l.map fun x => Real.exp (x / eps)).sum := by
      apply List.sum_nonneg
      intro y hy
      obtain ⟨x, -, rfl⟩ := List.mem_map.1 hy
      exact (Real.exp_pos _).le
    have := Real.exp_pos (a / eps)
    linarith

theorem le_maxLse {xs : List ℝ} {eps x : ℝ} (he : 0 < eps) (hx : x ∈ xs) : x ≤ maxLse xs eps := by
  have hpos := sum_exp_pos (List.ne_nil_of_mem hx) eps
  have h1 : Real.exp (x / eps) ≤ (xs.map fun x => Real.exp (x / eps)).sum := by
    apply List.single_le_sum (l := xs.map fun x => Real.exp (x / eps))
    · intro y hy
      obtain ⟨z, -, rfl⟩ := List.mem_map.1 hy
      exact (Real.exp_pos _).le
    · exact List.mem_map.2 ⟨x, hx, rfl⟩
  have h2 : x / eps ≤ Real.log (xs.map fun x => Real.exp (x / eps)).sum :=
    (Real.le_log_iff_exp_le hpos).2 h1
  unfold maxLse
  rw [div_le_iff₀ he] at h2
  linarith

theorem maxLse_le {xs : List ℝ} {eps t : ℝ} (he : 0 < eps) (hne : xs ≠ []) (ht : ∀ x ∈ xs, x ≤ t) :
    maxLse xs eps ≤ t + eps * Real.log xs.length := by
  have hpos := sum_exp_pos hne eps
  have hlen : (0 : ℝ) < xs.length := by exact_mod_cast List.length_pos_iff.2 hne
  have h1 : (xs.map fun x => Real.exp (x / eps)).sum ≤ xs.length * Real.exp (t / eps) := by
    have := List.sum_le_card_nsmul (xs.map fun x => Real.exp (x / eps)) (Real.exp (t / eps)) (by
      intro y hy
      obtain ⟨z, hz, rfl⟩ := List.mem_map.1 hy
      exact Real.exp_le_exp.2 (div_le_div_of_nonneg_right (ht z hz) he.le))
    simpa [nsmul_eq_mul] using this
  have h2 : Real.log (xs.map fun x => Real.exp (x / eps)).sum ≤ Real.log xs.length + t / eps := by
    calc _ ≤ Real.log (xs.length * Real.exp (t / eps)) := Real.log_le_log hpos h1
      _ = _ := by rw [Real.log_mul hlen.ne' (Real.exp_pos _).ne', Real.log_exp]
  unfold maxLse
  have := mul_le_mul_of_nonneg_left h2 he.le
  rw [mul_add, mul_div_cancel₀ _ he.ne'] at this
  linarith

theorem maxLse_const (n : ℕ) (hn : n ≠ 0) (a eps : ℝ) (he : eps ≠ 0) :
    maxLse (List.replicate n a) eps = a + eps * Real.log n := by
  unfold maxLse
  rw [List.map_replicate, List.sum_replicate, nsmul_eq_mul,
    Real.log_mul (by exact_mod_cast hn) (Real.exp_pos _).ne', Real.log_exp, mul_add,
    mul_div_cancel₀ _ he]
  ring

theorem le_absLse {x eps : ℝ} (he : 0 < eps) : |x| ≤ absLse x eps :=
  abs_le.2 ⟨by have := le_maxLse (xs := [x, -x]) (x := -x) he (by simp); unfold absLse; linarith,
    le_maxLse he (by simp)⟩

theorem absLse_le {x eps : ℝ} (he : 0 < eps) : absLse x eps ≤ |x| + eps * Real.log 2 := by
  have := maxLse_le (xs := [x, -x]) (t := |x|) he (by simp) (by
    intro y hy
    simp at hy
    rcases hy with rfl | rfl
    · exact le_abs_self _
    · exact neg_le_abs _)
  simpa [absLse] using this

theorem le_linfLse {xs : List ℝ} {eps x : ℝ} (he : 0 < eps) (hx : x ∈ xs) : |x| ≤ linfLse xs eps :=
  (le_absLse he).trans (le_maxLse he (List.mem_map.2 ⟨x, hx, rfl⟩))

theorem linfLse_le {xs : List ℝ} {eps t : ℝ} (he : 0 < eps) (hne : xs ≠ []) (ht : ∀ x ∈ xs, |x| ≤ t) :
    linfLse xs eps ≤ t + eps * Real.log (2 * xs.length) := by
  have hlen : (0 : ℝ) < xs.length := by exact_mod_cast List.length_pos_iff.2 hne
  have := maxLse_le (xs := xs.map fun x => absLse x eps) (t := t + eps * Real.log 2) he (by simpa using hne) (by
    intro y hy
    obtain ⟨x, hx, rfl⟩ := List.mem_map.1 hy
    have := absLse_le (x := x) he
    have := ht x hx
    linarith)
  rw [List.length_map] at this
  rw [Real.log_mul two_ne_zero hlen.ne']
  unfold linfLse
  linarith

/-- Limit of `linf_lse` as the smoothing tends to `0` from above. -/
theorem tendsto_linfLse {xs : List ℝ} (hne : xs ≠ []) :
    Filter.Tendsto (fun eps => linfLse xs eps) (nhdsWithin 0 (Set.Ioi 0)) (nhds (jmax (xs.map fun x => |x|))) := by
  have hne' : (xs.map fun x => |x|) ≠ [] := by simpa using hne
  have hup : Filter.Tendsto (fun eps : ℝ => jmax (xs.map fun x => |x|) + eps * Real.log (2 * xs.length))
      (nhdsWithin 0 (Set.Ioi 0)) (nhds (jmax (xs.map fun x => |x|))) := by
    have : Filter.Tendsto (fun eps : ℝ => jmax (xs.map fun x => |x|) + eps * Real.log (2 * xs.length))
      (nhds 0) (nhds (jmax (xs.map fun x => |x|) + 0 * Real.log (2 * xs.length))) :=
      tendsto_const_nhds.add (Filter.tendsto_id.mul tendsto_const_nhds)
    simp only [zero_mul, add_zero] at this
    exact this.mono_left nhdsWithin_le_nhds
  refine tendsto_of_tendsto_of_tendsto_of_le_of_le' tendsto_const_nhds hup ?_ ?_
  · filter_upwards [self_mem_nhdsWithin] with eps he
    obtain ⟨x, hx, hxe⟩ := List.mem_map.1 (jmax_mem hne')
    rw [← hxe]
    exact le_linfLse he hx
  · filter_upwards [self_mem_nhdsWithin] with eps he
    exact linfLse_le he hne fun x hx => le_jmax (List.mem_map.2 ⟨x, hx, rfl⟩)

end Verif
