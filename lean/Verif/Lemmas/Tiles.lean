import Verif.Lemmas.Lse
import Verif.Spec.Periods

/-!
# Lists that consist of copies of another list
-/

namespace Verif

/-- The first list consists of `N` partners of each entry of the second one, in some order; `R` relates the partners. -/
def Tiles {α β : Type} (N : ℕ) (R : α → β → Prop) (l' : List α) (l : List β) : Prop :=
  ∃ pairs : List (α × β), pairs.map Prod.fst = l' ∧ (pairs.map Prod.snd).Perm (List.replicate N l).flatten ∧ ∀ p ∈ pairs, R p.1 p.2

theorem map_replicate_flatten {β γ : Type} (N : ℕ) (f : β → γ) (l : List β) :
    ((List.replicate N l).flatten).map f = (List.replicate N (l.map f)).flatten := by
  rw [List.map_flatten, List.map_replicate]

theorem flatMap_replicate_flatten {β γ : Type} (N : ℕ) (f : β → List γ) (l : List β) :
    ((List.replicate N l).flatten).flatMap f = (List.replicate N (l.flatMap f)).flatten := by
  induction N with
  | zero => simp
  | succ N ih => simp [List.replicate_succ, ih]

namespace Tiles

variable {α β γ : Type} {N : ℕ} {R : α → β → Prop} {l' : List α} {l : List β}

theorem mono {S : α → β → Prop} (h : Tiles N R l' l) (hs : ∀ a b, R a b → S a b) : Tiles N S l' l := by
  obtain ⟨ps, h1, h2, h3⟩ := h
  exact ⟨ps, h1, h2, fun p hp => hs _ _ (h3 p hp)⟩

theorem map (h : Tiles N R l' l) {f' : α → γ} {f : β → γ} (hf : ∀ a b, R a b → f' a = f b) :
    (l'.map f').Perm (List.replicate N (l.map f)).flatten := by
  obtain ⟨ps, rfl, h2, h3⟩ := h
  rw [← map_replicate_flatten, List.map_map]
  have e : ps.map (f' ∘ Prod.fst) = (ps.map Prod.snd).map f := by
    rw [List.map_map]
    exact List.map_congr_left fun p hp => hf _ _ (h3 p hp)
  rw [e]
  exact h2.map f

theorem flatMap (h : Tiles N R l' l) {f' : α → List γ} {f : β → List γ} (hf : ∀ a b, R a b → f' a = f b) :
    (l'.flatMap f').Perm (List.replicate N (l.flatMap f)).flatten := by
  obtain ⟨ps, rfl, h2, h3⟩ := h
  rw [← flatMap_replicate_flatten, List.flatMap_map]
  have e : (ps.flatMap fun a => f' a.1) = (ps.map Prod.snd).flatMap f := by
    rw [List.flatMap_map, List.flatMap_def, List.flatMap_def]
    congr 1
    exact List.map_congr_left fun p hp => hf _ _ (h3 p hp)
  rw [e]
  exact h2.flatMap_right f

end Tiles

theorem tiled_sum {N : ℕ} {l' l : List ℝ} (h : l'.Perm (List.replicate N l).flatten) : l'.sum = N * l.sum := by
  rw [h.sum_eq]
  clear h
  induction N with
  | zero => simp
  | succ N ih =>
    rw [List.replicate_succ, List.flatten_cons, List.sum_append, ih]
    push_cast
    ring

theorem tiled_mem {β : Type} {N : ℕ} (hN : N ≠ 0) {l' l : List β} (h : l'.Perm (List.replicate N l).flatten) (x : β) : x ∈ l' ↔ x ∈ l := by
  rw [h.mem_iff, List.mem_flatten]
  constructor
  · rintro ⟨m, hm, hx⟩
    rwa [(List.mem_replicate.1 hm).2] at hx
  · exact fun hx => ⟨l, List.mem_replicate.2 ⟨hN, rfl⟩, hx⟩

theorem jmax_congr {l' l : List ℝ} (h : ∀ x, x ∈ l' ↔ x ∈ l) : jmax l' = jmax l := by
  by_cases hl : l = []
  · subst hl
    have : l' = [] := List.eq_nil_iff_forall_not_mem.2 fun x hx => by simpa using (h x).1 hx
    rw [this]
  · exact jmax_eq ((h _).2 (jmax_mem hl)) fun x hx => (jmax_le_iff hl _).1 le_rfl x ((h x).1 hx)

theorem tiled_map {β γ : Type} {N : ℕ} {l' l : List β} (h : l'.Perm (List.replicate N l).flatten) (f : β → γ) :
    (l'.map f).Perm (List.replicate N (l.map f)).flatten := by
  rw [← map_replicate_flatten]
  exact h.map f

theorem tiled_jmax {N : ℕ} (hN : N ≠ 0) {l' l : List ℝ} (h : l'.Perm (List.replicate N l).flatten) (f : ℝ → ℝ) :
    jmax (l'.map f) = jmax (l.map f) :=
  jmax_congr (tiled_mem hN (tiled_map h f))

theorem TiledVal.entries_mem {N : ℕ} (hN : N ≠ 0) {v' v : Val} (h : TiledVal N v' v) (x : ℝ) : x ∈ v'.entries ↔ x ∈ v.entries := by
  cases v' <;> cases v <;> simp only [TiledVal] at h
  · rw [h]
  · exact tiled_mem hN h x

theorem gridPoints_copies (N : ℕ) (s : ℝ) (ps ts : List ℝ) :
    gridPoints (shiftedCopies N s ps) ts = (List.range N).flatMap fun k : ℕ => (gridPoints ps ts).map fun q => (q.1 + (k : ℝ) * s, q.2) := by
  simp only [gridPoints, shiftedCopies, List.flatMap_assoc, List.flatMap_map, List.map_flatMap, List.map_map, Function.comp_def]

theorem gridStep_copies {N : ℕ} (hN : N ≠ 0) (s : ℝ) {ps : List ℝ} (h : 2 ≤ ps.length) : gridStep (shiftedCopies N s ps) = gridStep ps := by
  obtain ⟨n, rfl⟩ := Nat.exists_eq_succ_of_ne_zero hN
  match ps, h with
  | a :: b :: l, _ => simp [gridStep, shiftedCopies, List.range_succ_eq_map]

end Verif
