import Verif.Props.FitModes

/-!
# The coefficients of a surface are determined by the surface
-/

namespace Verif

open Real

/-- The rows that occur in the operator of a surface. -/
def RowKind.Valid (mpol ntor : ℕ) : RowKind → Prop
  | .zero => True
  | .cosine m n => (m = 0 ∧ n = 0) ∨ IsMode mpol ntor m n
  | .sine m n => IsMode mpol ntor m n

/-- The inner product of two rows over a grid. -/
noncomputable def RowKind.gram (nfp A B : ℕ) (r s : RowKind) : ℝ :=
  ∑ i ∈ Finset.range A, ∑ j ∈ Finset.range B,
    r.entry nfp 0 0 ((i : ℝ) / A / nfp) ((j : ℝ) / B) * s.entry nfp 0 0 ((i : ℝ) / A / nfp) ((j : ℝ) / B)

theorem RowKind.gram_comm (nfp A B : ℕ) (r s : RowKind) : r.gram nfp A B s = s.gram nfp A B r := by
  simp only [RowKind.gram, mul_comm]

section

variable {nfp mpol ntor A B : ℕ} (hf : nfp ≠ 0) (hA : 2 * ntor < A) (hB : 2 * mpol < B)

include hf

theorem RowKind.entry_cosine (m n : ℤ) (i j : ℕ) :
    (RowKind.cosine m n).entry nfp 0 0 ((i : ℝ) / A / nfp) ((j : ℝ) / B) = sinOrCos (gridAngle A B m n i j) (-1) := by
  have h := SurfaceShape.entry_grid_cos (S := ⟨nfp, true, 0, 0⟩) hf A B m n i j
  simp only [RowKind.entry, sinOrCos, if_neg (show ¬ ((-1 : ℤ) = 1) by norm_num)]
  exact h

theorem RowKind.entry_sine (m n : ℤ) (i j : ℕ) :
    (RowKind.sine m n).entry nfp 0 0 ((i : ℝ) / A / nfp) ((j : ℝ) / B) = sinOrCos (gridAngle A B m n i j) 1 := by
  have h := SurfaceShape.entry_grid_sin (S := ⟨nfp, true, 0, 0⟩) hf A B m n i j
  simp only [RowKind.entry, sinOrCos, if_true]
  exact h

omit hf in
theorem RowKind.entry_one (phi theta : ℝ) : (RowKind.cosine 0 0).entry nfp 0 0 phi theta = 1 := by
  simp [RowKind.entry, cEntry_zero]

include hA hB

theorem RowKind.gram_one {s : RowKind} (hs : s.Valid mpol ntor) (hne : s ≠ .cosine 0 0) : (RowKind.cosine 0 0).gram nfp A B s = 0 := by
  have hA0 : A ≠ 0 := by omega
  have hB0 : B ≠ 0 := by omega
  simp only [RowKind.gram, RowKind.entry_one, one_mul]
  cases s with
  | zero => simp [RowKind.entry]
  | cosine m n =>
    have hM : IsMode mpol ntor m n := hs.resolve_left (by rintro ⟨rfl, rfl⟩; exact hne rfl)
    simp only [RowKind.entry_cosine hf, sinOrCos, if_neg (show ¬ ((-1 : ℤ) = 1) by norm_num)]
    rw [grid_cos_sum A B hA0 hB0, if_neg]
    rintro ⟨h1, h2⟩
    simp only [IsMode] at hM
    have e1 := Int.eq_zero_of_abs_lt_dvd h1 (by rw [abs_lt]; constructor <;> omega)
    have e2 := Int.eq_zero_of_abs_lt_dvd h2 (by rw [abs_lt]; constructor <;> omega)
    omega
  | sine m n =>
    simp only [RowKind.entry_sine hf, sinOrCos, if_true]
    exact grid_sin_sum A B hA0 hB0 m n

theorem RowKind.gram_off {r s : RowKind} (hr : r.Valid mpol ntor) (hs : s.Valid mpol ntor) (hne : r ≠ s) : r.gram nfp A B s = 0 := by
  have hc : ∀ {t : RowKind}, t.Valid mpol ntor → t = .zero ∨ t = .cosine 0 0 ∨ ∃ m n, IsMode mpol ntor m n ∧
      ∃ σ : ℤ, (σ = 1 ∧ t = .sine m n ∨ σ = -1 ∧ t = .cosine m n) ∧
        ∀ i j : ℕ, t.entry nfp 0 0 ((i : ℝ) / A / nfp) ((j : ℝ) / B) = sinOrCos (gridAngle A B m n i j) σ := by
    intro t ht
    cases t with
    | zero => exact Or.inl rfl
    | cosine m n =>
      rcases ht with ⟨rfl, rfl⟩ | h
      · exact Or.inr (Or.inl rfl)
      · exact Or.inr (Or.inr ⟨m, n, h, -1, Or.inr ⟨rfl, rfl⟩, fun i j => RowKind.entry_cosine hf m n i j⟩)
    | sine m n => exact Or.inr (Or.inr ⟨m, n, ht, 1, Or.inl ⟨rfl, rfl⟩, fun i j => RowKind.entry_sine hf m n i j⟩)
  rcases hc hr with rfl | rfl | ⟨m, n, hM, σ, hσ, he⟩
  · simp [RowKind.gram, RowKind.entry]
  · exact RowKind.gram_one hf hA hB hs hne.symm
  rcases hc hs with rfl | rfl | ⟨m', n', hM', σ', hσ', he'⟩
  · simp [RowKind.gram, RowKind.entry]
  · rw [RowKind.gram_comm]
    exact RowKind.gram_one hf hA hB hr hne
  simp only [RowKind.gram, he, he']
  rw [grid_orthogonal hA hB hM hM' (hσ.imp (fun h => h.1) fun h => h.1) (hσ'.imp (fun h => h.1) fun h => h.1), if_neg]
  rintro ⟨rfl, rfl, rfl⟩
  rcases hσ with ⟨h1, rfl⟩ | ⟨h1, rfl⟩ <;> rcases hσ' with ⟨h2, rfl⟩ | ⟨h2, rfl⟩ <;> first | exact hne rfl | omega

theorem RowKind.gram_self {r : RowKind} (hr : r.Valid mpol ntor) (hne : r ≠ .zero) : r.gram nfp A B r ≠ 0 := by
  have hA0 : (A : ℝ) ≠ 0 := by exact_mod_cast (by omega : A ≠ 0)
  have hB0 : (B : ℝ) ≠ 0 := by exact_mod_cast (by omega : B ≠ 0)
  have hp : (A : ℝ) * B / 2 ≠ 0 := by positivity
  cases r with
  | zero => exact absurd rfl hne
  | cosine m n =>
    rcases hr with ⟨rfl, rfl⟩ | h
    · simp only [RowKind.gram, RowKind.entry_one, mul_one, Finset.sum_const, Finset.card_range, nsmul_eq_mul]
      exact mul_ne_zero hA0 hB0
    · simp only [RowKind.gram, RowKind.entry_cosine hf]
      rw [grid_orthogonal hA hB h h (Or.inr rfl) (Or.inr rfl), if_pos ⟨rfl, rfl, rfl⟩]
      exact hp
  | sine m n =>
    simp only [RowKind.gram, RowKind.entry_sine hf]
    rw [grid_orthogonal hA hB hr hr (Or.inl rfl) (Or.inl rfl), if_pos ⟨rfl, rfl, rfl⟩]
    exact hp

/-- Different rows are linearly independent. -/
theorem rows_independent {N : ℕ} {K : Fin N → RowKind} (hK : ∀ k, (K k).Valid mpol ntor)
    (hinj : ∀ k l, K k ≠ .zero → K l = K k → l = k) {x : Fin N → ℝ}
    (hx : ∀ phi theta, ∑ k, (K k).entry nfp 0 0 phi theta * x k = 0) {k : Fin N} (hk : K k ≠ .zero) : x k = 0 := by
  have h : ∑ l, (K l).gram nfp A B (K k) * x l = 0 := by
    calc ∑ l, (K l).gram nfp A B (K k) * x l = ∑ i ∈ Finset.range A, ∑ j ∈ Finset.range B,
          (∑ l, (K l).entry nfp 0 0 ((i : ℝ) / A / nfp) ((j : ℝ) / B) * x l) * (K k).entry nfp 0 0 ((i : ℝ) / A / nfp) ((j : ℝ) / B) := by
          simp only [RowKind.gram, Finset.sum_mul]
          rw [Finset.sum_comm]
          refine Finset.sum_congr rfl fun i _ => ?_
          rw [Finset.sum_comm]
          exact Finset.sum_congr rfl fun j _ => Finset.sum_congr rfl fun l _ => by ring
      _ = 0 := by simp [hx]
  rw [Finset.sum_eq_single k (fun l _ hl => by
    rw [RowKind.gram_off hf hA hB (hK l) (hK k) (fun e => hl (hinj k l hk e)), zero_mul]) (by simp)] at h
  exact (mul_eq_zero.1 h).resolve_left (RowKind.gram_self hf hA hB (hK k) hk)

end

namespace SurfaceShape

variable (S : SurfaceShape)

theorem sinModes_nodup : S.sinModes.Nodup := by
  have h : S.cosModes.Nodup := (C37_modes_complete S.mpol S.ntor).1
  rw [S.cosModes_eq] at h
  exact (List.nodup_cons.1 h).2

theorem fitColumns_nodup : S.fitColumns.Nodup := by
  have hc : S.cosModes.Nodup := (C37_modes_complete S.mpol S.ntor).1
  have hs := S.sinModes_nodup
  have c1 : (S.cosModes.map fun p => ((.cosine p.1 p.2, .zero, p.1 ^ 2 + p.2 ^ 2) : RowKind × RowKind × ℤ)).Nodup :=
    hc.map fun p q h => by simp only [Prod.mk.injEq, RowKind.cosine.injEq] at h; exact Prod.ext h.1.1 h.1.2
  have c2 : (S.sinModes.map fun p => ((.sine p.1 p.2, .zero, p.1 ^ 2 + p.2 ^ 2) : RowKind × RowKind × ℤ)).Nodup :=
    hs.map fun p q h => by simp only [Prod.mk.injEq, RowKind.sine.injEq] at h; exact Prod.ext h.1.1 h.1.2
  have c3 : (S.cosModes.map fun p => ((.zero, .cosine p.1 p.2, p.1 ^ 2 + p.2 ^ 2) : RowKind × RowKind × ℤ)).Nodup :=
    hc.map fun p q h => by simp only [Prod.mk.injEq, RowKind.cosine.injEq, true_and] at h; exact Prod.ext h.1.1 h.1.2
  have c4 : (S.sinModes.map fun p => ((.zero, .sine p.1 p.2, p.1 ^ 2 + p.2 ^ 2) : RowKind × RowKind × ℤ)).Nodup :=
    hs.map fun p q h => by simp only [Prod.mk.injEq, RowKind.sine.injEq, true_and] at h; exact Prod.ext h.1.1 h.1.2
  rw [fitColumns]
  split_ifs
  · refine c1.append c4 fun t h1 h2 => ?_
    obtain ⟨p, -, rfl⟩ := List.mem_map.1 h1
    obtain ⟨q, -, h⟩ := List.mem_map.1 h2
    simp at h
  · refine (c1.append c2 fun t h1 h2 => ?_).append (c3.append c4 fun t h1 h2 => ?_) fun t h1 h2 => ?_
    · obtain ⟨p, -, rfl⟩ := List.mem_map.1 h1
      obtain ⟨q, -, h⟩ := List.mem_map.1 h2
      simp at h
    · obtain ⟨p, -, rfl⟩ := List.mem_map.1 h1
      obtain ⟨q, -, h⟩ := List.mem_map.1 h2
      simp at h
    · rcases List.mem_append.1 h1 with h1 | h1 <;> obtain ⟨p, -, rfl⟩ := List.mem_map.1 h1 <;>
        rcases List.mem_append.1 h2 with h2 | h2 <;> obtain ⟨q, -, h⟩ := List.mem_map.1 h2 <;> simp at h

/-- The weight of a row. -/
def rowWeight : RowKind → ℤ
  | .zero => 0
  | .cosine m n => m ^ 2 + n ^ 2
  | .sine m n => m ^ 2 + n ^ 2

theorem fitColumns_shape {t : RowKind × RowKind × ℤ} (h : t ∈ S.fitColumns) :
    (t.1 ≠ .zero ∧ t.1.Valid S.mpol S.ntor ∧ t = (t.1, .zero, rowWeight t.1)) ∨
      (t.2.1 ≠ .zero ∧ t.2.1.Valid S.mpol S.ntor ∧ t = (.zero, t.2.1, rowWeight t.2.1)) := by
  have hc : ∀ p ∈ S.cosModes, (RowKind.cosine p.1 p.2).Valid S.mpol S.ntor := by
    intro p hp
    rw [S.cosModes_eq, List.mem_cons] at hp
    rcases hp with rfl | hp
    · exact Or.inl ⟨rfl, rfl⟩
    · exact Or.inr (S.isMode_of_sinModes hp)
  have hs : ∀ p ∈ S.sinModes, (RowKind.sine p.1 p.2).Valid S.mpol S.ntor := fun p hp => S.isMode_of_sinModes hp
  rw [fitColumns] at h
  split_ifs at h
  · rcases List.mem_append.1 h with h | h <;> obtain ⟨p, hp, rfl⟩ := List.mem_map.1 h
    · exact Or.inl ⟨by simp, hc p hp, rfl⟩
    · exact Or.inr ⟨by simp, hs p hp, rfl⟩
  · rcases List.mem_append.1 h with h | h <;> rcases List.mem_append.1 h with h | h <;> obtain ⟨p, hp, rfl⟩ := List.mem_map.1 h
    · exact Or.inl ⟨by simp, hc p hp, rfl⟩
    · exact Or.inl ⟨by simp, hs p hp, rfl⟩
    · exact Or.inr ⟨by simp, hc p hp, rfl⟩
    · exact Or.inr ⟨by simp, hs p hp, rfl⟩

theorem column_inj {k l : Fin S.fitSize} (h : S.column l = S.column k) : l = k :=
  Fin.ext ((S.fitColumns_nodup.getElem_inj_iff).1 h)

/-- Coefficients of a vanishing surface vanish. -/
theorem coefficients_zero (hf : S.nfp ≠ 0) {x : Fin S.fitSize → ℝ}
    (h : ∀ phi theta, S.rDash (List.ofFn x) 0 0 phi theta = 0 ∧ S.zDash (List.ofFn x) 0 0 phi theta = 0) : x = 0 := by
  have hvR : ∀ k, (S.column k).1.Valid S.mpol S.ntor := by
    intro k
    rcases S.fitColumns_shape (S.column_mem k) with ⟨-, h, -⟩ | ⟨-, -, h⟩
    · exact h
    · rw [h]
      trivial
  have hvZ : ∀ k, (S.column k).2.1.Valid S.mpol S.ntor := by
    intro k
    rcases S.fitColumns_shape (S.column_mem k) with ⟨-, -, h⟩ | ⟨-, h, -⟩
    · rw [h]
      trivial
    · exact h
  have hiR : ∀ k l, (S.column k).1 ≠ .zero → (S.column l).1 = (S.column k).1 → l = k := by
    intro k l hk e
    apply S.column_inj
    rcases S.fitColumns_shape (S.column_mem k) with ⟨-, -, h1⟩ | ⟨-, -, h1⟩
    · rcases S.fitColumns_shape (S.column_mem l) with ⟨-, -, h2⟩ | ⟨-, -, h2⟩
      · rw [h2, e]
        exact h1.symm
      · exact absurd (e.symm.trans (congrArg (fun t => t.1) h2)) hk
    · exact absurd (congrArg (fun t => t.1) h1) hk
  have hiZ : ∀ k l, (S.column k).2.1 ≠ .zero → (S.column l).2.1 = (S.column k).2.1 → l = k := by
    intro k l hk e
    apply S.column_inj
    rcases S.fitColumns_shape (S.column_mem k) with ⟨-, -, h1⟩ | ⟨-, -, h1⟩
    · exact absurd (congrArg (fun t => t.2.1) h1) hk
    · rcases S.fitColumns_shape (S.column_mem l) with ⟨-, -, h2⟩ | ⟨-, -, h2⟩
      · exact absurd (e.symm.trans (congrArg (fun t => t.2.1) h2)) hk
      · rw [h2, e]
        exact h1.symm
  funext k
  rcases S.fitColumns_shape (S.column_mem k) with ⟨hk, -, -⟩ | ⟨hk, -, -⟩
  · exact rows_independent (A := 2 * S.ntor + 1) (B := 2 * S.mpol + 1) hf (by omega) (by omega) hvR hiR
      (fun p t => by rw [← S.rDash_columns]; exact (h p t).1) hk
  · exact rows_independent (A := 2 * S.ntor + 1) (B := 2 * S.mpol + 1) hf (by omega) (by omega) hvZ hiZ
      (fun p t => by rw [← S.zDash_columns]; exact (h p t).2) hk

/-- Two lists of coefficients of the same surface are equal. -/
theorem coefficients_unique (hf : S.nfp ≠ 0) {x y : Fin S.fitSize → ℝ}
    (h : ∀ phi theta, S.rDash (List.ofFn x) 0 0 phi theta = S.rDash (List.ofFn y) 0 0 phi theta ∧
      S.zDash (List.ofFn x) 0 0 phi theta = S.zDash (List.ofFn y) 0 0 phi theta) : x = y := by
  refine sub_eq_zero.1 (S.coefficients_zero hf fun p t => ?_)
  rw [S.rDash_sub, S.zDash_sub, (h p t).1, (h p t).2, sub_self, sub_self]
  exact ⟨rfl, rfl⟩

end SurfaceShape

end Verif
