import Verif.Lemmas.Turned
import Verif.Props.CoilFit

/-!
# The modes of a potential described with fewer field periods
-/

namespace Verif

open Real CpParams

/-- If every row of one table is a combination of the rows of another one, then so is every combination. -/
theorem combined_rows {β γ ι : Type} (R : List β) (e : β → ι → ℝ) (rs : List γ) (e' : γ → ι → ℝ)
    (h : ∀ r ∈ rs, ∃ c : List ℝ, c.length = R.length ∧ ∀ i, e' r i = app (R.map fun q => e q i) c)
    (c : List ℝ) : ∃ c' : List ℝ, c'.length = R.length ∧ ∀ i, app (rs.map fun q => e' q i) c = app (R.map fun q => e q i) c' := by
  induction rs generalizing c with
  | nil => exact ⟨List.replicate R.length 0, by simp, fun i => by rw [app_zero_list]; simp [app]⟩
  | cons r rs ih =>
    cases c with
    | nil => exact ⟨List.replicate R.length 0, by simp, fun i => by rw [app_zero_list]; simp [app]⟩
    | cons x c =>
      obtain ⟨c1, l1, h1⟩ := h r List.mem_cons_self
      obtain ⟨c2, l2, h2⟩ := ih (fun q hq => h q (List.mem_cons_of_mem _ hq)) c
      refine ⟨List.zipWith (· + ·) (c1.map fun y => x * y) c2, by simp [l1, l2], fun i => ?_⟩
      rw [app_add_list _ _ _ (by simp [l1, l2]), app_smul_list, ← h1, ← h2]
      simp only [app, List.map_cons, List.zipWith_cons_cons, List.sum_cons]
      ring

/-- A potential of `P` is a potential of `P'`, if `N` field periods of `P` are one of `P'` and `P'` has the modes. -/
theorem merged_potential_exists {N : ℕ} {P P' : CpParams} (hn : P.surf.nfp = N * P'.surf.nfp) (hN : N ≠ 0) (hm : P.mpol ≤ P'.mpol)
    (ht : N * P.ntor ≤ P'.ntor) (hs : P'.stellsym = true → P.stellsym = true) (c : List ℝ) :
    ∃ c' : List ℝ, c'.length = P'.rows.length ∧ ∀ p x, P'.Phi c' p x = P.Phi c p x := by
  have hN1 : (1 : ℤ) ≤ N := by
    have := Nat.pos_of_ne_zero hN
    omega
  have ht' : (N : ℤ) * P.ntor ≤ P'.ntor := by exact_mod_cast ht
  have hmode : ∀ m n : ℤ, IsMode P.mpol P.ntor m n → IsMode P'.mpol P'.ntor m (N * n) := by
    intro m n h
    have hm' : (P.mpol : ℤ) ≤ P'.mpol := by exact_mod_cast hm
    rcases h with ⟨h1, h2, h3⟩ | ⟨h1, h2, h3, h4⟩
    · exact Or.inl ⟨h1, by nlinarith, by nlinarith⟩
    · exact Or.inr ⟨h1, by omega, by nlinarith, by nlinarith⟩
  obtain ⟨c', l, h⟩ := combined_rows (ι := ℝ × ℝ) P'.rows (fun r i => sinOrCos (P'.angle i.1 i.2 r) r.2.2) P.rows
    (fun r i => sinOrCos (P.angle i.1 i.2 r) r.2.2) (fun r hr => by
      have hmem : (r.1, N * r.2.1, r.2.2) ∈ P'.rows := by
        rw [mem_rows_iff] at hr ⊢
        rcases hr with ⟨h1, h2⟩ | ⟨h0, h1, h2⟩
        · exact Or.inl ⟨h1, hmode _ _ h2⟩
        · refine Or.inr ⟨?_, h1, ?_⟩
          · cases h' : P'.stellsym
            · rfl
            · rw [hs h'] at h0
              simp at h0
          · rcases h2 with h2 | ⟨h2, h3⟩
            · exact Or.inl (hmode _ _ h2)
            · exact Or.inr ⟨h2, by simp [h3]⟩
      obtain ⟨c1, l1, h1⟩ := select_row P'.rows hmem
      refine ⟨c1, l1, fun i => ?_⟩
      rw [h1]
      simp only [angle, CpParams.nfp, hn]
      push_cast
      ring_nf) c
  exact ⟨c', l, fun p x => by rw [Phi, Phi, trig, trig]; exact (h (p, x)).symm⟩

/-- The average of a wave over the field periods. -/
theorem averaged_wave {N : ℕ} (hN : N ≠ 0) (a : ℝ) (n s : ℤ) (hs : s = 1 ∨ s = -1) :
    (∑ k ∈ Finset.range N, sinOrCos (a + 2 * π * k * n / N) s) / N = if (N : ℤ) ∣ n then sinOrCos a s else 0 := by
  have hN' : (N : ℝ) ≠ 0 := by exact_mod_cast hN
  have h1 := cos_sum N hN n
  have h2 := sin_sum N hN n
  rcases hs with rfl | rfl
  · simp only [sinOrCos, if_true, sin_add, Finset.sum_add_distrib, ← Finset.mul_sum, h1, h2]
    split_ifs
    · field_simp
      ring
    · simp
  · have e : ∀ b : ℝ, sinOrCos b (-1) = cos b := fun b => by simp [sinOrCos]
    simp only [e, cos_add, Finset.sum_sub_distrib, ← Finset.mul_sum, h1, h2]
    split_ifs
    · field_simp
      ring
    · simp

/-- The average of a potential of `P'` over the shorter field periods of `P` is a potential of `P`. -/
theorem averaged_potential_exists {N : ℕ} {P P' : CpParams} (hn : P.surf.nfp = N * P'.surf.nfp) (h0 : P.surf.nfp ≠ 0)
    (hm : P'.mpol ≤ P.mpol) (ht : P'.ntor < N * (P.ntor + 1)) (hs : P.stellsym = true → P'.stellsym = true) (c' : List ℝ) :
    ∃ c : List ℝ, c.length = P.rows.length ∧
      ∀ p x, P.Phi c p x = (∑ k ∈ Finset.range N, P'.Phi c' (p - (k : ℝ) * (1 / P.surf.nfp)) x) / N := by
  have hN : N ≠ 0 := by
    rintro rfl
    exact h0 (by rw [hn, zero_mul])
  have hN1 : (1 : ℤ) ≤ N := by
    have := Nat.pos_of_ne_zero hN
    omega
  have hM : (P'.surf.nfp : ℝ) ≠ 0 := by
    intro e
    have : P'.surf.nfp = 0 := by exact_mod_cast e
    exact h0 (by rw [hn, this, mul_zero])
  have hN' : (N : ℝ) ≠ 0 := by exact_mod_cast hN
  have ht' : (P'.ntor : ℤ) < N * (P.ntor + 1) := by exact_mod_cast ht
  have hmode : ∀ m n : ℤ, IsMode P'.mpol P'.ntor m (N * n) → IsMode P.mpol P.ntor m n := by
    intro m n h
    have hm' : (P'.mpol : ℤ) ≤ P.mpol := by exact_mod_cast hm
    have hup : (N : ℤ) * n ≤ P'.ntor → n ≤ P.ntor := by
      intro h
      by_contra hc
      push Not at hc
      nlinarith
    have hlow : -(P'.ntor : ℤ) ≤ N * n → -(P.ntor : ℤ) ≤ n := by
      intro h
      by_contra hc
      push Not at hc
      nlinarith
    rcases h with ⟨h1, h2, h3⟩ | ⟨h1, h2, h3, h4⟩
    · exact Or.inl ⟨h1, by by_contra hc; push Not at hc; nlinarith, hup h3⟩
    · exact Or.inr ⟨h1, by omega, hlow h3, hup h4⟩
  obtain ⟨c, l, h⟩ := combined_rows (ι := ℝ × ℝ) P.rows (fun r i => sinOrCos (P.angle i.1 i.2 r) r.2.2) P'.rows
    (fun r i => (∑ k ∈ Finset.range N, sinOrCos (P'.angle (i.1 - (k : ℝ) * (1 / P.surf.nfp)) i.2 r) r.2.2) / N) (fun r hr => by
      have hang : ∀ (i : ℝ × ℝ) (k : ℕ), P'.angle (i.1 - (k : ℝ) * (1 / P.surf.nfp)) i.2 r =
          P'.angle i.1 i.2 r + 2 * π * k * r.2.1 / N := by
        intro i k
        simp only [angle, CpParams.nfp, hn]
        push_cast
        field_simp
        ring
      simp only [hang, averaged_wave hN _ _ _ (mem_rows P' r hr).1]
      by_cases hd : (N : ℤ) ∣ r.2.1
      · obtain ⟨n, hn'⟩ := hd
        have hmem : (r.1, n, r.2.2) ∈ P.rows := by
          rw [mem_rows_iff] at hr ⊢
          rcases hr with ⟨h1, h2⟩ | ⟨hf, h1, h2⟩
          · exact Or.inl ⟨h1, hmode _ _ (hn' ▸ h2)⟩
          · refine Or.inr ⟨?_, h1, ?_⟩
            · cases h' : P.stellsym
              · rfl
              · rw [hs h'] at hf
                simp at hf
            · rcases h2 with h2 | ⟨h2, h3⟩
              · exact Or.inl (hmode _ _ (hn' ▸ h2))
              · refine Or.inr ⟨h2, ?_⟩
                rw [hn'] at h3
                rcases mul_eq_zero.1 h3 with h3 | h3
                · omega
                · exact h3
        obtain ⟨c1, l1, h1⟩ := select_row P.rows hmem
        refine ⟨c1, l1, fun i => ?_⟩
        rw [h1, if_pos ⟨n, hn'⟩]
        simp only [angle, CpParams.nfp, hn, hn']
        push_cast
        ring_nf
      · refine ⟨List.replicate P.rows.length 0, by simp, fun i => ?_⟩
        rw [if_neg hd, app_zero_list]) c'
  refine ⟨c, l, fun p x => ?_⟩
  have := h (p, x)
  rw [Phi, trig, ← this]
  simp only [Phi, trig]
  generalize P'.rows = R
  clear this h l hmode
  induction R generalizing c' with
  | nil => simp [app]
  | cons r R ih =>
    cases c' with
    | nil => simp [app]
    | cons y c' =>
      have := ih c'
      simp only [app, List.map_cons, List.zipWith_cons_cons, List.sum_cons, Finset.sum_add_distrib, add_div] at this ⊢
      rw [← this, ← Finset.sum_mul]
      ring

end Verif
