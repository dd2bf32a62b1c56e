import Verif.Lemmas.PeriodModes

/-!
# The coefficients of a surface described with fewer field periods
-/

namespace Verif

open Real

namespace SurfaceShape

/-- The shape that takes `N` of the field periods of `S` as one. -/
def merged (S : SurfaceShape) (N : ℕ) : SurfaceShape := { S with nfp := S.nfp / N, ntor := N * S.ntor }

variable (S : SurfaceShape)

theorem mem_sRows_merged {N : ℕ} (hN : N ≠ 0) (f : ℤ → ℤ → RowKind) {m n : ℤ} (hf : ∀ a b, f a b = f m n → a = m ∧ b = n)
    (h : f m n ∈ List.zipWith f (surfMs S.mpol S.ntor) (surfNs S.mpol S.ntor)) :
    f m (N * n) ∈ List.zipWith f (surfMs (S.merged N).mpol (S.merged N).ntor) (surfNs (S.merged N).mpol (S.merged N).ntor) := by
  have e : ∀ mp nt, List.zipWith f (surfMs mp nt) (surfNs mp nt) = (modePairs (surfMs mp nt, surfNs mp nt)).map fun q => f q.1 q.2 := by
    intro mp nt
    rw [modePairs, List.zip, List.map_zipWith]
  rw [e, List.mem_map] at h ⊢
  obtain ⟨⟨a, b⟩, hab, hq⟩ := h
  obtain ⟨rfl, rfl⟩ := hf a b hq
  refine ⟨(a, N * b), ?_, rfl⟩
  rw [(C37_modes_complete _ _).2.2] at hab ⊢
  have hN1 : (1 : ℤ) ≤ N := by
    have := Nat.pos_of_ne_zero hN
    omega
  rw [abs_le] at hab ⊢
  simp only [merged]
  push_cast
  rcases hab with ⟨h1, h2, h3⟩ | ⟨h1, h2, h3, h4⟩
  · exact Or.inl ⟨h1, by nlinarith, by nlinarith⟩
  · exact Or.inr ⟨h1, h2, by nlinarith, by nlinarith⟩

/-- The rows of the merged shape contain those of the shape. -/
theorem mem_taggedRows_merged {N : ℕ} (hN : N ≠ 0) {b : Bool} {r : RowKind} (h : (b, r) ∈ S.taggedRows) :
    ∃ m n, (r = .cosine m n ∧ (b, RowKind.cosine m (N * n)) ∈ (S.merged N).taggedRows) ∨
      (r = .sine m n ∧ (b, RowKind.sine m (N * n)) ∈ (S.merged N).taggedRows) := by
  have hc : ∀ r ∈ S.cRows, ∃ m n, r = RowKind.cosine m n ∧ RowKind.cosine m (N * n) ∈ (S.merged N).cRows := by
    intro r hr
    rw [cRows_eq, List.mem_cons] at hr
    rcases hr with rfl | hr
    · exact ⟨0, 0, rfl, by rw [cRows_eq]; simp⟩
    · obtain ⟨i, hi, e⟩ := List.mem_iff_getElem.1 hr
      rw [List.getElem_zipWith] at e
      refine ⟨_, _, e.symm, ?_⟩
      rw [cRows_eq]
      refine List.mem_cons_of_mem _ (S.mem_sRows_merged hN _ (fun a b e => by simpa using e) ?_)
      rw [e]
      exact hr
  have hs : ∀ r ∈ S.sRows, ∃ m n, r = RowKind.sine m n ∧ RowKind.sine m (N * n) ∈ (S.merged N).sRows := by
    intro r hr
    obtain ⟨i, hi, e⟩ := List.mem_iff_getElem.1 hr
    simp only [sRows, List.getElem_zipWith] at e
    refine ⟨_, _, e.symm, S.mem_sRows_merged hN _ (fun a b e => by simpa using e) ?_⟩
    rw [e]
    exact hr
  have hcs : ∀ r ∈ S.cRows ++ S.sRows, ∃ m n, (r = .cosine m n ∧ RowKind.cosine m (N * n) ∈ (S.merged N).cRows ++ (S.merged N).sRows) ∨
      (r = .sine m n ∧ RowKind.sine m (N * n) ∈ (S.merged N).cRows ++ (S.merged N).sRows) := by
    intro r hr
    rcases List.mem_append.1 hr with hr | hr
    · obtain ⟨m, n, e, h⟩ := hc r hr
      exact ⟨m, n, Or.inl ⟨e, List.mem_append_left _ h⟩⟩
    · obtain ⟨m, n, e, h⟩ := hs r hr
      exact ⟨m, n, Or.inr ⟨e, List.mem_append_right _ h⟩⟩
  have hst : (S.merged N).stellsym = S.stellsym := rfl
  have hR : ∀ r ∈ S.rRows, ∃ m n, (r = .cosine m n ∧ RowKind.cosine m (N * n) ∈ (S.merged N).rRows) ∨
      (r = .sine m n ∧ RowKind.sine m (N * n) ∈ (S.merged N).rRows) := by
    intro r hr
    cases h : S.stellsym with
    | true =>
      simp only [rRows, hst, h, if_true] at hr ⊢
      obtain ⟨m, n, e, h⟩ := hc r hr
      exact ⟨m, n, Or.inl ⟨e, h⟩⟩
    | false =>
      simp only [rRows, hst, h, Bool.false_eq_true, if_false] at hr ⊢
      exact hcs r hr
  have hZ : ∀ r ∈ S.zRows, ∃ m n, (r = .cosine m n ∧ RowKind.cosine m (N * n) ∈ (S.merged N).zRows) ∨
      (r = .sine m n ∧ RowKind.sine m (N * n) ∈ (S.merged N).zRows) := by
    intro r hr
    cases h : S.stellsym with
    | true =>
      simp only [zRows, hst, h, if_true] at hr ⊢
      obtain ⟨m, n, e, h⟩ := hs r hr
      exact ⟨m, n, Or.inr ⟨e, h⟩⟩
    | false =>
      simp only [zRows, hst, h, Bool.false_eq_true, if_false] at hr ⊢
      exact hcs r hr
  simp only [taggedRows, List.mem_append, List.mem_map] at h ⊢
  rcases h with ⟨q, hq, e⟩ | ⟨q, hq, e⟩ <;> cases e
  · obtain ⟨m, n, h | h⟩ := hR _ hq
    · exact ⟨m, n, Or.inl ⟨h.1, Or.inl ⟨_, h.2, rfl⟩⟩⟩
    · exact ⟨m, n, Or.inr ⟨h.1, Or.inl ⟨_, h.2, rfl⟩⟩⟩
  · obtain ⟨m, n, h | h⟩ := hZ _ hq
    · exact ⟨m, n, Or.inl ⟨h.1, Or.inr ⟨_, h.2, rfl⟩⟩⟩
    · exact ⟨m, n, Or.inr ⟨h.1, Or.inr ⟨_, h.2, rfl⟩⟩⟩

/-- Every surface can be described with fewer field periods. -/
theorem merged_dofs_exists {N : ℕ} (hN : N ≠ 0) (hd : N ∣ S.nfp) (dofs : List ℝ) :
    ∃ dofs' : List ℝ, dofs'.length = (S.merged N).numDofs ∧ ∀ phi theta, (S.merged N).gamma dofs' phi theta = S.gamma dofs phi theta := by
  have hang : ∀ p x m n, modeAngle (S.merged N).nfp p x m (N * n) = modeAngle S.nfp p x m n := by
    intro p x m n
    obtain ⟨M, hM⟩ := hd
    simp only [modeAngle, merged, hM, Nat.mul_div_cancel_left _ (Nat.pos_of_ne_zero hN)]
    push_cast
    ring
  obtain ⟨dofs', l, h⟩ := combined_rows (ι := Bool × ℝ × ℝ) (S.merged N).taggedRows (S.merged N).taggedEntry S.taggedRows S.taggedEntry
    (fun ⟨b, r⟩ hr => by
      obtain ⟨m, n, ⟨rfl, h⟩ | ⟨rfl, h⟩⟩ := S.mem_taggedRows_merged hN hr
      · obtain ⟨c1, l1, h1⟩ := select_row (S.merged N).taggedRows h
        refine ⟨c1, l1, fun i => ?_⟩
        rw [h1]
        simp only [taggedEntry, entry_cosine, hang]
      · obtain ⟨c1, l1, h1⟩ := select_row (S.merged N).taggedRows h
        refine ⟨c1, l1, fun i => ?_⟩
        rw [h1]
        simp only [taggedEntry, entry_sine, hang]) dofs
  refine ⟨dofs', by rw [l, taggedRows_length], fun p x => ?_⟩
  have h1 := h (false, p, x)
  have h2 := h (true, p, x)
  rw [← S.rDash_tagged, ← (S.merged N).rDash_tagged] at h1
  rw [← S.zDash_tagged, ← (S.merged N).zDash_tagged] at h2
  rw [gamma, gamma, gammadash, gammadash]
  ext
  · simp [xTerm, trigFactor, binomialCoef, h1]
  · simp [yTerm, trigFactor, binomialCoef, h1]
  · simp only [h2]

end SurfaceShape

end Verif
