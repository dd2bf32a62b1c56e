import Verif.Lemmas.Origin
import Verif.Props.Modes
import Verif.Props.Current
import Verif.Props.Unique

/-!
# Shifted Fourier series have the same modes
-/

namespace Verif

open Real CpParams

theorem app_add_list (row c e : List ℝ) (h : c.length = e.length) : app row (List.zipWith (· + ·) c e) = app row c + app row e := by
  induction row generalizing c e with
  | nil => simp [app]
  | cons r row ih =>
    cases c with
    | nil =>
      cases e with
      | nil => simp [app]
      | cons y e => simp at h
    | cons x c =>
      cases e with
      | nil => simp at h
      | cons y e =>
        have := ih c e (by simpa using h)
        simp only [app, List.zipWith_cons_cons, List.sum_cons] at this ⊢
        rw [this]
        ring

theorem app_smul_list (row c : List ℝ) (a : ℝ) : app row (c.map fun x => a * x) = a * app row c := by
  induction row generalizing c with
  | nil => simp [app]
  | cons r row ih =>
    cases c with
    | nil => simp [app]
    | cons x c =>
      have := ih c
      simp only [app, List.map_cons, List.zipWith_cons_cons, List.sum_cons] at this ⊢
      rw [this]
      ring

theorem app_zero_list (row : List ℝ) (n : ℕ) : app row (List.replicate n 0) = 0 := by
  induction row generalizing n with
  | nil => simp [app]
  | cons r row ih =>
    cases n with
    | zero => simp [app]
    | succ n =>
      have := ih n
      simp only [app, List.replicate_succ, List.zipWith_cons_cons, List.sum_cons, mul_zero, zero_add] at this ⊢
      exact this

/-- Coefficients that select one row. -/
theorem select_row {β : Type} (R : List β) {r : β} (hr : r ∈ R) : ∃ c : List ℝ, c.length = R.length ∧ ∀ f : β → ℝ, app (R.map f) c = f r := by
  induction R with
  | nil => simp at hr
  | cons x R ih =>
    rcases List.mem_cons.1 hr with rfl | hr
    · refine ⟨1 :: List.replicate R.length 0, by simp, fun f => ?_⟩
      have := app_zero_list (R.map f) R.length
      simp only [app, List.map_cons, List.zipWith_cons_cons, List.sum_cons] at this ⊢
      rw [this]
      ring
    · obtain ⟨c, hc, h⟩ := ih hr
      refine ⟨0 :: c, by simp [hc], fun f => ?_⟩
      have := h f
      simp only [app, List.map_cons, List.zipWith_cons_cons, List.sum_cons] at this ⊢
      rw [this]
      ring

theorem combine_rows {β : Type} (R : List β) {r r' : β} (hr : r ∈ R) (hr' : r' ∈ R) (a b : ℝ) :
    ∃ c : List ℝ, c.length = R.length ∧ ∀ f : β → ℝ, app (R.map f) c = a * f r + b * f r' := by
  obtain ⟨c, hc, h⟩ := select_row R hr
  obtain ⟨e, he, k⟩ := select_row R hr'
  refine ⟨List.zipWith (· + ·) (c.map fun x => a * x) (e.map fun x => b * x), by simp [hc, he], fun f => ?_⟩
  rw [app_add_list _ _ _ (by simp [hc, he]), app_smul_list, app_smul_list, h, k]

/-- If every changed row is a combination of the rows, then so is every combination of changed rows. -/
theorem closed_rows {β ι : Type} (R : List β) (e e' : β → ι → ℝ)
    (h : ∀ r ∈ R, ∃ c : List ℝ, c.length = R.length ∧ ∀ i, e' r i = app (R.map fun q => e q i) c) (rs : List β) (hrs : ∀ r ∈ rs, r ∈ R)
    (c : List ℝ) : ∃ c' : List ℝ, c'.length = R.length ∧ ∀ i, app (rs.map fun q => e' q i) c = app (R.map fun q => e q i) c' := by
  induction rs generalizing c with
  | nil => exact ⟨List.replicate R.length 0, by simp, fun i => by rw [app_zero_list]; simp [app]⟩
  | cons r rs ih =>
    cases c with
    | nil => exact ⟨List.replicate R.length 0, by simp, fun i => by rw [app_zero_list]; simp [app]⟩
    | cons x c =>
      obtain ⟨c1, l1, h1⟩ := h r (hrs r List.mem_cons_self)
      obtain ⟨c2, l2, h2⟩ := ih (fun q hq => hrs q (List.mem_cons_of_mem _ hq)) c
      refine ⟨List.zipWith (· + ·) (c1.map fun y => x * y) c2, by simp [l1, l2], fun i => ?_⟩
      rw [app_add_list _ _ _ (by simp [l1, l2]), app_smul_list, ← h1, ← h2]
      simp only [app, List.map_cons, List.zipWith_cons_cons, List.sum_cons]
      ring

/-- Shifts for which the moved series has the same symmetry: all of them without stellarator symmetry, multiples of half a period
otherwise. -/
def OriginOk (stellsym : Bool) (nfp : ℕ) (s t : ℝ) : Prop :=
  stellsym = true → ∃ j k : ℤ, 2 * nfp * s = j ∧ 2 * t = k

theorem sin_shift_zero {nfp : ℕ} {s t : ℝ} {j k : ℤ} (hj : 2 * nfp * s = j) (hk : 2 * t = k) (m n : ℤ) :
    sin ((m : ℝ) * (π * 2 * t) - ((n : ℝ) * nfp) * (π * 2 * s)) = 0 := by
  have : (m : ℝ) * (π * 2 * t) - ((n : ℝ) * nfp) * (π * 2 * s) = ((m * k - n * j : ℤ) : ℝ) * π := by
    push_cast
    rw [← hj, ← hk]
    ring
  rw [this, sin_int_mul_pi]

/-! ## Potentials -/

theorem row_partner (P : CpParams) (hs : P.stellsym = false) {r : ℤ × ℤ × ℤ} (hr : r ∈ P.rows) (h0 : r ≠ (0, 0, -1)) :
    (r.1, r.2.1, -r.2.2) ∈ P.rows := by
  rw [rows_general P hs, List.mem_append, List.mem_cons] at hr ⊢
  rcases hr with h | h | h
  · obtain ⟨t, ht, rfl⟩ := List.mem_map.1 h
    exact Or.inr (Or.inr (List.mem_map.2 ⟨t, ht, rfl⟩))
  · exact absurd h h0
  · obtain ⟨t, ht, rfl⟩ := List.mem_map.1 h
    exact Or.inl (List.mem_map.2 ⟨t, ht, by simp⟩)

/-- Every potential can be moved. -/
theorem moved_potential_exists (P : CpParams) {s t : ℝ} (ho : OriginOk P.stellsym P.nfp s t) (c : List ℝ)
    (hc : c.length = P.rows.length) :
    ∃ c' : List ℝ, c'.length = c.length ∧ ∀ phi theta, P.Phi c' (phi + s) (theta + t) = P.Phi c phi theta := by
  have key := closed_rows (ι := ℝ × ℝ) P.rows (fun r i => sinOrCos (P.angle i.1 i.2 r) r.2.2)
    (fun r i => sinOrCos (P.angle (i.1 - s) (i.2 - t) r) r.2.2) ?_ P.rows (fun _ h => h) c
  · obtain ⟨c', l, h⟩ := key
    refine ⟨c', l.trans hc.symm, fun phi theta => ?_⟩
    have := h (phi + s, theta + t)
    simp only [add_sub_cancel_right] at this
    rw [Phi, Phi, trig, trig]
    exact this.symm
  · intro r hr
    have hang : ∀ i : ℝ × ℝ, P.angle (i.1 - s) (i.2 - t) r = P.angle i.1 i.2 r - P.angle s t r := fun i => by
      simp only [angle]
      ring
    have hcase : sin (P.angle s t r) = 0 ∨ (r.1, r.2.1, -r.2.2) ∈ P.rows := by
      cases hs : P.stellsym with
      | true =>
        obtain ⟨j, k, hj, hk⟩ := ho hs
        exact Or.inl (sin_shift_zero hj hk _ _)
      | false =>
        by_cases h0 : r = (0, 0, -1)
        · left
          rw [h0]
          simp [angle]
        · exact Or.inr (row_partner P hs hr h0)
    have h1 := (mem_rows P r hr).1
    rcases hcase with h0 | hp
    · obtain ⟨c1, l1, h⟩ := select_row P.rows hr
      refine ⟨c1.map fun x => cos (P.angle s t r) * x, by simp [l1], fun i => ?_⟩
      rw [app_smul_list, h, hang]
      rcases h1 with h1 | h1 <;> simp only [h1, sinOrCos, if_true, sin_sub, cos_sub, h0] <;> norm_num <;> ring
    · rcases h1 with h1 | h1
      · obtain ⟨c1, l1, h⟩ := combine_rows P.rows hr hp (cos (P.angle s t r)) (-sin (P.angle s t r))
        refine ⟨c1, l1, fun i => ?_⟩
        have ha : P.angle i.1 i.2 (r.1, r.2.1, -r.2.2) = P.angle i.1 i.2 r := rfl
        rw [h, hang, ha]
        simp only [h1, sinOrCos, if_true, sin_sub]
        norm_num
        ring
      · obtain ⟨c1, l1, h⟩ := combine_rows P.rows hr hp (cos (P.angle s t r)) (sin (P.angle s t r))
        refine ⟨c1, l1, fun i => ?_⟩
        have ha : P.angle i.1 i.2 (r.1, r.2.1, -r.2.2) = P.angle i.1 i.2 r := rfl
        rw [h, hang, ha]
        simp only [h1, sinOrCos, cos_sub]
        norm_num
        ring

/-! ## Surfaces -/

namespace SurfaceShape

variable (S : SurfaceShape)

/-- The rows of the surface, those of `R` and those of `Z`. -/
def taggedRows : List (Bool × RowKind) := (S.rRows.map fun r => (false, r)) ++ S.zRows.map fun r => (true, r)

/-- The contribution of a row to `R` or `Z`. -/
noncomputable def taggedEntry (r : Bool × RowKind) (i : Bool × ℝ × ℝ) : ℝ := if r.1 = i.1 then r.2.entry S.nfp 0 0 i.2.1 i.2.2 else 0

theorem rDash_tagged (dofs : List ℝ) (phi theta : ℝ) :
    S.rDash dofs 0 0 phi theta = app (S.taggedRows.map fun r => S.taggedEntry r (false, phi, theta)) dofs := by
  rw [rDash, applyRow, rOperatorPadded_eq, app, taggedRows, rRowsP]
  simp [taggedEntry, RowKind.entry, Function.comp_def]
  rfl

theorem zDash_tagged (dofs : List ℝ) (phi theta : ℝ) :
    S.zDash dofs 0 0 phi theta = app (S.taggedRows.map fun r => S.taggedEntry r (true, phi, theta)) dofs := by
  rw [zDash, applyRow, zOperatorPadded_eq, app, taggedRows, zRowsP]
  simp [taggedEntry, RowKind.entry, Function.comp_def]
  rfl

/-- The number of coefficients of the surface. -/
def numDofs : ℕ := if S.stellsym then 1 + 2 * (S.ntor + S.mpol * (2 * S.ntor + 1)) else 2 * (1 + 2 * (S.ntor + S.mpol * (2 * S.ntor + 1)))

theorem taggedRows_length : S.taggedRows.length = S.numDofs := by
  have := (C37_dof_count S 0 0 0 0).2
  rw [S.rOperatorPadded_eq, List.length_map, rRowsP, List.length_append, List.length_map] at this
  rw [taggedRows, List.length_append, List.length_map, List.length_map, this, numDofs]

theorem cRows_eq : S.cRows = .cosine 0 0 :: List.zipWith RowKind.cosine (surfMs S.mpol S.ntor) (surfNs S.mpol S.ntor) := rfl

theorem mem_zipWith_swap {f g : ℤ → ℤ → RowKind} {l l' : List ℤ} {m n : ℤ} (hf : ∀ a b, f a b = f m n → a = m ∧ b = n)
    (h : f m n ∈ List.zipWith f l l') : g m n ∈ List.zipWith g l l' := by
  obtain ⟨i, hi, e⟩ := List.mem_iff_getElem.1 h
  rw [List.getElem_zipWith] at e
  obtain ⟨e1, e2⟩ := hf _ _ e
  refine List.mem_iff_getElem.2 ⟨i, by simpa using hi, ?_⟩
  rw [List.getElem_zipWith, e1, e2]

theorem mem_rows_kind {b : Bool} {r : RowKind} (h : (b, r) ∈ S.taggedRows) : ∃ m n, r = .cosine m n ∨ r = .sine m n := by
  have hc : ∀ r ∈ S.cRows, ∃ m n, r = RowKind.cosine m n ∨ r = .sine m n := by
    intro r hr
    obtain ⟨i, hi, rfl⟩ := List.mem_iff_getElem.1 hr
    simp only [cRows, List.getElem_zipWith]
    exact ⟨_, _, Or.inl rfl⟩
  have hs : ∀ r ∈ S.sRows, ∃ m n, r = RowKind.cosine m n ∨ r = .sine m n := by
    intro r hr
    obtain ⟨i, hi, rfl⟩ := List.mem_iff_getElem.1 hr
    simp only [sRows, List.getElem_zipWith]
    exact ⟨_, _, Or.inr rfl⟩
  rw [taggedRows, List.mem_append, List.mem_map, List.mem_map] at h
  have : r ∈ S.rRows ∨ r ∈ S.zRows := by
    rcases h with ⟨q, hq, e⟩ | ⟨q, hq, e⟩
    · exact Or.inl (by cases e; exact hq)
    · exact Or.inr (by cases e; exact hq)
  rcases this with h | h
  · rw [rRows] at h
    split_ifs at h
    · exact hc r h
    · rcases List.mem_append.1 h with h | h
      · exact hc r h
      · exact hs r h
  · rw [zRows] at h
    split_ifs at h
    · exact hs r h
    · rcases List.mem_append.1 h with h | h
      · exact hc r h
      · exact hs r h

theorem cosine_partner (hs : S.stellsym = false) {b : Bool} {m n : ℤ} (h : (b, RowKind.cosine m n) ∈ S.taggedRows) :
    (m = 0 ∧ n = 0) ∨ (b, RowKind.sine m n) ∈ S.taggedRows := by
  have hrow : ∀ l, l = S.cRows ++ S.sRows → RowKind.cosine m n ∈ l → (m = 0 ∧ n = 0) ∨ RowKind.sine m n ∈ l := by
    rintro l rfl hl
    rcases List.mem_append.1 hl with hl | hl
    · rw [cRows_eq, List.mem_cons] at hl
      rcases hl with hl | hl
      · left
        simpa using hl
      · right
        refine List.mem_append_right _ (mem_zipWith_swap (fun a b e => ?_) hl)
        simpa using e
    · obtain ⟨i, hi, e⟩ := List.mem_iff_getElem.1 hl
      simp [sRows] at e
  have hr : S.rRows = S.cRows ++ S.sRows := by simp [rRows, hs]
  have hz : S.zRows = S.cRows ++ S.sRows := by simp [zRows, hs]
  rw [taggedRows, List.mem_append, List.mem_map, List.mem_map] at h ⊢
  rcases h with ⟨q, hq, e⟩ | ⟨q, hq, e⟩ <;> cases e
  · rcases hrow _ hr hq with h | h
    · exact Or.inl h
    · exact Or.inr (Or.inl ⟨_, h, rfl⟩)
  · rcases hrow _ hz hq with h | h
    · exact Or.inl h
    · exact Or.inr (Or.inr ⟨_, h, rfl⟩)

theorem sine_partner (hs : S.stellsym = false) {b : Bool} {m n : ℤ} (h : (b, RowKind.sine m n) ∈ S.taggedRows) :
    (b, RowKind.cosine m n) ∈ S.taggedRows := by
  have hrow : ∀ l, l = S.cRows ++ S.sRows → RowKind.sine m n ∈ l → RowKind.cosine m n ∈ l := by
    rintro l rfl hl
    rcases List.mem_append.1 hl with hl | hl
    · obtain ⟨i, hi, e⟩ := List.mem_iff_getElem.1 hl
      simp [cRows] at e
    · refine List.mem_append_left _ ?_
      rw [cRows_eq]
      refine List.mem_cons_of_mem _ (mem_zipWith_swap (fun a b e => ?_) hl)
      simpa using e
  have hr : S.rRows = S.cRows ++ S.sRows := by simp [rRows, hs]
  have hz : S.zRows = S.cRows ++ S.sRows := by simp [zRows, hs]
  rw [taggedRows, List.mem_append, List.mem_map, List.mem_map] at h ⊢
  rcases h with ⟨q, hq, e⟩ | ⟨q, hq, e⟩ <;> cases e
  · exact Or.inl ⟨_, hrow _ hr hq, rfl⟩
  · exact Or.inr ⟨_, hrow _ hz hq, rfl⟩

theorem entry_cosine (nfp : ℕ) (p x : ℝ) (m n : ℤ) : RowKind.entry nfp 0 0 p x (.cosine m n) = cos (modeAngle nfp p x m n) := by
  simp [RowKind.entry, cEntry, derivFactor]

theorem entry_sine (nfp : ℕ) (p x : ℝ) (m n : ℤ) : RowKind.entry nfp 0 0 p x (.sine m n) = sin (modeAngle nfp p x m n) := by
  simp [RowKind.entry, sEntry, derivFactor]

theorem modeAngle_shift (nfp : ℕ) (p x s t : ℝ) (m n : ℤ) :
    modeAngle nfp (p - s) (x - t) m n = modeAngle nfp p x m n - modeAngle nfp s t m n := by
  simp only [modeAngle]
  ring

/-- Every surface can be moved. -/
theorem moved_dofs_exists {s t : ℝ} (ho : OriginOk S.stellsym S.nfp s t) (dofs : List ℝ) (hd : dofs.length = S.numDofs) :
    ∃ dofs' : List ℝ, dofs'.length = dofs.length ∧
      ∀ phi theta, S.gamma dofs' (phi + s) (theta + t) = rotZ (2 * π * s) (S.gamma dofs phi theta) := by
  have key := closed_rows (ι := Bool × ℝ × ℝ) S.taggedRows S.taggedEntry
    (fun r i => S.taggedEntry r (i.1, i.2.1 - s, i.2.2 - t)) ?_ S.taggedRows (fun _ h => h) dofs
  · obtain ⟨c', l, h⟩ := key
    refine ⟨c', by rw [l, taggedRows_length, hd], fun phi theta => ?_⟩
    have h1 := h (false, phi + s, theta + t)
    have h2 := h (true, phi + s, theta + t)
    simp only [add_sub_cancel_right] at h1 h2
    rw [← S.rDash_tagged, ← S.rDash_tagged] at h1
    rw [← S.zDash_tagged, ← S.zDash_tagged] at h2
    have ha : (phi + s) * π * 2 = phi * π * 2 + 2 * π * s := by ring
    rw [gamma, gamma, gammadash, gammadash]
    ext
    · simp [xTerm, trigFactor, binomialCoef, rotZ, yTerm, ← mul_assoc, ha, cos_add, ← h1]
      ring
    · simp [xTerm, trigFactor, binomialCoef, rotZ, yTerm, ← mul_assoc, ha, sin_add, ← h1]
      ring
    · simp only [rotZ, ← h2]
  · rintro ⟨b, r⟩ hr
    have hzero : ∀ m n : ℤ, S.stellsym = true → sin (modeAngle S.nfp s t m n) = 0 := by
      intro m n hs
      obtain ⟨j, k, hj, hk⟩ := ho hs
      have := sin_shift_zero hj hk m n
      rw [← this]
      congr 1
      simp only [modeAngle]
      ring
    obtain ⟨m, n, rfl | rfl⟩ := S.mem_rows_kind hr
    · have hcase : sin (modeAngle S.nfp s t m n) = 0 ∨ (b, RowKind.sine m n) ∈ S.taggedRows := by
        cases hs : S.stellsym with
        | true => exact Or.inl (hzero m n hs)
        | false =>
          rcases S.cosine_partner hs hr with ⟨rfl, rfl⟩ | h
          · left
            simp [modeAngle]
          · exact Or.inr h
      rcases hcase with h0 | hp
      · obtain ⟨c1, l1, h⟩ := select_row S.taggedRows hr
        refine ⟨c1.map fun x => cos (modeAngle S.nfp s t m n) * x, by simp [l1], fun i => ?_⟩
        rw [app_smul_list, h]
        simp only [taggedEntry, entry_cosine, modeAngle_shift, cos_sub, h0]
        split_ifs <;> ring
      · obtain ⟨c1, l1, h⟩ := combine_rows S.taggedRows hr hp (cos (modeAngle S.nfp s t m n)) (sin (modeAngle S.nfp s t m n))
        refine ⟨c1, l1, fun i => ?_⟩
        rw [h]
        simp only [taggedEntry, entry_cosine, entry_sine, modeAngle_shift, cos_sub]
        split_ifs <;> ring
    · have hcase : sin (modeAngle S.nfp s t m n) = 0 ∨ (b, RowKind.cosine m n) ∈ S.taggedRows := by
        cases hs : S.stellsym with
        | true => exact Or.inl (hzero m n hs)
        | false => exact Or.inr (S.sine_partner hs hr)
      rcases hcase with h0 | hp
      · obtain ⟨c1, l1, h⟩ := select_row S.taggedRows hr
        refine ⟨c1.map fun x => cos (modeAngle S.nfp s t m n) * x, by simp [l1], fun i => ?_⟩
        rw [app_smul_list, h]
        simp only [taggedEntry, entry_sine, modeAngle_shift, sin_sub, h0]
        split_ifs <;> ring
      · obtain ⟨c1, l1, h⟩ := combine_rows S.taggedRows hr hp (cos (modeAngle S.nfp s t m n)) (-sin (modeAngle S.nfp s t m n))
        refine ⟨c1, l1, fun i => ?_⟩
        rw [h]
        simp only [taggedEntry, entry_cosine, entry_sine, modeAngle_shift, sin_sub]
        split_ifs <;> ring

end SurfaceShape

end Verif
