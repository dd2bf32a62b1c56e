import Verif.Model.Modes
import Mathlib.Tactic.Ring
import Mathlib.Tactic.Linarith
import Mathlib.Data.List.Nodup

/-!
# Properties C36, C37: mode tables and coefficient layout
-/

namespace Verif

theorem arange_length (a b : ℤ) : (arange a b).length = (b - a).toNat := by simp [arange]

theorem mem_arange (a b k : ℤ) : k ∈ arange a b ↔ a ≤ k ∧ k < b := by
  simp only [arange, List.mem_map, List.mem_range]
  constructor
  · rintro ⟨i, hi, rfl⟩
    omega
  · rintro ⟨h1, h2⟩
    exact ⟨(k - a).toNat, by omega, by omega⟩

theorem arange_nodup (a b : ℤ) : (arange a b).Nodup := by
  unfold arange
  refine List.Nodup.map ?_ List.nodup_range
  intro i j h
  simpa using h

theorem arange_split (a b c : ℤ) (h1 : a ≤ b) (h2 : b ≤ c) : arange a c = arange a b ++ arange b c := by
  apply List.ext_getElem
  · simp only [List.length_append, arange_length]
    omega
  · intro i hi1 hi2
    simp only [List.getElem_append, arange, List.getElem_map, List.getElem_range, List.length_map, List.length_range]
    split <;> omega

/-- A table of modes: the pairs `(m_i, n_i)`. -/
def modePairs (t : List ℤ × List ℤ) : List (ℤ × ℤ) := List.zip t.1 t.2

theorem mesh_zip (n1d m1d : List ℤ) :
    List.zip (meshM n1d m1d) (meshN n1d m1d) = m1d.flatMap fun m => n1d.map fun n => (m, n) := by
  induction m1d with
  | nil => simp [meshM, meshN]
  | cons a l ih =>
    simp only [meshM, meshN, List.flatMap_cons] at ih ⊢
    rw [List.zip_append (by simp), ih]
    congr 1
    clear ih
    induction n1d with
    | nil => simp
    | cons b k ih2 => simpa using ih2

/-- The table in closed form: the toroidal modes of `m = 0` with `n > 0`, then all `n` for each `m >= 1`. -/
theorem makeMn_stellsym (mpol ntor : ℕ) :
    modePairs (makeMn mpol ntor true) = (arange 1 (ntor + 1)).map (fun n => ((0 : ℤ), n)) ++
      (arange 1 (mpol + 1)).flatMap fun m => (arange (-ntor) (ntor + 1)).map fun n => (m, n) := by
  simp only [makeMn, if_true, modePairs, List.drop_drop]
  rw [List.zip, ← List.drop_zipWith, ← List.zip, mesh_zip, arange_split 0 1 (mpol + 1) (by omega) (by omega)]
  have h0 : arange 0 1 = [0] := rfl
  rw [h0, List.flatMap_append, List.flatMap_cons, List.flatMap_nil, List.append_nil]
  rw [arange_split (-ntor) 1 (ntor + 1) (by omega) (by omega), List.map_append, List.append_assoc]
  have hl : ntor + 1 = ((arange (-ntor) 1).map fun n => ((0 : ℤ), n)).length := by
    rw [List.length_map, arange_length]
    omega
  rw [hl, List.drop_left]

theorem makeMn_lengths (mpol ntor : ℕ) (s : Bool) :
    (makeMn mpol ntor s).1.length = (cpNdofs s mpol ntor).1 ∧ (makeMn mpol ntor s).2.length = (cpNdofs s mpol ntor).1 := by
  have hM : ∀ n1d m1d : List ℤ, (meshM n1d m1d).length = m1d.length * n1d.length := by
    intro n1d m1d
    induction m1d with
    | nil => simp [meshM]
    | cons a l ih =>
      simp only [meshM, List.flatMap_cons, List.length_append, List.length_map, List.length_cons] at ih ⊢
      rw [ih]
      ring
  have hN : ∀ n1d m1d : List ℤ, (meshN n1d m1d).length = m1d.length * n1d.length := by
    intro n1d m1d
    induction m1d with
    | nil => simp [meshN]
    | cons a l ih =>
      simp only [meshN, List.flatMap_cons, List.length_append, List.length_cons] at ih ⊢
      rw [ih]
      ring
  have h1 : ((mpol : ℤ) + 1 - 0).toNat = mpol + 1 := by omega
  have h2 : ((ntor : ℤ) + 1 - -ntor).toNat = 2 * ntor + 1 := by omega
  have h3 : (mpol + 1) * (2 * ntor + 1) - ntor - 1 = 2 * mpol * ntor + mpol + ntor ∧
      (mpol + 1) * (2 * ntor + 1) - (ntor + 1) = 2 * mpol * ntor + mpol + ntor := by
    have : (mpol + 1) * (2 * ntor + 1) = 2 * mpol * ntor + mpol + ntor + ntor + 1 := by ring
    omega
  cases s
  · simp only [makeMn, cpNdofs, Bool.false_eq_true, if_false, List.length_append, List.length_drop, hM, hN, arange_length,
      h1, h2, h3.1, List.length_cons, List.length_nil]
    omega
  · simp only [makeMn, cpNdofs, if_true, List.length_drop, hM, hN, arange_length, h1, h2, h3.1, and_self]

/-- Membership in the symmetric table. -/
theorem mem_makeMn_stellsym (mpol ntor : ℕ) (m n : ℤ) :
    (m, n) ∈ modePairs (makeMn mpol ntor true) ↔
      (m = 0 ∧ 1 ≤ n ∧ n ≤ ntor) ∨ (1 ≤ m ∧ m ≤ mpol ∧ -(ntor : ℤ) ≤ n ∧ n ≤ ntor) := by
  rw [makeMn_stellsym]
  simp only [List.mem_append, List.mem_map, List.mem_flatMap, mem_arange, Prod.mk.injEq]
  constructor
  · rintro (⟨a, ha, rfl, rfl⟩ | ⟨a, ha, b, hb, rfl, rfl⟩)
    · left
      omega
    · right
      omega
  · rintro (⟨rfl, h1, h2⟩ | ⟨h1, h2, h3, h4⟩)
    · exact Or.inl ⟨n, by omega, rfl, rfl⟩
    · exact Or.inr ⟨m, by omega, n, by omega, rfl, rfl⟩

theorem nodup_table (l k : List ℤ) (hl : l.Nodup) (hk : k.Nodup) :
    (l.flatMap fun m => k.map fun n => (m, n)).Nodup := by
  induction l with
  | nil => simp
  | cons a l ih =>
    rw [List.nodup_cons] at hl
    rw [List.flatMap_cons]
    refine List.Nodup.append (hk.map fun x y h => by simpa using h) (ih hl.2) ?_
    intro x hx hx2
    simp only [List.mem_map, List.mem_flatMap] at hx hx2
    obtain ⟨b, _, rfl⟩ := hx
    obtain ⟨c, hc, d, _, h⟩ := hx2
    simp only [Prod.mk.injEq] at h
    exact hl.1 (h.1 ▸ hc)

/-- **C36.** The number of current potential coefficients is `2*mpol*ntor + mpol + ntor` (twice that plus one without
stellarator symmetry) and equals the length of both mode arrays. -/
theorem C36_ndofs_eq_table_length (mpol ntor : ℕ) :
    (makeMn mpol ntor true).1.length = 2 * mpol * ntor + mpol + ntor ∧
    (makeMn mpol ntor true).2.length = 2 * mpol * ntor + mpol + ntor ∧
    (cpNdofs true mpol ntor).1 = 2 * mpol * ntor + mpol + ntor ∧
    (makeMn mpol ntor false).1.length = 2 * (2 * mpol * ntor + mpol + ntor) + 1 ∧
    (makeMn mpol ntor false).2.length = 2 * (2 * mpol * ntor + mpol + ntor) + 1 ∧
    (cpNdofs false mpol ntor).1 = 2 * (2 * mpol * ntor + mpol + ntor) + 1 := by
  have h1 := makeMn_lengths mpol ntor true
  have h2 := makeMn_lengths mpol ntor false
  refine ⟨h1.1, h1.2, rfl, h2.1, h2.2, rfl⟩

/-- **C36.** The symmetric table has no repetitions, lists only modes within the resolution and never `(0, 0)`, and of
every pair `(m, n)`, `(-m, -n)` within the resolution (other than `(0,0)`) it lists exactly one. -/
theorem C36_each_mode_once (mpol ntor : ℕ) :
    (modePairs (makeMn mpol ntor true)).Nodup ∧
    (∀ m n, (m, n) ∈ modePairs (makeMn mpol ntor true) → 0 ≤ m ∧ m ≤ mpol ∧ |n| ≤ ntor) ∧
    ((0, 0) ∉ modePairs (makeMn mpol ntor true)) ∧
    (∀ m n : ℤ, |m| ≤ mpol → |n| ≤ ntor → (m, n) ≠ (0, 0) →
      ((m, n) ∈ modePairs (makeMn mpol ntor true) ↔ (-m, -n) ∉ modePairs (makeMn mpol ntor true))) := by
  refine ⟨?_, ?_, ?_, ?_⟩
  · rw [makeMn_stellsym]
    refine List.Nodup.append ((arange_nodup _ _).map fun x y h => by simpa using h)
      (nodup_table _ _ (arange_nodup _ _) (arange_nodup _ _)) ?_
    intro x hx hx2
    simp only [List.mem_map, List.mem_flatMap, mem_arange] at hx hx2
    obtain ⟨b, _, rfl⟩ := hx
    obtain ⟨c, hc, d, _, h⟩ := hx2
    simp only [Prod.mk.injEq] at h
    omega
  · intro m n h
    rw [mem_makeMn_stellsym] at h
    rw [abs_le]
    omega
  · rw [mem_makeMn_stellsym]
    omega
  · intro m n hm hn h0
    rw [abs_le] at hm hn
    rw [mem_makeMn_stellsym, mem_makeMn_stellsym]
    simp only [ne_eq, Prod.mk.injEq, not_and] at h0
    constructor
    · omega
    · intro h
      by_cases hm0 : m = 0
      · have := h0 hm0
        omega
      · omega

/-- **C36.** Without stellarator symmetry the table is the symmetric one (sine coefficients), the constant mode, and the
symmetric one again (cosine coefficients), so that entry `ndofs_half` is the constant. -/
theorem C36_nonsymmetric_layout (mpol ntor : ℕ) :
    modePairs (makeMn mpol ntor false) =
      modePairs (makeMn mpol ntor true) ++ (0, 0) :: modePairs (makeMn mpol ntor true) ∧
    (modePairs (makeMn mpol ntor true)).length = (cpNdofs false mpol ntor).2 := by
  have h1 := makeMn_lengths mpol ntor true
  constructor
  · have hlen : (makeMn mpol ntor true).1.length = (makeMn mpol ntor true).2.length := by rw [h1.1, h1.2]
    simp only [makeMn, Bool.false_eq_true, if_false, if_true, modePairs] at hlen ⊢
    rw [List.zip_append (by simpa using hlen), List.zip_append hlen]
    simp
  · rw [modePairs, List.length_zip, h1.1, h1.2]
    simp [cpNdofs]

/-- Resolution (1, 1): the four modes. -/
example : modePairs (makeMn 1 1 true) = [(0, 1), (1, -1), (1, 0), (1, 1)] := rfl

/-! ## C37 -/

theorem tile_zip (k : List ℤ) (l : List ℤ) :
    List.zip (repeatEach l k.length) (tile k l.length) = l.flatMap fun m => k.map fun n => (m, n) := by
  induction l with
  | nil => simp [repeatEach, tile]
  | cons a l ih =>
    simp only [repeatEach, tile, List.flatMap_cons, List.length_cons, List.replicate_succ, List.flatten_cons] at ih ⊢
    rw [List.zip_append (by simp), ih]
    congr 1
    clear ih
    induction k with
    | nil => simp
    | cons b k ih2 => simp [List.replicate_succ, ih2]

/-- The sine modes of a surface are the modes of the (symmetric) current potential table. -/
theorem surf_modes_eq (mpol ntor : ℕ) :
    modePairs (surfMs mpol ntor, surfNs mpol ntor) = modePairs (makeMn mpol ntor true) := by
  rw [makeMn_stellsym]
  simp only [modePairs, surfMs, surfNs]
  rw [List.zip_append (by rw [List.length_replicate, arange_length]; omega)]
  congr 1
  · have : ntor = (arange 1 (ntor + 1)).length := by rw [arange_length]; omega
    generalize arange 1 (ntor + 1) = l at this
    subst this
    induction l with
    | nil => simp
    | cons a l ih => simp [List.replicate_succ, ih]
  · have h1 : ntor * 2 + 1 = (arange (-ntor) (ntor + 1)).length := by rw [arange_length]; omega
    have h2 : mpol = (arange 1 (mpol + 1)).length := by rw [arange_length]; omega
    conv_lhs => rw [h1, show tile (arange (-ntor) (ntor + 1)) mpol =
      tile (arange (-ntor) (ntor + 1)) (arange 1 (mpol + 1)).length from by rw [← h2]]
    exact tile_zip _ _

theorem surfMs_length (mpol ntor : ℕ) : (surfMs mpol ntor).length = ntor + mpol * (2 * ntor + 1) := by
  have hl : ∀ (l : List ℤ) (k : ℕ), (repeatEach l k).length = l.length * k := by
    intro l k
    induction l with
    | nil => simp [repeatEach]
    | cons a l ih =>
      simp only [repeatEach, List.flatMap_cons, List.length_append, List.length_replicate, List.length_cons] at ih ⊢
      rw [ih]
      ring
  rw [surfMs, List.length_append, List.length_replicate, hl, arange_length]
  have : ((mpol : ℤ) + 1 - 1).toNat = mpol := by omega
  rw [this]
  ring

theorem surfNs_length (mpol ntor : ℕ) : (surfNs mpol ntor).length = ntor + mpol * (2 * ntor + 1) := by
  have hl : ∀ (l : List ℤ) (k : ℕ), (tile l k).length = k * l.length := by
    intro l k
    simp [tile]
  rw [surfNs, List.length_append, hl, arange_length, arange_length]
  have h1 : ((ntor : ℤ) + 1 - 1).toNat = ntor := by omega
  have h2 : ((ntor : ℤ) + 1 - -ntor).toNat = 2 * ntor + 1 := by omega
  rw [h1, h2]

/-- **C37.** Numbers of cosine and sine modes of a surface. -/
theorem C37_mode_counts (mpol ntor : ℕ) :
    (surfMc mpol ntor).length = 1 + ntor + mpol * (2 * ntor + 1) ∧
    (surfNc mpol ntor).length = 1 + ntor + mpol * (2 * ntor + 1) ∧
    (surfMs mpol ntor).length = ntor + mpol * (2 * ntor + 1) ∧
    (surfNs mpol ntor).length = ntor + mpol * (2 * ntor + 1) := by
  simp only [surfMc, surfNc, List.length_cons, surfMs_length, surfNs_length, and_true]
  constructor <;> ring

/-- **C37.** The cosine table has no repetition and lists, up to sign, exactly the modes within the resolution, `(0,0)`
first; the sine table is the same without `(0,0)`. -/
theorem C37_modes_complete (mpol ntor : ℕ) :
    (modePairs (surfMc mpol ntor, surfNc mpol ntor)).Nodup ∧
    modePairs (surfMc mpol ntor, surfNc mpol ntor) = (0, 0) :: modePairs (surfMs mpol ntor, surfNs mpol ntor) ∧
    (∀ m n : ℤ, (m, n) ∈ modePairs (surfMs mpol ntor, surfNs mpol ntor) ↔
      (m = 0 ∧ 0 < n ∧ n ≤ ntor) ∨ (0 < m ∧ m ≤ mpol ∧ |n| ≤ ntor)) := by
  have h0 : modePairs (surfMc mpol ntor, surfNc mpol ntor) =
      (0, 0) :: modePairs (surfMs mpol ntor, surfNs mpol ntor) := by
    simp [modePairs, surfMc, surfNc]
  have hc := C36_each_mode_once mpol ntor
  refine ⟨?_, h0, ?_⟩
  · rw [h0, surf_modes_eq, List.nodup_cons]
    exact ⟨hc.2.2.1, hc.1⟩
  · intro m n
    rw [surf_modes_eq, mem_makeMn_stellsym, abs_le]
    omega

/-- **C37.** The coefficient with index `2*ntor + 1`, which quadcoil.py uses as the minor radius, is the `m = 1, n = 0`
cosine coefficient of `R`. -/
theorem C37_minor_radius_index (mpol ntor : ℕ) (h : 1 ≤ mpol) :
    (modePairs (surfMc mpol ntor, surfNc mpol ntor))[2 * ntor + 1]? = some (1, 0) := by
  have h0 : modePairs (surfMc mpol ntor, surfNc mpol ntor) =
      (0, 0) :: modePairs (surfMs mpol ntor, surfNs mpol ntor) := by
    simp [modePairs, surfMc, surfNc]
  rw [h0, surf_modes_eq, makeMn_stellsym, List.getElem?_cons_succ]
  rw [List.getElem?_append_right (by rw [List.length_map, arange_length]; omega)]
  rw [arange_split 1 2 (mpol + 1) (by omega) (by omega)]
  have h1 : arange 1 2 = [1] := rfl
  rw [h1, List.flatMap_append, List.flatMap_cons, List.flatMap_nil, List.append_nil]
  have hlen : 2 * ntor - ((arange 1 (ntor + 1)).map fun n => ((0 : ℤ), n)).length = ntor := by
    rw [List.length_map, arange_length]
    omega
  rw [hlen, List.getElem?_append_left (by rw [List.length_map, arange_length]; omega)]
  rw [List.getElem?_map, List.getElem?_eq_getElem (by rw [arange_length]; omega)]
  simp [arange]

/-- With `ntor = 2` the entry at index 5 of the cosine table is `(1, 0)`. -/
example : modePairs (surfMc 1 2, surfNc 1 2) =
    [(0, 0), (0, 1), (0, 2), (1, -2), (1, -1), (1, 0), (1, 1), (1, 2)] := rfl

end Verif
