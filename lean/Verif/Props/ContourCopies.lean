import Verif.Props.Coils
import Verif.Model.CoilsFile
import Mathlib.Data.List.GetD
import Mathlib.Tactic.IntervalCases
import Mathlib.Tactic.Linarith

/-!
# C120, C121, C122: contours found by the cutter, the coils file, the order of the curves
-/

namespace Verif

open Real

/-! ## C120: how often a contour is found -/

/-- The contour of level `l` crosses a grid edge with values `a` and `b` at its ends. -/
def Crosses (l a b : ℝ) : Prop := (a < l ∧ l ≤ b) ∨ (b < l ∧ l ≤ a)

/-- The value at column `i`, row `j` of an array. -/
def valueAt (D : List (List ℝ)) (i j : ℕ) : ℝ := (D.getD i []).getD j 0

theorem getD_three {α : Type} (d : α) (a b c : List α) (n i k : ℕ) (ha : a.length = n) (hb : b.length = n) (hc : c.length = n)
    (hi : i < n) (hk : k < 3) :
    (a ++ b ++ c).getD (i + k * n) d = if k = 0 then a.getD i d else if k = 1 then b.getD i d else c.getD i d := by
  simp only [List.getD_eq_getElem?_getD]
  interval_cases k
  · rw [if_pos rfl, Nat.zero_mul, Nat.add_zero, List.append_assoc, List.getElem?_append_left (by omega)]
  · rw [if_neg (by omega), if_pos rfl, Nat.one_mul, List.append_assoc, List.getElem?_append_right (by omega),
      List.getElem?_append_left (by omega), show i + n - a.length = i by omega]
  · rw [if_neg (by omega), if_neg (by omega), List.getElem?_append_right (by simp; omega)]
    congr 2
    simp only [List.length_append]
    omega

theorem valueAt_map (f : ℝ → ℝ) (D : List (List ℝ)) (i j : ℕ) (hi : i < D.length) (hj : j < (D.getD i []).length) :
    valueAt (D.map fun col => col.map f) i j = f (valueAt D i j) := by
  unfold valueAt
  rw [List.getD_eq_getElem _ _ hi] at hj ⊢
  have hi2 : i < (D.map fun col => col.map f).length := by simpa using hi
  rw [List.getD_eq_getElem _ _ hi2, List.getElem_map, List.getD_eq_getElem _ _ (by simpa using hj),
    List.getElem_map, List.getD_eq_getElem _ _ hj]

/-- The values of the three copies: with net current they differ by one, the current of a field period in the normalised
potential; otherwise they are equal. -/
theorem C120_copies (G maxPhi : ℝ) (nfp : ℕ) (D : List (List ℝ)) (i j k : ℕ) (hi : i < D.length)
    (hj : j < (D.getD i []).length) (hk : k < 3) :
    valueAt (data3 G maxPhi nfp D) (i + k * D.length) j =
      if floatEps < |G| then valueAt D i j / G * nfp + ((k : ℝ) - 1) else valueAt D i j / maxPhi := by
  have hlen : ∀ f : ℝ → ℝ, (D.map fun col => col.map f).length = D.length := fun f => by simp
  have hcol : ∀ f : ℝ → ℝ, j < ((D.map fun col => col.map f).getD i []).length := fun f => by
    rw [List.getD_eq_getElem _ _ hi] at hj
    rw [List.getD_eq_getElem _ _ (by simpa using hi), List.getElem_map, List.length_map]
    exact hj
  unfold data3
  split_ifs with h
  · have e : ∀ g : ℝ → ℝ, valueAt ((D.map fun col => col.map fun v => v / G * nfp).map fun col => col.map g) i j
        = g (valueAt D i j / G * nfp) := fun g => by
      rw [valueAt_map g _ i j (by rw [hlen]; exact hi) (hcol _), valueAt_map _ D i j hi hj]
    have e1 := e fun v => v - 1
    have e2 := e fun v => v + 1
    have e0 := valueAt_map (fun v => v / G * nfp) D i j hi hj
    unfold valueAt at e0 e1 e2 ⊢
    simp only
    rw [getD_three [] _ _ _ D.length i k (by simp) (by simp) (by simp) hi hk]
    interval_cases k
    · rw [if_pos rfl, e1]; push_cast; ring
    · rw [if_neg (by omega), if_pos rfl, e0]; push_cast; ring
    · rw [if_neg (by omega), if_neg (by omega), e2]; push_cast; ring
  · have e0 := valueAt_map (fun v => v / maxPhi) D i j hi hj
    unfold valueAt at e0 ⊢
    simp only
    rw [getD_three [] _ _ _ D.length i k (by simp) (by simp) (by simp) hi hk]
    split_ifs <;> exact e0

/-- **C120 with net current.** Seen on the torus, the potential is defined up to multiples of the current of a field period (1 after
normalisation). A contour of level `l - s`, for some whole number `s`, that crosses an edge of the field period is found exactly
once, in copy `s + 1`, provided that the values there are within 2 of the level. -/
theorem C120_found_once_partial (G maxPhi : ℝ) (hG : floatEps < |G|) (nfp : ℕ) (D : List (List ℝ)) (i j i' j' : ℕ)
    (hi : i < D.length) (hj : j < (D.getD i []).length) (hi' : i' < D.length) (hj' : j' < (D.getD i' []).length) (l : ℝ)
    (hv : l - 2 ≤ valueAt D i j / G * nfp ∧ valueAt D i j / G * nfp < l + 2)
    (hv' : l - 2 ≤ valueAt D i' j' / G * nfp ∧ valueAt D i' j' / G * nfp < l + 2) (s : ℤ) :
    Crosses (l - s) (valueAt D i j / G * nfp) (valueAt D i' j' / G * nfp) ↔
      ∃ k : ℕ, k < 3 ∧ (k : ℤ) = s + 1 ∧ Crosses l (valueAt (data3 G maxPhi nfp D) (i + k * D.length) j)
        (valueAt (data3 G maxPhi nfp D) (i' + k * D.length) j') := by
  constructor
  · intro h
    have hs1 : -2 < (s : ℝ) := by rcases h with h | h <;> linarith
    have hs2 : (s : ℝ) < 2 := by rcases h with h | h <;> linarith
    have hs1' : -2 < s := by exact_mod_cast hs1
    have hs2' : s < 2 := by exact_mod_cast hs2
    refine ⟨(s + 1).toNat, by omega, by omega, ?_⟩
    have hk : (((s + 1).toNat : ℕ) : ℝ) - 1 = s := by
      have : (((s + 1).toNat : ℕ) : ℤ) = s + 1 := by omega
      have : (((s + 1).toNat : ℕ) : ℝ) = s + 1 := by exact_mod_cast this
      linarith
    rw [C120_copies G maxPhi nfp D i j _ hi hj (by omega), C120_copies G maxPhi nfp D i' j' _ hi' hj' (by omega), if_pos hG,
      if_pos hG, hk]
    rcases h with h | h
    · exact Or.inl ⟨by linarith, by linarith⟩
    · exact Or.inr ⟨by linarith, by linarith⟩
  · rintro ⟨k, hk3, hks, h⟩
    have hk : (k : ℝ) - 1 = s := by
      have : (k : ℝ) = s + 1 := by exact_mod_cast hks
      linarith
    rw [C120_copies G maxPhi nfp D i j _ hi hj hk3, C120_copies G maxPhi nfp D i' j' _ hi' hj' hk3, if_pos hG, if_pos hG,
      hk] at h
    rcases h with h | h
    · exact Or.inl ⟨by linarith, by linarith⟩
    · exact Or.inr ⟨by linarith, by linarith⟩

/-- **C120 is false without net current**: whatever is found in one copy of the field period is found in all three, so every
contour is cut three times (at toroidal angles that differ by a field period). -/
theorem C120_found_three_times_violated_partial (G maxPhi : ℝ) (hG : |G| ≤ floatEps) (nfp : ℕ) (D : List (List ℝ))
    (i j i' j' : ℕ) (hi : i < D.length) (hj : j < (D.getD i []).length) (hi' : i' < D.length)
    (hj' : j' < (D.getD i' []).length) (l : ℝ) (k k' : ℕ) (hk : k < 3) (hk' : k' < 3) :
    Crosses l (valueAt (data3 G maxPhi nfp D) (i + k * D.length) j) (valueAt (data3 G maxPhi nfp D) (i' + k * D.length) j') ↔
    Crosses l (valueAt (data3 G maxPhi nfp D) (i + k' * D.length) j)
      (valueAt (data3 G maxPhi nfp D) (i' + k' * D.length) j') := by
  rw [C120_copies G maxPhi nfp D i j k hi hj hk, C120_copies G maxPhi nfp D i' j' k hi' hj' hk,
    C120_copies G maxPhi nfp D i j k' hi hj hk', C120_copies G maxPhi nfp D i' j' k' hi' hj' hk']
  simp only [if_neg (not_lt.2 hG)]

/-- **C120 is false for strongly modulated potentials**: a contour of the level, shifted by three periods, crosses the edge and no
copy contains it. -/
theorem C120_missed_violated_partial :
    Crosses ((1 / 4 : ℝ) - 3) (valueAt [[-3, -2]] 0 0 / 1 * (1 : ℕ)) (valueAt [[-3, -2]] 0 1 / 1 * (1 : ℕ)) ∧
      ∀ k : ℕ, k < 3 → ¬ Crosses (1 / 4) (valueAt (data3 1 1 1 [[-3, -2]]) (0 + k * 1) 0)
        (valueAt (data3 1 1 1 [[-3, -2]]) (0 + k * 1) 1) := by
  have hG : floatEps < |(1 : ℝ)| := by
    rw [abs_one, floatEps]
    norm_num
  constructor
  · left
    simp only [valueAt, List.getD_cons_zero, List.getD_cons_succ]
    norm_num
  · intro k hk h
    have e0 := C120_copies 1 1 1 [[-3, -2]] 0 0 k (by simp) (by simp) hk
    have e1 := C120_copies 1 1 1 [[-3, -2]] 0 1 k (by simp) (by simp) hk
    simp only [List.length_cons, List.length_nil, if_pos hG, zero_add] at e0 e1
    rw [zero_add, e0, e1] at h
    have hk' : (k : ℝ) ≤ 2 := by exact_mod_cast (by omega : k ≤ 2)
    simp only [valueAt, List.getD_cons_zero, List.getD_cons_succ] at h
    rcases h with h | h
    · norm_num at h; linarith [h.2]
    · norm_num at h; linarith [h.1]

/-- A potential without net current: the contour of level 1/2 crosses the first edge in all three copies. -/
example (k : ℕ) (hk : k < 3) : Crosses (1 / 2) (valueAt (data3 0 2 1 [[0, 2], [1, 0]]) (0 + k * 2) 0)
    (valueAt (data3 0 2 1 [[0, 2], [1, 0]]) (0 + k * 2) 1) := by
  have h0 : |(0 : ℝ)| ≤ floatEps := by rw [abs_zero, floatEps]; positivity
  have := C120_found_three_times_violated_partial 0 2 h0 1 [[0, 2], [1, 0]] 0 0 0 1 (by simp) (by simp) (by simp) (by simp)
    (1 / 2) 0 k (by norm_num) hk
  refine this.1 ?_
  left
  have hG : ¬ floatEps < |(0 : ℝ)| := not_lt.2 h0
  rw [data3, if_neg hG]
  simp [valueAt]
  norm_num

/-- With net current 1: the contour of level 1/4 crosses the edge from 0 to 1/2 once, in the middle copy. -/
example (s : ℤ) : Crosses (1 / 4 - s) (0 / 1 * (1 : ℕ)) (1 / 2 / 1 * (1 : ℕ)) ↔ s = 0 := by
  unfold Crosses
  push_cast
  constructor
  · rintro (h | h)
    · have h1 : (s : ℝ) < 1 := by linarith [h.1]
      have h2 : (-1 : ℝ) < s := by linarith [h.2]
      have h1' : s < 1 := by exact_mod_cast h1
      have h2' : -1 < s := by exact_mod_cast h2
      omega
    · linarith [h.1, h.2]
  · rintro rfl
    left
    norm_num

example : floatEps < |(1 : ℝ)| ∧ (1 / 4 : ℝ) - 2 ≤ valueAt [[0, 1 / 2]] 0 0 / 1 * (1 : ℕ) ∧
    valueAt [[0, 1 / 2]] 0 1 / 1 * (1 : ℕ) < (1 / 4 : ℝ) + 2 := by
  refine ⟨?_, ?_, ?_⟩
  · rw [abs_one, floatEps]; norm_num
  · simp only [valueAt, List.getD_cons_zero]; norm_num
  · simp only [valueAt, List.getD_cons_zero, List.getD_cons_succ]; norm_num

/-! ## C121: the coils file -/

/-- Reading the filaments of a coils file: the points since the last filament are collected; a line with a group closes the filament,
whose current is the current of its points. The last line is `end`. -/
noncomputable def readFilaments : List V3 → Option ℝ → List CoilsLine → Option (List (List V3 × ℝ))
  | pts, none, .end :: rest => if pts = [] ∧ rest = [] then some [] else none
  | pts, none, .point p c :: rest => readFilaments (pts ++ [p]) (some c) rest
  | pts, some c, .point p c' :: rest => if c = c' then readFilaments (pts ++ [p]) (some c) rest else none
  | pts, some c, .last p c' _ _ :: rest =>
    if c' = 0 then (readFilaments [] none rest).map fun l => (pts ++ [p], c) :: l else none
  | _, _, _ => none

/-- Reading a coils file: number of field periods and filaments. -/
noncomputable def readCoilsFile : List CoilsLine → Option (ℕ × List (List V3 × ℝ))
  | .periods n :: .beginFilament :: .mirrorNil :: rest => (readFilaments [] none rest).map fun l => (n, l)
  | _ => none

theorem read_points (c : ℝ) (curve : List V3) : ∀ (pts : List V3) (rest : List CoilsLine),
    readFilaments pts (some c) ((curve.map fun q => CoilsLine.point q c) ++ rest) = readFilaments (pts ++ curve) (some c) rest := by
  induction curve with
  | nil => intro pts rest; simp
  | cons p l ih =>
    intro pts rest
    rw [List.map_cons, List.cons_append, readFilaments, if_pos rfl, ih, List.append_assoc, List.singleton_append]

theorem read_filament (c : ℝ) (p : V3) (l : List V3) (name : String) (rest : List CoilsLine) :
    readFilaments [] none (((p :: l).map fun q => CoilsLine.point q c) ++ [.last p 0 1 name] ++ rest)
      = (readFilaments [] none rest).map fun r => (p :: l ++ [p], c) :: r := by
  rw [List.map_cons, List.cons_append, List.cons_append, readFilaments, List.append_assoc, read_points, List.singleton_append,
    readFilaments, if_pos rfl]
  rfl

/-- **C121.** The file can be written exactly if no contour is empty, and reading it returns the number of field periods and, for
every contour, the closed polygon through its points (the first point is repeated at the end) with the coil current. -/
theorem C121_round_trip (nfp : ℕ) (current : ℝ) (curves : List (List V3)) :
    ((∃ f, coilsFile nfp current curves = .ok f) ↔ ∀ c ∈ curves, c ≠ []) ∧
      ∀ f, coilsFile nfp current curves = .ok f →
        readCoilsFile f = some (nfp, curves.map fun c => (c ++ c.take 1, current)) := by
  have key : ∀ cs : List (List V3), ((∃ b, cs.mapM (filamentLines current) = .ok b) ↔ ∀ c ∈ cs, c ≠ []) ∧
      ∀ b, cs.mapM (filamentLines current) = .ok b →
        readFilaments [] none (b.flatten ++ [.end]) = some (cs.map fun c => (c ++ c.take 1, current)) := by
    intro cs
    induction cs with
    | nil =>
      refine ⟨⟨fun _ => by simp, fun _ => ⟨[], rfl⟩⟩, fun b hb => ?_⟩
      cases hb
      simp [readFilaments]
    | cons c cs ih =>
      cases c with
      | nil =>
        have : ([] :: cs).mapM (filamentLines current) = .error .indexError := by
          rw [List.mapM_cons]; rfl
        rw [this]
        exact ⟨⟨fun hb => (by obtain ⟨b, hb⟩ := hb; cases hb), fun h => absurd rfl (h [] (by simp))⟩, fun b hb => (by cases hb)⟩
      | cons p l =>
        have hf : filamentLines current (p :: l)
            = .ok (((p :: l).map fun q => .point q current) ++ [.last p 0 1 "Modular"]) := rfl
        rw [List.mapM_cons, hf]
        constructor
        · rw [show (∀ c ∈ (p :: l) :: cs, c ≠ []) ↔ ∀ c ∈ cs, c ≠ [] by simp, ← ih.1]
          constructor
          · rintro ⟨b, hb⟩
            cases hc : cs.mapM (filamentLines current) with
            | error e => rw [hc] at hb; cases hb
            | ok r => exact ⟨r, rfl⟩
          · rintro ⟨b, hb⟩
            rw [hb]
            exact ⟨_, rfl⟩
        · intro b hb
          cases hc : cs.mapM (filamentLines current) with
          | error e => rw [hc] at hb; cases hb
          | ok r =>
            rw [hc] at hb
            cases hb
            rw [List.flatten_cons, List.append_assoc, read_filament, ih.2 r hc]
            simp
  constructor
  · rw [← (key curves).1]
    constructor
    · rintro ⟨f, hf⟩
      cases hc : curves.mapM (filamentLines current) with
      | error e => rw [coilsFile, hc] at hf; cases hf
      | ok r => exact ⟨r, rfl⟩
    · rintro ⟨b, hb⟩
      exact ⟨_, by rw [coilsFile, hb]; rfl⟩
  · intro f hf
    cases hc : curves.mapM (filamentLines current) with
    | error e => rw [coilsFile, hc] at hf; cases hf
    | ok r =>
      rw [coilsFile, hc] at hf
      cases hf
      have := (key curves).2 r hc
      simp only [List.cons_append, List.nil_append, readCoilsFile]
      rw [this]
      rfl

/-- A triangle. -/
example (current : ℝ) : ∃ f, coilsFile 3 current [[⟨1, 0, 0⟩, ⟨0, 1, 0⟩, ⟨0, 0, 1⟩]] = .ok f :=
  (C121_round_trip 3 current _).1.2 (by simp)

/-! ## C122: the current in the coils file -/

/-- **C122 is false**: the file contains the contours of a half period (or of one period) only. The currents in it, written with the
current of `coilCurrent`, sum to the net poloidal current divided by the number of periods (and by 2). -/
theorem C122_current_in_file_violated_partial (G : ℝ) (nfp : ℕ) (stellsym : Bool) (curves : List (List V3)) (hc : curves ≠ [])
    (f : List CoilsLine) (hf : coilsFile nfp (coilCurrent G curves.length nfp stellsym) curves = .ok f) :
    ∃ l, readCoilsFile f = some (nfp, l) ∧ (l.map Prod.snd).sum = G / nfp / if stellsym then 2 else 1 := by
  refine ⟨_, (C121_round_trip nfp _ curves).2 f hf, ?_⟩
  have h0 : (curves.length : ℝ) ≠ 0 := by
    have : curves.length ≠ 0 := by simpa using hc
    exact_mod_cast this
  rw [List.map_map, show ((Prod.snd ∘ fun c : List V3 => (c ++ c.take 1, coilCurrent G curves.length nfp stellsym)) :
    List V3 → ℝ) = fun _ => coilCurrent G curves.length nfp stellsym from rfl, List.map_const', List.sum_replicate, nsmul_eq_mul]
  cases stellsym
  · simp only [coilCurrent, Bool.false_eq_true, if_false]
    field_simp
  · simp only [coilCurrent, if_true]
    field_simp

/-- **C122, true part.** Only for one field period without stellarator symmetry the file carries the net current. -/
theorem C122_net_current_partial (G : ℝ) (hG : G ≠ 0) (nfp : ℕ) (hn : 0 < nfp) (stellsym : Bool) (curves : List (List V3))
    (hc : curves ≠ []) (f : List CoilsLine) (hf : coilsFile nfp (coilCurrent G curves.length nfp stellsym) curves = .ok f)
    (l : List (List V3 × ℝ)) (hl : readCoilsFile f = some (nfp, l)) :
    (l.map Prod.snd).sum = G ↔ nfp = 1 ∧ stellsym = false := by
  obtain ⟨l', h1, h2⟩ := C122_current_in_file_violated_partial G nfp stellsym curves hc f hf
  obtain rfl : l' = l := by
    rw [h1] at hl
    simpa using hl
  rw [h2]
  have hn' : (nfp : ℝ) ≠ 0 := by exact_mod_cast hn.ne'
  cases stellsym
  · simp only [Bool.false_eq_true, if_false, div_one, and_true]
    rw [div_eq_iff hn']
    constructor
    · intro h
      have : (nfp : ℝ) = 1 := by
        have := mul_left_cancel₀ hG ((mul_one G).trans h)
        exact this.symm
      exact_mod_cast this
    · rintro rfl
      simp
  · simp only [if_true, Bool.true_eq_false, and_false, iff_false]
    rw [div_div, div_eq_iff (by positivity)]
    intro h
    have h3 : (1 : ℝ) = nfp * 2 := mul_left_cancel₀ hG ((mul_one G).trans h)
    have h4 : 1 = nfp * 2 := by exact_mod_cast h3
    omega

/-- Two field periods: half of the current is missing. -/
example : ∃ f, coilsFile 2 (coilCurrent 6 1 2 false) [[⟨1, 0, 0⟩]] = .ok f ∧
    ∃ l, readCoilsFile f = some (2, l) ∧ (l.map Prod.snd).sum = 3 := by
  obtain ⟨f, hf⟩ := (C121_round_trip 2 (coilCurrent 6 1 2 false) [[⟨1, 0, 0⟩]]).1.2 (by simp)
  obtain ⟨l, h1, h2⟩ := C122_current_in_file_violated_partial 6 2 false [[⟨1, 0, 0⟩]] (by simp) f hf
  exact ⟨f, hf, l, h1, by rw [h2]; norm_num⟩

/-! ## C123: the order of the curves -/

theorem foldl_order (lengths : List ℕ) : ∀ start : ℕ, ∃ o, lengths.foldl (fun o l => match o with
    | none => some (l / 2)
    | some o => if l / 2 < o then some (l / 2) else some o) (some start) = some o ∧ o ≤ start ∧ (∀ l ∈ lengths, o ≤ l / 2) ∧
      (o = start ∨ ∃ l ∈ lengths, o = l / 2) := by
  induction lengths with
  | nil => intro s; exact ⟨s, rfl, le_rfl, by simp, Or.inl rfl⟩
  | cons a t ih =>
    intro s
    rw [List.foldl_cons]
    simp only
    by_cases h : a / 2 < s
    · rw [if_pos h]
      obtain ⟨o, h1, h2, h3, h4⟩ := ih (a / 2)
      refine ⟨o, h1, by omega, ?_, ?_⟩
      · intro l hl
        rcases List.mem_cons.1 hl with rfl | hl
        · exact h2
        · exact h3 l hl
      · rcases h4 with h4 | ⟨l, hl, h4⟩
        · exact Or.inr ⟨a, by simp, h4⟩
        · exact Or.inr ⟨l, by simp [hl], h4⟩
    · rw [if_neg h]
      obtain ⟨o, h1, h2, h3, h4⟩ := ih s
      refine ⟨o, h1, h2, ?_, ?_⟩
      · intro l hl
        rcases List.mem_cons.1 hl with rfl | hl
        · omega
        · exact h3 l hl
      · rcases h4 with h4 | ⟨l, hl, h4⟩
        · exact Or.inl h4
        · exact Or.inr ⟨l, by simp [hl], h4⟩

/-- **C123.** Without a given order, the order is the largest one that every contour has enough points for, and the assertion of the
transform holds. -/
theorem C123_default_order (lengths : List ℕ) (h : lengths ≠ []) :
    ∃ o, curveOrder none lengths = some o ∧ orderAccepted o lengths = .ok () ∧
      ∀ o', orderAccepted o' lengths = .ok () → o' ≤ o := by
  cases lengths with
  | nil => exact absurd rfl h
  | cons a t =>
    obtain ⟨o, h1, h2, h3, h4⟩ := foldl_order t (a / 2)
    refine ⟨o, h1, ?_, ?_⟩
    · rw [orderAccepted, if_pos]
      intro l hl
      rcases List.mem_cons.1 hl with rfl | hl
      · omega
      · have := h3 l hl
        omega
    · intro o' ho'
      have hall : ∀ l ∈ a :: t, l ≥ 2 * o' := by
        by_contra hc
        rw [orderAccepted, if_neg hc] at ho'
        cases ho'
      rcases h4 with h4 | ⟨l, hl, h4⟩
      · have := hall a (by simp)
        omega
      · have := hall l (by simp [hl])
        omega

/-- **C123.** A given positive order is used as it is, and is refused exactly if some contour has fewer than twice as many points. -/
theorem C123_given_order (order : ℕ) (ho : 0 < order) (lengths : List ℕ) :
    curveOrder (some order) lengths = some order ∧
      (orderAccepted order lengths = .error .assertionError ↔ ∃ l ∈ lengths, l < 2 * order) := by
  obtain ⟨o, rfl⟩ : ∃ o, order = o + 1 := ⟨order - 1, by omega⟩
  refine ⟨rfl, ?_⟩
  unfold orderAccepted
  split_ifs with h
  · simp only [false_iff, not_exists, not_and, not_lt]
    exact h
  · simp only [true_iff]
    push Not at h
    exact h

/-- Contours with 24 and 31 points: order 12; the default order 10 of `simsopt_coil_from_qp` is refused for 19 points. -/
example : curveOrder none [24, 31] = some 12 ∧ orderAccepted 10 [24, 19] = .error .assertionError :=
  ⟨rfl, (C123_given_order 10 (by norm_num) [24, 19]).2.2 ⟨19, by simp, by norm_num⟩⟩

end Verif
