import Verif.Model.Coils
import Verif.Props.Current
import Mathlib.Algebra.BigOperators.Field

/-! # Coil cutting (C55, C79) -/

namespace Verif

open Real

/-! ## C55: currents and levels -/

theorem dot_zip_const (ds : List ℝ) (v : ℝ) :
    ((ds.zip (ds.map fun _ => v)).map fun p => p.1 * p.2).sum = ds.sum * v := by
  induction ds with
  | nil => simp
  | cons d ds ih =>
    simp only [List.map_cons, List.zip_cons_cons, List.sum_cons, ih]
    ring

theorem sum_flatMap_const {β : Type} (n : ℕ) (l : List β) (f : β → ℝ) :
    (((List.range n).flatMap fun _ => l).map f).sum = n * (l.map f).sum := by
  induction n with
  | zero => simp
  | succ n ih =>
    rw [List.range_succ, List.flatMap_append, List.map_append, List.sum_append, ih]
    simp only [List.flatMap_cons, List.flatMap_nil, List.append_nil]
    push_cast
    ring

/-- The net poloidal current of all cut coils: the given net current times the mean of the poloidal directions of the
contours. (A contour that closes without going around poloidally has direction 0.) -/
theorem C55_net_current_of_coils (G : ℝ) (directions : List ℝ) (nfp : ℕ) (stellsym : Bool) (hn : nfp ≠ 0)
    (hd : directions ≠ []) :
    ((cutCoils G directions nfp stellsym).map fun p => p.1 * p.2).sum = G * (directions.sum / directions.length) := by
  have hn' : (nfp : ℝ) ≠ 0 := by exact_mod_cast hn
  have hd' : (directions.length : ℝ) ≠ 0 := by
    have : directions.length ≠ 0 := by simpa using hd
    exact_mod_cast this
  rw [cutCoils, coilsViaSymmetries, sum_flatMap_const, List.map_append, List.sum_append, dot_zip_const]
  cases stellsym
  · simp only [Bool.false_eq_true, if_false, List.map_nil, List.sum_nil, add_zero, coilCurrent]
    field_simp
  · simp only [if_true, List.map_map]
    have h : ((fun p : ℝ × ℝ => p.1 * p.2) ∘ fun p : ℝ × ℝ => (-p.1, -p.2)) = fun p : ℝ × ℝ => p.1 * p.2 := by
      funext p; simp
    rw [h, dot_zip_const]
    simp only [coilCurrent, if_true]
    field_simp
    ring

/-- **C55.** If every contour goes around once in the positive poloidal direction, the coils obtained after applying the
symmetries carry together exactly the net poloidal current. -/
theorem C55_total_current (G : ℝ) (nContours nfp : ℕ) (stellsym : Bool) (hn : nfp ≠ 0) (hc : nContours ≠ 0) :
    ((cutCoils G (List.replicate nContours 1) nfp stellsym).map fun p => p.1 * p.2).sum = G ∧
    (cutCoils G (List.replicate nContours 1) nfp stellsym).length = nContours * nfp * (if stellsym then 2 else 1) ∧
    (∀ p ∈ cutCoils G (List.replicate nContours 1) nfp stellsym,
      p.1 * p.2 = G / (cutCoils G (List.replicate nContours 1) nfp stellsym).length) := by
  have hn' : (nfp : ℝ) ≠ 0 := by exact_mod_cast hn
  have hc' : (nContours : ℝ) ≠ 0 := by exact_mod_cast hc
  have hlen : (cutCoils G (List.replicate nContours 1) nfp stellsym).length
      = nContours * nfp * (if stellsym then 2 else 1) := by
    rw [cutCoils, coilsViaSymmetries, List.length_flatMap]
    cases stellsym <;> simp [List.sum_replicate] <;> ring
  refine ⟨?_, hlen, ?_⟩
  · rw [C55_net_current_of_coils G _ nfp stellsym hn (by simpa using hc)]
    simp only [List.sum_replicate, List.length_replicate, nsmul_eq_mul, mul_one]
    field_simp
  · intro p hp
    rw [hlen]
    have hz : ∀ q ∈ (List.replicate nContours (1 : ℝ)).zip
        ((List.replicate nContours (1 : ℝ)).map fun _ => coilCurrent G (List.replicate nContours (1 : ℝ)).length nfp stellsym),
        q = (1, coilCurrent G nContours nfp stellsym) := by
      intro q hq
      have h1 := List.of_mem_zip (a := q.1) (b := q.2) hq
      simp only [List.mem_replicate, List.map_replicate, List.length_replicate] at h1
      exact Prod.ext h1.1.2 h1.2.2
    have hv : p.1 * p.2 = coilCurrent G nContours nfp stellsym := by
      rw [cutCoils, coilsViaSymmetries, List.mem_flatMap] at hp
      obtain ⟨_, _, hp⟩ := hp
      rcases List.mem_append.1 hp with hp | hp
      · rw [hz p hp]; simp
      · split_ifs at hp with hs
        · obtain ⟨q, hq, rfl⟩ := List.mem_map.1 hp
          rw [hz q hq]; simp
        · simp at hp
    rw [hv, coilCurrent]
    cases stellsym
    · simp only [Bool.false_eq_true, if_false]; push_cast; field_simp
    · simp only [if_true]; push_cast; field_simp

/-- Three contours, two field periods, stellarator symmetry: twelve coils that carry 24 A together. -/
example : ((cutCoils 24 (List.replicate 3 1) 2 true).map fun p => p.1 * p.2).sum = 24 ∧
    (cutCoils 24 (List.replicate 3 1) 2 true).length = 12 := by
  have h := C55_total_current 24 3 2 true (by norm_num) (by norm_num)
  exact ⟨h.1, by rw [h.2.1]; norm_num⟩

/-- The `j`-th level. -/
theorem cutLevels_eq (stellsym : Bool) (c : ℕ) (hc : c ≠ 0) (shift : ℝ) :
    cutLevels stellsym c shift = (List.range (if stellsym then c else 2 * c)).map fun j : ℕ =>
      ((j : ℝ) + 1 / 2 + if stellsym then 0 else Int.fract shift) / (2 * c) := by
  have hc' : (c : ℝ) ≠ 0 := by exact_mod_cast hc
  cases stellsym
  · simp only [cutLevels, linspace0, Bool.false_eq_true, if_false, List.map_map, mul_comm c 2]
    refine List.map_congr_left fun j _ => ?_
    simp only [Function.comp]
    push_cast
    field_simp
    ring
  · simp only [cutLevels, linspace0, if_true, List.map_map]
    refine List.map_congr_left fun j _ => ?_
    simp only [Function.comp]
    field_simp
    ring

/-- **C55.** With stellarator symmetry there is one level per coil, the levels are equally spaced and lie strictly inside the half
period `(0, 1/2)`; together with their mirror images `1 - v` they are the midpoints of `2 c` equal parts of a period. The
shift argument has no effect. -/
theorem C55_levels_stellsym (c : ℕ) (hc : c ≠ 0) (shift : ℝ) :
    (cutLevels true c shift).length = c ∧
    (∀ j, j + 1 < (cutLevels true c shift).length →
      (cutLevels true c shift).getD (j + 1) 0 - (cutLevels true c shift).getD j 0 = 1 / (2 * c)) ∧
    (∀ v ∈ cutLevels true c shift, 0 < v ∧ v < 1 / 2) ∧
    (∀ v : ℝ, (v ∈ cutLevels true c shift ∨ 1 - v ∈ cutLevels true c shift) ↔
      ∃ k : ℕ, k < 2 * c ∧ v = (k + 1 / 2) / (2 * c)) := by
  have hc' : (c : ℝ) ≠ 0 := by exact_mod_cast hc
  have hcp : (0 : ℝ) < c := by exact_mod_cast Nat.pos_of_ne_zero hc
  have e := cutLevels_eq true c hc shift
  simp only [if_true, add_zero] at e
  generalize cutLevels true c shift = L at e
  subst e
  refine ⟨by simp, ?_, ?_, ?_⟩
  · intro j h
    rw [List.length_map, List.length_range] at h
    have h2 : j < c := by omega
    simp only [List.getD, List.getElem?_map, List.getElem?_range h, List.getElem?_range h2, Option.map_some, Option.getD_some]
    push_cast
    field_simp
    ring
  · intro v hv
    obtain ⟨j, hj, rfl⟩ := List.mem_map.1 hv
    have hj' : (j : ℝ) + 1 ≤ c := by exact_mod_cast List.mem_range.1 hj
    constructor
    · positivity
    · rw [div_lt_div_iff₀ (by positivity) (by norm_num)]
      linarith
  · intro v
    constructor
    · rintro (hv | hv)
      · obtain ⟨j, hj, rfl⟩ := List.mem_map.1 hv
        exact ⟨j, by have := List.mem_range.1 hj; omega, rfl⟩
      · obtain ⟨j, hj, hv⟩ := List.mem_map.1 hv
        have hj := List.mem_range.1 hj
        refine ⟨2 * c - 1 - j, by omega, ?_⟩
        have : ((2 * c - 1 - j : ℕ) : ℝ) = 2 * c - 1 - j := by
          rw [Nat.cast_sub (by omega), Nat.cast_sub (by omega)]; push_cast; ring
        rw [this]
        have hv2 : v = 1 - ((j : ℝ) + 1 / 2) / (2 * c) := by linarith
        rw [hv2]
        field_simp
        ring
    · rintro ⟨k, hk, rfl⟩
      by_cases h : k < c
      · exact Or.inl (List.mem_map.2 ⟨k, List.mem_range.2 h, rfl⟩)
      · refine Or.inr (List.mem_map.2 ⟨2 * c - 1 - k, List.mem_range.2 (by omega), ?_⟩)
        have : ((2 * c - 1 - k : ℕ) : ℝ) = 2 * c - 1 - k := by
          rw [Nat.cast_sub (by omega), Nat.cast_sub (by omega)]; push_cast; ring
        rw [this]
        field_simp
        ring

/-- Two coils per half period: levels 1/8 and 3/8. -/
example : cutLevels true 2 0 = [1 / 8, 3 / 8] := by
  rw [cutLevels_eq true 2 (by norm_num)]
  norm_num [List.range_succ]

/-- **C55.** Without stellarator symmetry there are `2 c` equally spaced levels within one period. -/
theorem C55_levels_general (c : ℕ) (hc : c ≠ 0) (shift : ℝ) :
    (cutLevels false c shift).length = 2 * c ∧
    (∀ j, j + 1 < (cutLevels false c shift).length →
      (cutLevels false c shift).getD (j + 1) 0 - (cutLevels false c shift).getD j 0 = 1 / (2 * c)) ∧
    (∀ v ∈ cutLevels false c shift, 1 / (4 * (c : ℝ)) ≤ v ∧ v < 1 + 1 / (4 * (c : ℝ))) ∧
    (∀ v ∈ cutLevels false c shift, ∀ w ∈ cutLevels false c shift, |v - w| < 1) := by
  have hc' : (c : ℝ) ≠ 0 := by exact_mod_cast hc
  have hcp : (0 : ℝ) < c := by exact_mod_cast Nat.pos_of_ne_zero hc
  have e := cutLevels_eq false c hc shift
  simp only [Bool.false_eq_true, if_false] at e
  have f0 := Int.fract_nonneg shift
  have f1 := Int.fract_lt_one shift
  generalize cutLevels false c shift = L at e
  subst e
  refine ⟨by simp, ?_, ?_, ?_⟩
  · intro j h
    rw [List.length_map, List.length_range] at h
    have h2 : j < 2 * c := by omega
    simp only [List.getD, List.getElem?_map, List.getElem?_range h, List.getElem?_range h2, Option.map_some, Option.getD_some]
    push_cast
    field_simp
    ring
  · intro v hv
    obtain ⟨j, hj, rfl⟩ := List.mem_map.1 hv
    have hj' : (j : ℝ) + 1 ≤ 2 * c := by exact_mod_cast List.mem_range.1 hj
    have hj0 : (0 : ℝ) ≤ j := by positivity
    constructor
    · rw [div_le_div_iff₀ (by positivity) (by positivity)]
      nlinarith
    · have h4 : 1 + 1 / (4 * (c : ℝ)) = (2 * c + 1 / 2) / (2 * c) := by field_simp; ring
      rw [h4, div_lt_div_iff_of_pos_right (by positivity)]
      linarith
  · intro v hv w hw
    obtain ⟨j, hj, rfl⟩ := List.mem_map.1 hv
    obtain ⟨k, hk, rfl⟩ := List.mem_map.1 hw
    have hj' : (j : ℝ) + 1 ≤ 2 * c := by exact_mod_cast List.mem_range.1 hj
    have hj0 : (0 : ℝ) ≤ j := by positivity
    have hk' : (k : ℝ) + 1 ≤ 2 * c := by exact_mod_cast List.mem_range.1 hk
    have hk0 : (0 : ℝ) ≤ k := by positivity
    rw [← sub_div, abs_lt]
    constructor
    · rw [lt_div_iff₀ (by positivity)]; linarith
    · rw [div_lt_iff₀ (by positivity)]; linarith

example : cutLevels false 1 0 = [1 / 4, 3 / 4] := by
  rw [cutLevels_eq false 1 (by norm_num)]
  norm_num [List.range_succ]

/-- **C55.** With one contour per level a coil carries the current that flows between neighbouring levels: the spacing of the
levels times the current per field period. -/
theorem C55_current_per_level (G : ℝ) (nfp c : ℕ) (hc : c ≠ 0) (stellsym : Bool) (shift : ℝ) :
    coilCurrent G (cutLevels stellsym c shift).length nfp stellsym = G / nfp * (1 / (2 * c)) := by
  have hc' : (c : ℝ) ≠ 0 := by exact_mod_cast hc
  cases stellsym
  · rw [(C55_levels_general c hc shift).1]
    simp only [coilCurrent, Bool.false_eq_true, if_false]
    push_cast
    rw [div_div, mul_one_div, div_div]
    ring_nf
  · rw [(C55_levels_stellsym c hc shift).1]
    simp only [coilCurrent, if_true]
    rw [div_div, mul_one_div, div_div, div_div]
    ring_nf

/-- **C55.** If the net current is not negligible, the potential that is cut is the total potential on three field periods: the
padded arrays are the normalised total potential at the padded angles. -/
theorem C55_padded_potential (P : CpParams) (hn : P.surf.nfp ≠ 0) (hG : floatEps < |P.G|) (maxPhi : ℝ) (c : List ℝ)
    (phis thetas : List ℝ) :
    let phis3 := (phis.map fun p : ℝ => p - 1 / P.surf.nfp) ++ phis ++ (phis.map fun p : ℝ => p + 1 / P.surf.nfp)
    zeta3 P.surf.nfp phis = phis3.map (fun p => 2 * π * p) ∧
    data3 P.G maxPhi P.surf.nfp (phis.map fun p => thetas.map fun t => P.PhiNet c p t)
      = phis3.map fun p => thetas.map fun t => P.PhiNet c p t * (P.surf.nfp / P.G) := by
  have hn' : (P.surf.nfp : ℝ) ≠ 0 := by exact_mod_cast hn
  have hG0 : P.G ≠ 0 := by
    intro h
    rw [h, abs_zero, floatEps] at hG
    exact absurd hG (not_lt.2 (by positivity))
  have hp : ∀ p t, P.PhiNet c (p + 1 / P.surf.nfp) t = P.PhiNet c p t + P.G / P.surf.nfp := by
    intro p t
    exact (C44_net_currents P hn c p t).1
  have hm : ∀ p t, P.PhiNet c (p - 1 / P.surf.nfp) t = P.PhiNet c p t - P.G / P.surf.nfp := by
    intro p t
    have := hp (p - 1 / P.surf.nfp) t
    rw [sub_add_cancel] at this
    linarith
  intro phis3
  constructor
  · simp only [zeta3, phis3, List.map_append, List.map_map]
    refine congrArg₂ (· ++ ·) (congrArg₂ (· ++ ·) ?_ ?_) ?_
    · refine List.map_congr_left fun p _ => ?_
      simp only [Function.comp]; field_simp
    · refine List.map_congr_left fun p _ => ?_
      ring
    · refine List.map_congr_left fun p _ => ?_
      simp only [Function.comp]; field_simp
  · simp only [data3, if_pos hG, phis3, List.map_append, List.map_map]
    refine congrArg₂ (· ++ ·) (congrArg₂ (· ++ ·) ?_ ?_) ?_
    · refine List.map_congr_left fun p _ => ?_
      simp only [Function.comp, List.map_map]
      refine List.map_congr_left fun t _ => ?_
      simp only [Function.comp, hm]; field_simp
    · refine List.map_congr_left fun p _ => ?_
      simp only [Function.comp, List.map_map]
      refine List.map_congr_left fun t _ => ?_
      simp only [Function.comp]; field_simp
    · refine List.map_congr_left fun p _ => ?_
      simp only [Function.comp, List.map_map]
      refine List.map_congr_left fun t _ => ?_
      simp only [Function.comp, hp]; field_simp

/-- The circular torus with net current 1 meets the hypotheses. -/
example : ({circularTorus with G := 1} : CpParams).surf.nfp ≠ 0 ∧ floatEps < |({circularTorus with G := 1} : CpParams).G| := by
  constructor
  · simp [circularTorus]
  · simp only [floatEps, abs_one]
    norm_num

/-! ## C79: points of the coils -/

theorem lookup_sum {ι : Type} [DecidableEq ι] (A : Finset ι) (q : ι → ℤ × ℤ) (hq : Set.InjOn q A) (f : ℤ × ℤ → ℝ) :
    ∀ (modes : List (ℤ × ℤ)) (c : List ℝ), modes.Nodup → (∀ p ∈ modes, ∃ x ∈ A, q x = p) →
      ∑ x ∈ A, ((modes.zip c).lookup (q x)).getD 0 * f (q x) = ((modes.zip c).map fun p => p.2 * f p.1).sum := by
  intro modes
  induction modes with
  | nil => intro c _ _; simp
  | cons m ms ih =>
    intro c hnd hmem
    cases c with
    | nil => simp
    | cons a c =>
      obtain ⟨x0, hx0, hqx0⟩ := hmem m (by simp)
      have hm := (List.nodup_cons.1 hnd).1
      have ih' := ih c (List.nodup_cons.1 hnd).2 fun p hp => hmem p (by simp [hp])
      simp only [List.zip_cons_cons, List.map_cons, List.sum_cons, ← ih']
      rw [← Finset.sum_erase_add A _ hx0, ← Finset.sum_erase_add A _ hx0]
      have hnone : (ms.zip c).lookup m = none := by
        rw [List.lookup_eq_none_iff]
        rintro ⟨k, v⟩ hp
        have := (List.of_mem_zip hp).1
        simp only [ne_eq, bne_iff_ne]
        rintro rfl
        exact hm this
      have e1 : ∑ x ∈ A.erase x0, (((m, a) :: ms.zip c).lookup (q x)).getD 0 * f (q x)
          = ∑ x ∈ A.erase x0, ((ms.zip c).lookup (q x)).getD 0 * f (q x) := by
        refine Finset.sum_congr rfl fun x hx => ?_
        have hne : q x ≠ m := by
          intro he
          exact (Finset.mem_erase.1 hx).1 (hq (Finset.mem_erase.1 hx).2 hx0 (he.trans hqx0.symm))
        rw [List.lookup_cons, show (q x == m) = false by simpa using hne]
      rw [e1, hqx0, hnone, List.lookup_cons]
      simp
      ring

theorem list_range_sum' (f : ℕ → ℝ) (n : ℕ) : ((List.range n).map f).sum = ∑ k ∈ Finset.range n, f k := by
  induction n with
  | zero => simp
  | succ n ih => rw [List.range_succ, List.map_append, List.sum_append, ih, Finset.sum_range_succ]; simp

/-- One coordinate with both kinds of coefficients. -/
theorem contourCoord_eq (mpol ntor nfp : ℕ) (A B : ℤ → ℤ → ℝ) (phi theta : ℝ) :
    contourCoord mpol ntor nfp A B (2 * π * phi) (2 * π * theta)
      = ∑ x ∈ Finset.range (mpol + 1) ×ˢ Finset.range (2 * ntor + 1),
          A x.1 ((x.2 : ℤ) - ntor) * cos (2 * π * (((x.1 : ℤ) : ℝ) * theta - nfp * (((x.2 : ℤ) - ntor : ℤ) : ℝ) * phi))
        + ∑ x ∈ Finset.range (mpol + 1) ×ˢ Finset.range (2 * ntor + 1),
          B x.1 ((x.2 : ℤ) - ntor) * sin (2 * π * (((x.1 : ℤ) : ℝ) * theta - nfp * (((x.2 : ℤ) - ntor : ℤ) : ℝ) * phi)) := by
  rw [← Finset.sum_add_distrib, Finset.sum_product, contourCoord, list_range_sum']
  refine Finset.sum_congr rfl fun m _ => ?_
  rw [list_range_sum']
  refine Finset.sum_congr rfl fun i _ => ?_
  have h : (m : ℝ) * (2 * π * theta) - (((i : ℤ) - ntor : ℤ) : ℝ) * (2 * π * phi) * nfp
      = 2 * π * (((m : ℤ) : ℝ) * theta - nfp * (((i : ℤ) - ntor : ℤ) : ℝ) * phi) := by push_cast; ring
  simp only [h]

theorem index_injOn (mpol ntor : ℕ) :
    Set.InjOn (fun x : ℕ × ℕ => ((x.1 : ℤ), (x.2 : ℤ) - (ntor : ℤ)))
      (Finset.range (mpol + 1) ×ˢ Finset.range (2 * ntor + 1) : Finset (ℕ × ℕ)) := by
  rintro ⟨a, b⟩ _ ⟨a', b'⟩ _ h
  simp only [Prod.mk.injEq] at h ⊢
  omega

theorem mem_index (mpol ntor : ℕ) (p : ℤ × ℤ) (h : p ∈ modePairs (surfMc mpol ntor, surfNc mpol ntor)) :
    ∃ x ∈ Finset.range (mpol + 1) ×ˢ Finset.range (2 * ntor + 1), ((x.1 : ℤ), (x.2 : ℤ) - (ntor : ℤ)) = p := by
  have hc := C37_modes_complete mpol ntor
  obtain ⟨m, n⟩ := p
  have hb : 0 ≤ m ∧ m ≤ mpol ∧ -ntor ≤ n ∧ n ≤ ntor := by
    rw [hc.2.1, List.mem_cons] at h
    rcases h with h | h
    · simp only [Prod.mk.injEq] at h; omega
    · have := (hc.2.2 m n).1 h
      rw [abs_le] at this
      omega
  refine ⟨(m.toNat, (n + ntor).toNat), ?_, ?_⟩
  · simp only [Finset.mem_product, Finset.mem_range]; omega
  · simp only [Prod.mk.injEq]; omega

theorem coord_cos (mpol ntor nfp : ℕ) (c : List ℝ) (phi theta : ℝ) :
    ∑ x ∈ Finset.range (mpol + 1) ×ˢ Finset.range (2 * ntor + 1),
      simsoptCoef (modePairs (surfMc mpol ntor, surfNc mpol ntor)) c x.1 ((x.2 : ℤ) - ntor)
        * cos (2 * π * (((x.1 : ℤ) : ℝ) * theta - nfp * (((x.2 : ℤ) - ntor : ℤ) : ℝ) * phi))
      = cosSeries nfp (modePairs (surfMc mpol ntor, surfNc mpol ntor)) c phi theta :=
  lookup_sum _ (fun x : ℕ × ℕ => ((x.1 : ℤ), (x.2 : ℤ) - (ntor : ℤ))) (index_injOn mpol ntor)
    (fun p => cos (2 * π * ((p.1 : ℝ) * theta - nfp * (p.2 : ℝ) * phi))) _ c (C37_modes_complete mpol ntor).1
    (mem_index mpol ntor)

theorem coord_sin (mpol ntor nfp : ℕ) (c : List ℝ) (phi theta : ℝ) :
    ∑ x ∈ Finset.range (mpol + 1) ×ˢ Finset.range (2 * ntor + 1),
      simsoptCoef (modePairs (surfMs mpol ntor, surfNs mpol ntor)) c x.1 ((x.2 : ℤ) - ntor)
        * sin (2 * π * (((x.1 : ℤ) : ℝ) * theta - nfp * (((x.2 : ℤ) - ntor : ℤ) : ℝ) * phi))
      = sinSeries nfp (modePairs (surfMs mpol ntor, surfNs mpol ntor)) c phi theta :=
  lookup_sum _ (fun x : ℕ × ℕ => ((x.1 : ℤ), (x.2 : ℤ) - (ntor : ℤ))) (index_injOn mpol ntor)
    (fun p => sin (2 * π * ((p.1 : ℝ) * theta - nfp * (p.2 : ℝ) * phi))) _ c
    (by have := (C37_modes_complete mpol ntor); rw [this.2.1] at this; exact (List.nodup_cons.1 this.1).2)
    (fun p hp => mem_index mpol ntor p (by rw [(C37_modes_complete mpol ntor).2.1]; exact List.mem_cons_of_mem _ hp))

/-- **C79.** With stellarator symmetry, the point of a cut coil at the angles `(2 pi phi, 2 pi theta)` of its contour is the point of
the winding surface with the parameters `(phi, theta)`. -/
theorem C79_coil_on_surface_stellsym (S : SurfaceShape) (hs : S.stellsym = true) (rc zs : List ℝ)
    (hrc : rc.length = (surfMc S.mpol S.ntor).length) (rs zc : List ℝ) (phi theta : ℝ) :
    S.contourPoint rc rs zc zs (2 * π * phi) (2 * π * theta) = S.gamma (rc ++ zs) phi theta := by
  rw [C38_position_stellsym S hs rc zs hrc]
  have h1 := coord_cos S.mpol S.ntor S.nfp rc phi theta
  have h2 := coord_sin S.mpol S.ntor S.nfp zs phi theta
  simp only [SurfaceShape.contourPoint, hs, if_true, contourCoord_eq, zero_mul, Finset.sum_const_zero, add_zero, zero_add]
  rw [← h1, ← h2]
  rfl

/-- **C79.** The same without stellarator symmetry. -/
theorem C79_coil_on_surface_general (S : SurfaceShape) (hs : S.stellsym = false) (rc rs zc zs : List ℝ)
    (hrc : rc.length = (surfMc S.mpol S.ntor).length) (hrs : rs.length = (surfMs S.mpol S.ntor).length)
    (hzc : zc.length = (surfMc S.mpol S.ntor).length) (phi theta : ℝ) :
    S.contourPoint rc rs zc zs (2 * π * phi) (2 * π * theta) = S.gamma (rc ++ rs ++ (zc ++ zs)) phi theta := by
  rw [C38_position_general S hs rc rs zc zs hrc hrs hzc]
  have h1 := coord_cos S.mpol S.ntor S.nfp rc phi theta
  have h2 := coord_sin S.mpol S.ntor S.nfp zs phi theta
  have h3 := coord_cos S.mpol S.ntor S.nfp zc phi theta
  have h4 := coord_sin S.mpol S.ntor S.nfp rs phi theta
  simp only [SurfaceShape.contourPoint, hs, Bool.false_eq_true, if_false, contourCoord_eq]
  rw [← h1, ← h2, ← h3, ← h4]
  rfl

/-- The circular torus of radii 2 and 1: the point at `theta = phi = 0` is `(3, 0, 0)`. -/
example : (⟨1, true, 1, 0⟩ : SurfaceShape).contourPoint [2, 1] [] [] [1] 0 0 = ⟨3, 0, 0⟩ := by
  simp [SurfaceShape.contourPoint, contourCoord, simsoptCoef, SurfaceShape.cModes, SurfaceShape.sModes, surfMc, surfNc, surfMs,
    surfNs, repeatEach, tile, arange, List.range_succ, List.lookup_cons, show ((1, 0) == ((0, 0) : ℤ × ℤ)) = false from rfl]
  norm_num

end Verif
