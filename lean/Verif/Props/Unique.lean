import Verif.Props.Field
import Verif.Props.BiotSavart
import Verif.Props.CoilFit
import Verif.Lemmas.LeastSquares
import Mathlib.Data.List.GetD

/-!
# C113, C114: the current determines the potential; the regularised problem has one solution
-/

namespace Verif

open Real CpParams

/-! ## Orthogonality of the modes on a grid -/

/-- The angle of mode `(m, n)` at point `(j, k)` of a grid with `A` points per field period and `B` poloidal points. -/
noncomputable def gridAngle (A B : ℕ) (m n : ℤ) (j k : ℕ) : ℝ := 2 * π * k * m / B - 2 * π * j * n / A

theorem gridAngle_add (A B : ℕ) (m n m' n' : ℤ) (j k : ℕ) :
    gridAngle A B m n j k + gridAngle A B m' n' j k = gridAngle A B (m + m') (n + n') j k := by
  simp only [gridAngle]
  push_cast
  ring

theorem gridAngle_sub (A B : ℕ) (m n m' n' : ℤ) (j k : ℕ) :
    gridAngle A B m n j k - gridAngle A B m' n' j k = gridAngle A B (m - m') (n - n') j k := by
  simp only [gridAngle]
  push_cast
  ring

theorem grid_cos_sum (A B : ℕ) (hA : A ≠ 0) (hB : B ≠ 0) (m n : ℤ) :
    ∑ j ∈ Finset.range A, ∑ k ∈ Finset.range B, cos (gridAngle A B m n j k) =
      if (B : ℤ) ∣ m ∧ (A : ℤ) ∣ n then (A : ℝ) * B else 0 := by
  have h : ∀ j k : ℕ, cos (gridAngle A B m n j k) =
      cos (2 * π * j * n / A) * cos (2 * π * k * m / B) + sin (2 * π * j * n / A) * sin (2 * π * k * m / B) := by
    intro j k
    rw [gridAngle, cos_sub]
    ring
  simp only [h, Finset.sum_add_distrib, ← Finset.mul_sum, ← Finset.sum_mul, cos_sum A hA, cos_sum B hB, sin_sum A hA, sin_sum B hB]
  by_cases h1 : (B : ℤ) ∣ m <;> by_cases h2 : (A : ℤ) ∣ n <;> simp [h1, h2]

theorem grid_sin_sum (A B : ℕ) (hA : A ≠ 0) (hB : B ≠ 0) (m n : ℤ) :
    ∑ j ∈ Finset.range A, ∑ k ∈ Finset.range B, sin (gridAngle A B m n j k) = 0 := by
  have h : ∀ j k : ℕ, sin (gridAngle A B m n j k) =
      cos (2 * π * j * n / A) * sin (2 * π * k * m / B) - sin (2 * π * j * n / A) * cos (2 * π * k * m / B) := by
    intro j k
    rw [gridAngle, sin_sub]
    ring
  simp only [h, Finset.sum_sub_distrib, ← Finset.mul_sum, ← Finset.sum_mul, sin_sum A hA, sin_sum B hB]
  simp

/-- A mode of the half plane within the resolution. -/
def IsMode (mpol ntor : ℕ) (m n : ℤ) : Prop := (m = 0 ∧ 1 ≤ n ∧ n ≤ ntor) ∨ (1 ≤ m ∧ m ≤ mpol ∧ -(ntor : ℤ) ≤ n ∧ n ≤ ntor)

theorem mode_sum_sub {mpol ntor A B : ℕ} (hA : 2 * ntor < A) (hB : 2 * mpol < B) {m n m' n' : ℤ} (h : IsMode mpol ntor m n)
    (h' : IsMode mpol ntor m' n') : ((B : ℤ) ∣ m - m' ∧ (A : ℤ) ∣ n - n' ↔ m = m' ∧ n = n') ∧
      ¬ ((B : ℤ) ∣ m + m' ∧ (A : ℤ) ∣ n + n') := by
  simp only [IsMode] at h h'
  refine ⟨⟨fun ⟨h1, h2⟩ => ?_, ?_⟩, fun ⟨h1, h2⟩ => ?_⟩
  · have e1 := Int.eq_zero_of_abs_lt_dvd h1 (by rw [abs_lt]; constructor <;> omega)
    have e2 := Int.eq_zero_of_abs_lt_dvd h2 (by rw [abs_lt]; constructor <;> omega)
    omega
  · rintro ⟨rfl, rfl⟩
    simp
  · have e1 := Int.eq_zero_of_abs_lt_dvd h1 (by rw [abs_lt]; constructor <;> omega)
    have e2 := Int.eq_zero_of_abs_lt_dvd h2 (by rw [abs_lt]; constructor <;> omega)
    omega

/-- Discrete orthogonality of the sines and cosines of the modes. -/
theorem grid_orthogonal {mpol ntor A B : ℕ} (hA : 2 * ntor < A) (hB : 2 * mpol < B) {m n m' n' : ℤ} (h : IsMode mpol ntor m n)
    (h' : IsMode mpol ntor m' n') {s s' : ℤ} (hs : s = 1 ∨ s = -1) (hs' : s' = 1 ∨ s' = -1) :
    ∑ j ∈ Finset.range A, ∑ k ∈ Finset.range B, sinOrCos (gridAngle A B m n j k) s * sinOrCos (gridAngle A B m' n' j k) s' =
      if m = m' ∧ n = n' ∧ s = s' then (A : ℝ) * B / 2 else 0 := by
  obtain ⟨h1, h2⟩ := mode_sum_sub hA hB h h'
  have hA0 : A ≠ 0 := by omega
  have hB0 : B ≠ 0 := by omega
  have c1 := grid_cos_sum A B hA0 hB0 (m - m') (n - n')
  have c2 := grid_cos_sum A B hA0 hB0 (m + m') (n + n')
  have s1 := grid_sin_sum A B hA0 hB0 (m - m') (n - n')
  have s2 := grid_sin_sum A B hA0 hB0 (m + m') (n + n')
  rw [if_neg h2] at c2
  simp only [h1] at c1
  simp only [← gridAngle_add, ← gridAngle_sub] at c1 c2 s1 s2
  have hne : ¬ ((-1 : ℤ) = 1) := by norm_num
  rcases hs with rfl | rfl <;> rcases hs' with rfl | rfl
  · simp only [sinOrCos, if_true, and_true]
    have e : ∀ j k : ℕ, sin (gridAngle A B m n j k) * sin (gridAngle A B m' n' j k) =
        (cos (gridAngle A B m n j k - gridAngle A B m' n' j k) - cos (gridAngle A B m n j k + gridAngle A B m' n' j k)) / 2 := by
      intro j k
      rw [cos_sub, cos_add]
      ring
    simp only [e, ← Finset.sum_div, Finset.sum_sub_distrib, c1, c2, sub_zero]
    split_ifs <;> simp
  · simp only [sinOrCos, if_true, if_neg hne]
    have e : ∀ j k : ℕ, sin (gridAngle A B m n j k) * cos (gridAngle A B m' n' j k) =
        (sin (gridAngle A B m n j k - gridAngle A B m' n' j k) + sin (gridAngle A B m n j k + gridAngle A B m' n' j k)) / 2 := by
      intro j k
      rw [sin_sub, sin_add]
      ring
    simp only [e, ← Finset.sum_div, Finset.sum_add_distrib, s1, s2]
    simp
  · simp only [sinOrCos, if_true, if_neg hne]
    have e : ∀ j k : ℕ, cos (gridAngle A B m n j k) * sin (gridAngle A B m' n' j k) =
        (sin (gridAngle A B m n j k + gridAngle A B m' n' j k) - sin (gridAngle A B m n j k - gridAngle A B m' n' j k)) / 2 := by
      intro j k
      rw [sin_sub, sin_add]
      ring
    simp only [e, ← Finset.sum_div, Finset.sum_sub_distrib, s1, s2]
    simp
  · simp only [sinOrCos, if_neg hne, and_true]
    have e : ∀ j k : ℕ, cos (gridAngle A B m n j k) * cos (gridAngle A B m' n' j k) =
        (cos (gridAngle A B m n j k - gridAngle A B m' n' j k) + cos (gridAngle A B m n j k + gridAngle A B m' n' j k)) / 2 := by
      intro j k
      rw [cos_sub, cos_add]
      ring
    simp only [e, ← Finset.sum_div, Finset.sum_add_distrib, c1, c2, add_zero]
    split_ifs <;> simp

/-! ## The rows of the mode table -/

theorem mem_rows (P : CpParams) (r : ℤ × ℤ × ℤ) (h : r ∈ P.rows) :
    (r.2.2 = 1 ∨ r.2.2 = -1) ∧ (IsMode P.mpol P.ntor r.1 r.2.1 ∨ (P.stellsym = false ∧ r = (0, 0, -1))) := by
  have hm : ∀ t ∈ modePairs (makeMn P.mpol P.ntor true), IsMode P.mpol P.ntor t.1 t.2 := by
    rintro ⟨m, n⟩ ht
    rw [mem_makeMn_stellsym] at ht
    simp only [IsMode]
    omega
  cases hs : P.stellsym with
  | true =>
    rw [rows_stellsym P hs] at h
    obtain ⟨t, ht, rfl⟩ := List.mem_map.1 h
    exact ⟨Or.inl rfl, Or.inl (hm t ht)⟩
  | false =>
    rw [rows_general P hs, List.mem_append, List.mem_cons] at h
    rcases h with h | rfl | h
    · obtain ⟨t, ht, rfl⟩ := List.mem_map.1 h
      exact ⟨Or.inl rfl, Or.inl (hm t ht)⟩
    · exact ⟨Or.inr rfl, Or.inr ⟨rfl, rfl⟩⟩
    · obtain ⟨t, ht, rfl⟩ := List.mem_map.1 h
      exact ⟨Or.inr rfl, Or.inl (hm t ht)⟩

theorem rows_nodup (P : CpParams) : P.rows.Nodup := by
  have hn := (C36_each_mode_once P.mpol P.ntor).1
  have h0 := (C36_each_mode_once P.mpol P.ntor).2.2.1
  have hmap : ∀ s : ℤ, ((modePairs (makeMn P.mpol P.ntor true)).map fun t => (t.1, t.2, s)).Nodup := by
    intro s
    refine hn.map fun x y h => ?_
    simp only [Prod.mk.injEq, and_true] at h
    exact Prod.ext h.1 h.2
  cases hs : P.stellsym with
  | true =>
    rw [rows_stellsym P hs]
    exact hmap 1
  | false =>
    rw [rows_general P hs]
    refine List.Nodup.append (hmap 1) (List.nodup_cons.2 ⟨?_, hmap (-1)⟩) ?_
    · intro h
      obtain ⟨t, ht, he⟩ := List.mem_map.1 h
      simp only [Prod.mk.injEq, and_true] at he
      have e : t = (0, 0) := Prod.ext he.1 he.2
      exact h0 (e ▸ ht)
    · intro x hx hx2
      obtain ⟨t, -, rfl⟩ := List.mem_map.1 hx
      rw [List.mem_cons] at hx2
      rcases hx2 with h | h
      · simp at h
      · obtain ⟨u, -, he⟩ := List.mem_map.1 h
        simp at he

theorem rows_length (P : CpParams) : P.rows.length = (cpNdofs P.stellsym P.mpol P.ntor).1 := by
  have hl := (C36_nonsymmetric_layout P.mpol P.ntor).2
  cases hs : P.stellsym with
  | true =>
    rw [rows_stellsym P hs, List.length_map, hl]
    simp [cpNdofs]
  | false =>
    rw [rows_general P hs, List.length_append, List.length_cons, List.length_map, List.length_map, hl]
    simp [cpNdofs]
    ring

theorem zipWith_ofFn_eq {n : ℕ} (f g : Fin n → ℝ) :
    List.zipWith (· * ·) (List.ofFn f) (List.ofFn g) = List.ofFn fun i => f i * g i := by
  apply List.ext_getElem
  · simp
  · intro k h1 h2
    simp

theorem app_map_ofFn {L : ℕ} {β : Type} (R : List β) (hR : R.length = L) (f : β → ℝ) (d : Fin L → ℝ) :
    app (R.map f) (List.ofFn d) = ∑ i : Fin L, f (R[i]'(by rw [hR]; exact i.2)) * d i := by
  subst hR
  have : R.map f = List.ofFn fun i : Fin R.length => f R[i] := by
    apply List.ext_getElem
    · simp
    · intro k h1 h2
      simp
  rw [app, this, zipWith_ofFn_eq, List.sum_ofFn]

/-- If both derivatives of the potential vanish on a resolving grid, all coefficients except that of the constant vanish. -/
theorem coefficients_vanish (P : CpParams) (hn : P.surf.nfp ≠ 0) {A B : ℕ} (hA : 2 * P.ntor < A) (hB : 2 * P.mpol < B)
    {L : ℕ} (hL : P.rows.length = L) (d : Fin L → ℝ)
    (h1 : ∀ q ∈ gridPoints (linspace0 (1 / P.surf.nfp) A) (linspace0 1 B), app (P.opPhi q.1 q.2) (List.ofFn d) = 0)
    (h2 : ∀ q ∈ gridPoints (linspace0 (1 / P.surf.nfp) A) (linspace0 1 B), app (P.opTheta q.1 q.2) (List.ofFn d) = 0) (i : Fin L)
    (hi : P.rows[i]'(by rw [hL]; exact i.2) ≠ (0, 0, -1)) : d i = 0 := by
  have hmem : ∀ i : Fin L, P.rows[i]'(by rw [hL]; exact i.2) ∈ P.rows := fun i => List.getElem_mem _
  generalize hr : (fun i : Fin L => P.rows[i]'(by rw [hL]; exact i.2)) = r at *
  have hr' : ∀ i : Fin L, P.rows[i]'(by rw [hL]; exact i.2) = r i := fun i => congrFun hr i
  simp only [hr'] at hi hmem
  have hinj : ∀ a b : Fin L, r a = r b → a = b := by
    intro a b h
    rw [← hr' a, ← hr' b] at h
    exact Fin.ext ((rows_nodup P).getElem_inj_iff.1 h)
  have hn' : (P.surf.nfp : ℝ) ≠ 0 := by exact_mod_cast hn
  have hA0 : (A : ℝ) ≠ 0 := by have : A ≠ 0 := by omega
                               exact_mod_cast this
  have hB0 : (B : ℝ) ≠ 0 := by have : B ≠ 0 := by omega
                               exact_mod_cast this
  -- the grid points
  have hpt : ∀ j < A, ∀ k < B, ((j : ℝ) * (1 / P.surf.nfp / A), (k : ℝ) * (1 / B)) ∈
      gridPoints (linspace0 (1 / P.surf.nfp) A) (linspace0 1 B) := by
    intro j hj k hk
    simp only [gridPoints, List.mem_flatMap, List.mem_map, linspace0, List.mem_range]
    exact ⟨_, ⟨j, hj, rfl⟩, _, ⟨k, hk, rfl⟩, rfl⟩
  have hang : ∀ (j k : ℕ) (t : ℤ × ℤ × ℤ), P.angle ((j : ℝ) * (1 / P.surf.nfp / A)) ((k : ℝ) * (1 / B)) t =
      gridAngle A B t.1 t.2.1 j k := by
    intro j k t
    simp only [angle, CpParams.nfp, gridAngle]
    field_simp
  -- one equation for a weight of the modes
  have key : ∀ wt : ℤ × ℤ × ℤ → ℝ, wt (0, 0, -1) = 0 →
      (∀ j < A, ∀ k < B, ∑ a, sinOrCos (gridAngle A B (r a).1 (r a).2.1 j k) (-(r a).2.2) * wt (r a) * d a = 0) →
      wt (r i) * d i = 0 := by
    intro wt hwt h
    have hsum : ∑ j ∈ Finset.range A, ∑ k ∈ Finset.range B, sinOrCos (gridAngle A B (r i).1 (r i).2.1 j k) (-(r i).2.2) *
        ∑ a, sinOrCos (gridAngle A B (r a).1 (r a).2.1 j k) (-(r a).2.2) * wt (r a) * d a = 0 := by
      refine Finset.sum_eq_zero fun j hj => Finset.sum_eq_zero fun k hk => ?_
      rw [h j (Finset.mem_range.1 hj) k (Finset.mem_range.1 hk), mul_zero]
    have hswap : ∑ j ∈ Finset.range A, ∑ k ∈ Finset.range B, sinOrCos (gridAngle A B (r i).1 (r i).2.1 j k) (-(r i).2.2) *
        ∑ a, sinOrCos (gridAngle A B (r a).1 (r a).2.1 j k) (-(r a).2.2) * wt (r a) * d a =
        ∑ a, wt (r a) * d a * ∑ j ∈ Finset.range A, ∑ k ∈ Finset.range B,
          sinOrCos (gridAngle A B (r i).1 (r i).2.1 j k) (-(r i).2.2) * sinOrCos (gridAngle A B (r a).1 (r a).2.1 j k) (-(r a).2.2) := by
      simp only [Finset.mul_sum]
      rw [Finset.sum_comm]
      have : ∀ k ∈ Finset.range B, ∑ j ∈ Finset.range A, ∑ a, sinOrCos (gridAngle A B (r i).1 (r i).2.1 j k) (-(r i).2.2) *
          (sinOrCos (gridAngle A B (r a).1 (r a).2.1 j k) (-(r a).2.2) * wt (r a) * d a) =
          ∑ a, ∑ j ∈ Finset.range A, wt (r a) * d a * (sinOrCos (gridAngle A B (r i).1 (r i).2.1 j k) (-(r i).2.2) *
            sinOrCos (gridAngle A B (r a).1 (r a).2.1 j k) (-(r a).2.2)) := by
        intro k _
        rw [Finset.sum_comm]
        refine Finset.sum_congr rfl fun a _ => Finset.sum_congr rfl fun j _ => by ring
      rw [Finset.sum_congr rfl this, Finset.sum_comm]
      refine Finset.sum_congr rfl fun a _ => ?_
      rw [Finset.sum_comm]
    rw [hswap] at hsum
    have hsgn : ∀ a, -(r a).2.2 = 1 ∨ -(r a).2.2 = -1 := by
      intro a
      rcases (mem_rows P _ (hmem a)).1 with h | h <;> rw [h] <;> simp
    have hmi : IsMode P.mpol P.ntor (r i).1 (r i).2.1 := by
      rcases (mem_rows P _ (hmem i)).2 with h | ⟨-, h⟩
      · exact h
      · exact absurd h hi
    have hterm : ∀ a, wt (r a) * d a * ∑ j ∈ Finset.range A, ∑ k ∈ Finset.range B,
          sinOrCos (gridAngle A B (r i).1 (r i).2.1 j k) (-(r i).2.2) * sinOrCos (gridAngle A B (r a).1 (r a).2.1 j k) (-(r a).2.2) =
        if a = i then wt (r i) * d i * (A * B / 2) else 0 := by
      intro a
      rcases (mem_rows P _ (hmem a)).2 with h | ⟨-, h⟩
      · rw [grid_orthogonal hA hB hmi h (hsgn i) (hsgn a)]
        by_cases hai : a = i
        · subst hai
          simp
        · rw [if_neg hai, if_neg, mul_zero]
          rintro ⟨e1, e2, e3⟩
          refine hai (hinj a i (Prod.ext e1.symm (Prod.ext e2.symm ?_)))
          exact (neg_injective e3).symm
      · rw [h, hwt, zero_mul, zero_mul, if_neg]
        rintro rfl
        exact hi h
    rw [Finset.sum_congr rfl fun a _ => hterm a, Finset.sum_ite_eq' Finset.univ i] at hsum
    simp only [Finset.mem_univ, if_true] at hsum
    rcases mul_eq_zero.1 hsum with h | h
    · exact h
    · exfalso
      have : (A : ℝ) * B / 2 ≠ 0 := by positivity
      exact this h
  have e1 := key (fun t => -(t.2.1 : ℝ) * t.2.2 * P.nfp * 2 * π) (by simp) (by
    intro j hj k hk
    have := h1 _ (hpt j hj k hk)
    rw [opPhi_eq, app_map_ofFn _ hL] at this
    simp only [hr', rPhi, hang] at this
    exact this)
  have e2 := key (fun t => (t.1 : ℝ) * t.2.2 * 2 * π) (by simp) (by
    intro j hj k hk
    have := h2 _ (hpt j hj k hk)
    rw [opTheta_eq, app_map_ofFn _ hL] at this
    simp only [hr', rTheta, hang] at this
    exact this)
  have hmi : IsMode P.mpol P.ntor (r i).1 (r i).2.1 := by
    rcases (mem_rows P _ (hmem i)).2 with h | ⟨-, h⟩
    · exact h
    · exact absurd h hi
  have hnf : (P.nfp : ℝ) ≠ 0 := hn'
  have hs : ((r i).2.2 : ℝ) ≠ 0 := by
    rcases (mem_rows P _ (hmem i)).1 with h | h <;> rw [h] <;> norm_num
  have hpi := Real.pi_ne_zero
  by_contra hd
  have z1 : ((r i).2.1 : ℝ) = 0 := by
    have := (mul_eq_zero.1 e1).resolve_right hd
    simpa [hs, hnf, hpi] using this
  have z2 : ((r i).1 : ℝ) = 0 := by
    have := (mul_eq_zero.1 e2).resolve_right hd
    simpa [hs, hpi] using this
  have z1' : (r i).2.1 = 0 := by exact_mod_cast z1
  have z2' : (r i).1 = 0 := by exact_mod_cast z2
  simp only [IsMode] at hmi
  omega


/-! ## The current determines the potential -/

theorem V3.smul_eq_zero_left {a : ℝ} {v : V3} (h : a • v = 0) (hv : v ≠ 0) : a = 0 := by
  by_contra ha
  apply hv
  have h1 := congrArg V3.x h
  have h2 := congrArg V3.y h
  have h3 := congrArg V3.z h
  simp only [V3.smul_x, V3.smul_y, V3.smul_z, V3.zero_x, V3.zero_y, V3.zero_z, mul_eq_zero, ha, false_or] at h1 h2 h3
  exact V3.ext h1 h2 h3

/-- Where the surface is regular, the current determines both derivatives of the potential. -/
theorem derivs_of_K (P : CpParams) (c d : List ℝ) (phi theta : ℝ) (hN : P.N phi theta ≠ 0) :
    P.K c phi theta = P.K d phi theta ↔
      app (P.opPhi phi theta) c = app (P.opPhi phi theta) d ∧ app (P.opTheta phi theta) c = app (P.opTheta phi theta) d := by
  constructor
  · intro h
    have hi : P.invN phi theta ≠ 0 := by
      rw [invN]
      exact one_div_ne_zero ((V3.norm_pos_iff _).2 hN).ne'
    rw [K_eq, K_eq] at h
    generalize app (P.opPhi phi theta) c = a1 at *
    generalize app (P.opPhi phi theta) d = a2 at *
    generalize app (P.opTheta phi theta) c = b1 at *
    generalize app (P.opTheta phi theta) d = b2 at *
    have hx := congrArg V3.x h
    have hy := congrArg V3.y h
    have hz := congrArg V3.z h
    simp only [V3.smul_x, V3.smul_y, V3.smul_z, V3.sub_x, V3.sub_y, V3.sub_z] at hx hy hz
    have hx := mul_left_cancel₀ hi hx
    have hy := mul_left_cancel₀ hi hy
    have hz := mul_left_cancel₀ hi hz
    have e1 : (a1 - a2) • P.N phi theta = 0 := by
      rw [N]
      ext <;> simp only [V3.smul_x, V3.smul_y, V3.smul_z, V3.cross, V3.zero_x, V3.zero_y, V3.zero_z]
      · linear_combination (P.dg1 phi theta).y * hz - (P.dg1 phi theta).z * hy
      · linear_combination (P.dg1 phi theta).z * hx - (P.dg1 phi theta).x * hz
      · linear_combination (P.dg1 phi theta).x * hy - (P.dg1 phi theta).y * hx
    have e2 : (b1 - b2) • P.N phi theta = 0 := by
      rw [N]
      ext <;> simp only [V3.smul_x, V3.smul_y, V3.smul_z, V3.cross, V3.zero_x, V3.zero_y, V3.zero_z]
      · linear_combination (P.dg2 phi theta).y * hz - (P.dg2 phi theta).z * hy
      · linear_combination (P.dg2 phi theta).z * hx - (P.dg2 phi theta).x * hz
      · linear_combination (P.dg2 phi theta).x * hy - (P.dg2 phi theta).y * hx
    exact ⟨sub_eq_zero.1 (V3.smul_eq_zero_left e1 hN), sub_eq_zero.1 (V3.smul_eq_zero_left e2 hN)⟩
  · rintro ⟨h1, h2⟩
    rw [K_eq, K_eq, h1, h2]

/-- The index of the constant mode: none with stellarator symmetry. -/
def IsConstantIndex (P : CpParams) (i : ℕ) : Prop := P.stellsym = false ∧ i = (cpNdofs P.stellsym P.mpol P.ntor).2

theorem rows_constant (P : CpParams) (i : ℕ) (hi : i < P.rows.length) : P.rows[i] = (0, 0, -1) ↔ IsConstantIndex P i := by
  have hl := (C36_nonsymmetric_layout P.mpol P.ntor).2
  cases hs : P.stellsym with
  | true =>
    simp only [IsConstantIndex, hs, Bool.true_eq_false, false_and, iff_false]
    intro h
    have := List.getElem_mem hi
    rw [h] at this
    rcases (mem_rows P _ this).2 with h | ⟨h, -⟩
    · simp only [IsMode] at h
      omega
    · simp [hs] at h
  | false =>
    have hk : (cpNdofs P.stellsym P.mpol P.ntor).2 = (modePairs (makeMn P.mpol P.ntor true)).length := by
      rw [hl, hs]
    have hmem : (cpNdofs P.stellsym P.mpol P.ntor).2 < P.rows.length := by
      rw [hk, rows_general P hs]
      simp
    have hc : P.rows[(cpNdofs P.stellsym P.mpol P.ntor).2] = (0, 0, -1) := by
      have : ∀ k : ℕ, ∀ h : k < P.rows.length, k = (modePairs (makeMn P.mpol P.ntor true)).length → P.rows[k] = (0, 0, -1) := by
        intro k h e
        simp only [rows_general P hs] at h ⊢
        rw [List.getElem_append_right (by simp [e])]
        simp [e]
      exact this _ hmem hk
    simp only [IsConstantIndex, hs, true_and]
    rw [← hs, ← hc, (rows_nodup P).getElem_inj_iff]

/-- The grid of one field period with `A` toroidal and `B` poloidal points. -/
noncomputable def periodGrid (P : CpParams) (A B : ℕ) : List (ℝ × ℝ) := gridPoints (linspace0 (1 / P.surf.nfp) A) (linspace0 1 B)

theorem getElem_eq_of_derivs (P : CpParams) (hn : P.surf.nfp ≠ 0) {A B : ℕ} (hA : 2 * P.ntor < A) (hB : 2 * P.mpol < B)
    (c d : List ℝ) (hc : c.length = P.rows.length) (hd : d.length = P.rows.length)
    (h1 : ∀ q ∈ periodGrid P A B, app (P.opPhi q.1 q.2) c = app (P.opPhi q.1 q.2) d)
    (h2 : ∀ q ∈ periodGrid P A B, app (P.opTheta q.1 q.2) c = app (P.opTheta q.1 q.2) d) (i : ℕ) (hi : ¬ IsConstantIndex P i) :
    c[i]? = d[i]? := by
  by_cases hl : i < P.rows.length
  · have hcl : c.length = d.length := by rw [hc, hd]
    let D : Fin P.rows.length → ℝ := fun j => 1 * c[j]'(by rw [hc]; exact j.2) + (-1) * d[j]'(by rw [hd]; exact j.2)
    have hD : List.ofFn D = comb 1 (-1) c d := by
      apply List.ext_getElem
      · simp [comb, hc, hd]
      · intro k _ _
        simp [D, comb]
    have hz : D ⟨i, hl⟩ = 0 := by
      refine coefficients_vanish P hn hA hB rfl D (fun q hq => ?_) (fun q hq => ?_) ⟨i, hl⟩ ?_
      · rw [hD, comb, app_comb _ _ _ _ _ hcl, h1 q hq]
        ring
      · rw [hD, comb, app_comb _ _ _ _ _ hcl, h2 q hq]
        ring
      · intro h
        exact hi ((rows_constant P i hl).1 h)
    rw [List.getElem?_eq_getElem (by omega), List.getElem?_eq_getElem (by omega)]
    simp only [D, Fin.getElem_fin] at hz
    congr 1
    linarith
  · rw [List.getElem?_eq_none (by omega), List.getElem?_eq_none (by omega)]

/-- The potentials of coefficients that agree except for the constant mode differ by a constant. -/
theorem Phi_of_agree (P : CpParams) (c d : List ℝ) (hc : c.length = P.rows.length) (hd : d.length = P.rows.length)
    (h : ∀ i, ¬ IsConstantIndex P i → c[i]? = d[i]?) : ∃ t, ∀ phi theta, P.Phi c phi theta = P.Phi d phi theta + t := by
  have key : ∀ (e : List ℝ) (he : e.length = P.rows.length) (phi theta : ℝ), P.Phi e phi theta =
      ∑ i : Fin P.rows.length, sinOrCos (P.angle phi theta P.rows[i]) P.rows[i].2.2 * e[i]'(by rw [he]; exact i.2) := by
    intro e he phi theta
    rw [Phi, trig]
    have : e = List.ofFn fun i : Fin P.rows.length => e[i]'(by rw [he]; exact i.2) := by
      apply List.ext_getElem
      · simp [he]
      · intro k _ _
        simp
    conv_lhs => rw [this]
    rw [app_map_ofFn _ rfl]
  refine ⟨∑ i : Fin P.rows.length, (c[i]'(by rw [hc]; exact i.2) - d[i]'(by rw [hd]; exact i.2)), fun phi theta => ?_⟩
  rw [key c hc, key d hd, ← Finset.sum_add_distrib]
  refine Finset.sum_congr rfl fun i _ => ?_
  by_cases hi : IsConstantIndex P i
  · have := (rows_constant P i i.2).2 hi
    simp only [Fin.getElem_fin, this]
    simp [sinOrCos, angle]
  · have := h i hi
    rw [List.getElem?_eq_getElem (by omega), List.getElem?_eq_getElem (by omega)] at this
    simp only [Option.some.injEq] at this
    simp only [Fin.getElem_fin, this]
    ring

theorem opPhi_of_Phi (P : CpParams) (c d : List ℝ) (t : ℝ) (ht : ∀ phi theta, P.Phi c phi theta = P.Phi d phi theta + t)
    (phi theta : ℝ) : app (P.opPhi phi theta) c = app (P.opPhi phi theta) d ∧
      app (P.opTheta phi theta) c = app (P.opTheta phi theta) d := by
  have f1 : (fun p => P.Phi c p theta) = fun p => P.Phi d p theta + t := funext fun p => ht p theta
  have f2 : (fun p => P.Phi c phi p) = fun p => P.Phi d phi p + t := funext fun p => ht phi p
  have e1 := P.Phi_phi c phi theta
  have e2 := P.Phi_theta c phi theta
  rw [f1] at e1
  rw [f2] at e2
  exact ⟨e1.unique ((P.Phi_phi d phi theta).add_const t), e2.unique ((P.Phi_theta d phi theta).add_const t)⟩

/-- **C113 (the current determines the potential).** On a uniform grid of one field period with more than `2 ntor` toroidal and
more than `2 mpol` poloidal points, on a surface regular at the grid points, two coefficient vectors give the same current at
all grid points exactly if their potentials differ by a constant, and exactly if they agree except for the coefficient of the
constant mode. -/
theorem C113_current_determines_potential (P : CpParams) (hn : P.surf.nfp ≠ 0) {A B : ℕ} (hA : 2 * P.ntor < A)
    (hB : 2 * P.mpol < B) (hN : ∀ q ∈ periodGrid P A B, P.N q.1 q.2 ≠ 0) (c d : List ℝ)
    (hc : c.length = (cpNdofs P.stellsym P.mpol P.ntor).1) (hd : d.length = (cpNdofs P.stellsym P.mpol P.ntor).1) :
    ((∀ q ∈ periodGrid P A B, P.K c q.1 q.2 = P.K d q.1 q.2) ↔
      ∃ t, ∀ phi theta, P.Phi c phi theta = P.Phi d phi theta + t) ∧
    ((∀ q ∈ periodGrid P A B, P.K c q.1 q.2 = P.K d q.1 q.2) ↔ ∀ i, ¬ IsConstantIndex P i → c[i]? = d[i]?) := by
  rw [← rows_length] at hc hd
  have h1 : (∀ q ∈ periodGrid P A B, P.K c q.1 q.2 = P.K d q.1 q.2) → ∀ i, ¬ IsConstantIndex P i → c[i]? = d[i]? := by
    intro h
    have h' : ∀ q ∈ periodGrid P A B, app (P.opPhi q.1 q.2) c = app (P.opPhi q.1 q.2) d ∧
        app (P.opTheta q.1 q.2) c = app (P.opTheta q.1 q.2) d :=
      fun q hq => (derivs_of_K P c d q.1 q.2 (hN q hq)).1 (h q hq)
    exact getElem_eq_of_derivs P hn hA hB c d hc hd (fun q hq => (h' q hq).1) (fun q hq => (h' q hq).2)
  have h2 := Phi_of_agree P c d hc hd
  have h3 : (∃ t, ∀ phi theta, P.Phi c phi theta = P.Phi d phi theta + t) →
      ∀ q ∈ periodGrid P A B, P.K c q.1 q.2 = P.K d q.1 q.2 := by
    rintro ⟨t, ht⟩ q hq
    refine (derivs_of_K P c d q.1 q.2 (hN q hq)).2 ⟨?_, ?_⟩
    · exact (opPhi_of_Phi P c d t ht q.1 q.2).1
    · exact (opPhi_of_Phi P c d t ht q.1 q.2).2
  exact ⟨⟨fun h => h2 (h1 h), h3⟩, ⟨h1, fun h => h3 (h2 h)⟩⟩

/-- **C113.** With stellarator symmetry the current on the grid determines the coefficients. -/
theorem C113_current_determines_coefficients (P : CpParams) (hs : P.stellsym = true) (hn : P.surf.nfp ≠ 0) {A B : ℕ}
    (hA : 2 * P.ntor < A) (hB : 2 * P.mpol < B) (hN : ∀ q ∈ periodGrid P A B, P.N q.1 q.2 ≠ 0) (c d : List ℝ)
    (hc : c.length = (cpNdofs P.stellsym P.mpol P.ntor).1) (hd : d.length = (cpNdofs P.stellsym P.mpol P.ntor).1)
    (h : ∀ q ∈ periodGrid P A B, P.K c q.1 q.2 = P.K d q.1 q.2) : c = d := by
  have := (C113_current_determines_potential P hn hA hB hN c d hc hd).2.1 h
  refine List.ext_getElem? fun i => this i ?_
  rintro ⟨h, -⟩
  rw [hs] at h
  simp at h

/-! ## The regularised problem -/

/-- `f_B + w f_K`. -/
noncomputable def regObjective (Q : FieldProblem) (w : ℝ) (c : List ℝ) : ℝ := Q.fB c + w * Q.fK c

/-- `c` is a best choice among the coefficient vectors of its length. -/
def IsBest (F : List ℝ → ℝ) (L : ℕ) (c : List ℝ) : Prop := c.length = L ∧ ∀ d : List ℝ, d.length = L → F c ≤ F d

/-- The weighted terms of the regularised objective. -/
noncomputable def regTerms (Q : FieldProblem) (w : ℝ) (L : ℕ) : List (ℝ × ((Fin L → ℝ) → ℝ)) :=
  List.zipWith (fun (q : (ℝ × ℝ) × ℝ) (a : ℝ) => (a * (Q.cp.nfp : ℝ) / 2, fun x : Fin L → ℝ => Q.bnWinding (List.ofFn x) q.1 + q.2))
      ((gridPoints Q.plasma.phis Q.plasma.thetas).zip Q.bPlasma) Q.plasma.da ++
    (gridPoints Q.ePhis Q.eThetas).flatMap fun q =>
      let a := w * (gridStep Q.ePhis * gridStep Q.eThetas * (Q.cp.surf.normal Q.cp.wdofs q.1 q.2).norm) * Q.cp.nfp / 2
      [(a, fun x => (Q.cp.K (List.ofFn x) q.1 q.2).x), (a, fun x => (Q.cp.K (List.ofFn x) q.1 q.2).y),
        (a, fun x => (Q.cp.K (List.ofFn x) q.1 q.2).z)]

theorem regObjective_eq (Q : FieldProblem) (w : ℝ) {L : ℕ} (x : Fin L → ℝ) :
    regObjective Q w (List.ofFn x) = ((regTerms Q w L).map fun t => t.1 * t.2 x ^ 2).sum := by
  rw [regTerms, List.map_append, List.sum_append, regObjective, fB_eq, fK_eq]
  congr 1
  · generalize (gridPoints Q.plasma.phis Q.plasma.thetas).zip Q.bPlasma = l
    generalize Q.plasma.da = m
    induction l generalizing m with
    | nil => simp
    | cons q l ih =>
      cases m with
      | nil => simp
      | cons a m =>
        simp only [List.map_cons, List.zipWith_cons_cons, List.sum_cons, add_mul, ih m]
        ring
  · simp only [GridSurface.da, FieldProblem.evalSurface]
    generalize gridStep Q.ePhis * gridStep Q.eThetas = s
    generalize gridPoints Q.ePhis Q.eThetas = l
    induction l with
    | nil => simp
    | cons q l ih =>
      simp only [List.map_cons, List.zipWith_cons_cons, List.sum_cons, List.flatMap_cons, List.map_append, List.sum_append, add_mul,
        mul_add] at ih ⊢
      rw [ih]
      simp only [List.map_nil, List.sum_nil, K2, V3.normSq]
      ring

theorem ofFn_comb {L : ℕ} (x y : Fin L → ℝ) (a : ℝ) :
    (List.ofFn fun i => a * x i + (1 - a) * y i) = comb a (1 - a) (List.ofFn x) (List.ofFn y) := by
  apply List.ext_getElem
  · simp [comb]
  · intro k _ _
    simp [comb]

theorem regTerms_affine (Q : FieldProblem) (w : ℝ) (L : ℕ) : ∀ t ∈ regTerms Q w L, IsAffineFn t.2 := by
  have hK : ∀ (x y : Fin L → ℝ) (a : ℝ) (q : ℝ × ℝ), Q.cp.K (List.ofFn fun i => a * x i + (1 - a) * y i) q.1 q.2 =
      a • Q.cp.K (List.ofFn x) q.1 q.2 + (1 - a) • Q.cp.K (List.ofFn y) q.1 q.2 := by
    intro x y a q
    rw [ofFn_comb, comb, C41_affine _ _ _ (by simp)]
  intro t ht
  rw [regTerms, List.mem_append] at ht
  rcases ht with ht | ht
  · obtain ⟨k, hk, rfl⟩ := List.mem_iff_getElem.1 ht
    simp only [List.getElem_zipWith]
    intro x y a
    simp only [ofFn_comb]
    rw [bnWinding_affine _ _ _ (by simp)]
    ring
  · obtain ⟨q, -, hq⟩ := List.mem_flatMap.1 ht
    simp only [List.mem_cons, List.not_mem_nil, or_false] at hq
    rcases hq with rfl | rfl | rfl <;> intro x y a <;> simp only [hK] <;> simp

theorem regTerms_nonneg (Q : FieldProblem) (w : ℝ) (L : ℕ) (hw : 0 ≤ w)
    (hp : 0 ≤ gridStep Q.plasma.phis * gridStep Q.plasma.thetas) (he : 0 ≤ gridStep Q.ePhis * gridStep Q.eThetas) :
    ∀ t ∈ regTerms Q w L, 0 ≤ t.1 := by
  intro t ht
  rw [regTerms, List.mem_append] at ht
  rcases ht with ht | ht
  · obtain ⟨k, hk, rfl⟩ := List.mem_iff_getElem.1 ht
    simp only [List.getElem_zipWith]
    have := da_nonneg _ hp _ (List.getElem_mem (l := Q.plasma.da) (n := k) (by simp at hk; omega))
    positivity
  · obtain ⟨q, -, hq⟩ := List.mem_flatMap.1 ht
    have : 0 ≤ (Q.cp.surf.normal Q.cp.wdofs q.1 q.2).norm := Real.sqrt_nonneg _
    simp only [List.mem_cons, List.not_mem_nil, or_false] at hq
    rcases hq with rfl | rfl | rfl <;> positivity

theorem isBest_iff {F : List ℝ → ℝ} {L : ℕ} (x : Fin L → ℝ) :
    IsBest F L (List.ofFn x) ↔ ∀ y : Fin L → ℝ, F (List.ofFn x) ≤ F (List.ofFn y) := by
  constructor
  · intro h y
    exact h.2 _ (by simp)
  · intro h
    refine ⟨by simp, fun d hd => ?_⟩
    subst hd
    have := h d.get
    rwa [List.ofFn_get] at this

theorem eq_ofFn {L : ℕ} (c : List ℝ) (h : c.length = L) : ∃ x : Fin L → ℝ, c = List.ofFn x := by
  subst h
  exact ⟨c.get, (List.ofFn_get c).symm⟩

/-- **C113 (a solution exists).** The regularised objective has a minimiser, on every grid in increasing order, for every
weight and every length of the coefficient vector. -/
theorem C113_minimiser_exists (Q : FieldProblem) (w : ℝ) (hw : 0 ≤ w) (L : ℕ)
    (hp : 0 ≤ gridStep Q.plasma.phis * gridStep Q.plasma.thetas) (he : 0 ≤ gridStep Q.ePhis * gridStep Q.eThetas) :
    ∃ c, IsBest (regObjective Q w) L c := by
  obtain ⟨x, hx⟩ := (list_sum_sq (regTerms Q w L) (regTerms_affine Q w L) (regTerms_nonneg Q w L hw hp he)).1
  refine ⟨List.ofFn x, (isBest_iff x).2 fun y => ?_⟩
  rw [regObjective_eq, regObjective_eq]
  exact hx y

/-- **C113 (the current is unique).** With a positive weight all minimisers have the same current at every evaluation point
where the surface is regular. -/
theorem C113_minimiser_current (Q : FieldProblem) (w : ℝ) (hw : 0 < w) (L : ℕ) (hn : Q.cp.surf.nfp ≠ 0)
    (hp : 0 ≤ gridStep Q.plasma.phis * gridStep Q.plasma.thetas) (he : 0 < gridStep Q.ePhis * gridStep Q.eThetas)
    (c d : List ℝ) (hc : IsBest (regObjective Q w) L c) (hd : IsBest (regObjective Q w) L d) :
    ∀ q ∈ gridPoints Q.ePhis Q.eThetas, Q.cp.N q.1 q.2 ≠ 0 → Q.cp.K c q.1 q.2 = Q.cp.K d q.1 q.2 := by
  intro q hq hN
  obtain ⟨x, rfl⟩ := eq_ofFn c hc.1
  obtain ⟨y, rfl⟩ := eq_ofFn d hd.1
  have hx := (isBest_iff x).1 hc
  have hy := (isBest_iff y).1 hd
  simp only [regObjective_eq] at hx hy
  have key := (list_sum_sq (regTerms Q w L) (regTerms_affine Q w L) (regTerms_nonneg Q w L hw.le hp he.le)).2 x y hx hy
  have hnf : 0 < (Q.cp.nfp : ℝ) := by
    have : 0 < Q.cp.surf.nfp := Nat.pos_of_ne_zero hn
    exact_mod_cast this
  have hpos : 0 < w * (gridStep Q.ePhis * gridStep Q.eThetas * (Q.cp.surf.normal Q.cp.wdofs q.1 q.2).norm) * Q.cp.nfp / 2 := by
    have : 0 < (Q.cp.surf.normal Q.cp.wdofs q.1 q.2).norm := (V3.norm_pos_iff _).2 hN
    positivity
  have hmem : ∀ f : (Fin L → ℝ) → ℝ, (f = (fun x => (Q.cp.K (List.ofFn x) q.1 q.2).x) ∨
      f = (fun x => (Q.cp.K (List.ofFn x) q.1 q.2).y) ∨ f = fun x => (Q.cp.K (List.ofFn x) q.1 q.2).z) → f x = f y := by
    intro f hf
    refine key (_, f) ?_ hpos
    rw [regTerms, List.mem_append]
    right
    refine List.mem_flatMap.2 ⟨q, hq, ?_⟩
    rcases hf with rfl | rfl | rfl <;> simp
  ext
  · exact hmem _ (Or.inl rfl)
  · exact hmem _ (Or.inr (Or.inl rfl))
  · exact hmem _ (Or.inr (Or.inr rfl))

/-- **C113 (the solution is unique).** With stellarator symmetry, a positive weight and a resolving evaluation grid, exactly one
coefficient vector minimises `f_B + w f_K`. -/
theorem C113_unique_minimiser (Q : FieldProblem) (hs : Q.cp.stellsym = true) (w : ℝ) (hw : 0 < w) (hn : Q.cp.surf.nfp ≠ 0)
    {A B : ℕ} (hA2 : 2 ≤ A) (hB2 : 2 ≤ B) (hA : 2 * Q.cp.ntor < A) (hB : 2 * Q.cp.mpol < B)
    (heP : Q.ePhis = linspace0 (1 / Q.cp.surf.nfp) A) (heT : Q.eThetas = linspace0 1 B)
    (hp : 0 ≤ gridStep Q.plasma.phis * gridStep Q.plasma.thetas)
    (hN : ∀ q ∈ periodGrid Q.cp A B, Q.cp.N q.1 q.2 ≠ 0) :
    ∃! c, IsBest (regObjective Q w) (cpNdofs Q.cp.stellsym Q.cp.mpol Q.cp.ntor).1 c := by
  have he : 0 < gridStep Q.ePhis * gridStep Q.eThetas := by
    rw [heP, heT, gridStep_linspace0 _ _ hA2, gridStep_linspace0 _ _ hB2]
    have : 0 < Q.cp.surf.nfp := Nat.pos_of_ne_zero hn
    positivity
  obtain ⟨c, hc⟩ := C113_minimiser_exists Q w hw.le (cpNdofs Q.cp.stellsym Q.cp.mpol Q.cp.ntor).1 hp he.le
  refine ⟨c, hc, fun d hd => ?_⟩
  refine C113_current_determines_coefficients Q.cp hs hn hA hB hN d c hd.1 hc.1 fun q hq => ?_
  refine C113_minimiser_current Q w hw _ hn hp he d c hd hc q ?_ (hN q hq)
  rw [heP, heT]
  exact hq

/-! ## Without stellarator symmetry -/

/-- The coefficients with `t` added to the constant mode. -/
noncomputable def addConstant (P : CpParams) (t : ℝ) (c : List ℝ) : List ℝ :=
  c.modify (cpNdofs P.stellsym P.mpol P.ntor).2 (· + t)

/-- Adding to the constant mode changes no current. -/
theorem K_addConstant (P : CpParams) (hs : P.stellsym = false) (t : ℝ) (c : List ℝ)
    (hc : c.length = (cpNdofs P.stellsym P.mpol P.ntor).1) (phi theta : ℝ) : P.K (addConstant P t c) phi theta = P.K c phi theta := by
  have hl : (addConstant P t c).length = P.rows.length := by rw [rows_length, addConstant, List.length_modify, hc]
  obtain ⟨u, hu⟩ := Phi_of_agree P (addConstant P t c) c hl (by rw [rows_length, hc]) (by
    intro i hi
    rw [addConstant, List.getElem?_modify]
    by_cases h : (cpNdofs P.stellsym P.mpol P.ntor).2 = i
    · exact absurd ⟨hs, h.symm⟩ hi
    · simp [h])
  rw [K_eq, K_eq, (opPhi_of_Phi P _ _ u hu phi theta).1, (opPhi_of_Phi P _ _ u hu phi theta).2]

/-- **C114 (false of the code; partial).** The statement wanted is that the regularised problem has one solution also without
stellarator symmetry. In fact every objective built from `f_B` and `f_K` is flat along the constant mode: adding any number to
that coefficient changes neither of them, so that the second derivative in this direction vanishes everywhere. -/
theorem C114_flat_direction_partial (Q : FieldProblem) (hs : Q.cp.stellsym = false) (c : List ℝ)
    (hc : c.length = (cpNdofs Q.cp.stellsym Q.cp.mpol Q.cp.ntor).1) (t : ℝ) :
    Q.fB (addConstant Q.cp t c) = Q.fB c ∧ Q.fK (addConstant Q.cp t c) = Q.fK c ∧ (t ≠ 0 → addConstant Q.cp t c ≠ c) := by
  have hK' : Q.cp.K (addConstant Q.cp t c) = Q.cp.K c := by
    funext p q
    exact K_addConstant Q.cp hs t c hc p q
  refine ⟨?_, by simp only [fK_eq, K2, hK'], fun ht h => ?_⟩
  · have hb : ∀ x, Q.bTerm (addConstant Q.cp t c) x = Q.bTerm c x := by
      intro x
      funext q
      simp only [FieldProblem.bTerm, hK']
    simp only [fB_eq, FieldProblem.bnWinding, FieldProblem.windingB, FieldProblem.computeB, hb]
  · have hlt : (cpNdofs Q.cp.stellsym Q.cp.mpol Q.cp.ntor).2 < c.length := by
      rw [hc, hs]
      simp [cpNdofs]
      omega
    have h3 := congrArg (fun l => l[(cpNdofs Q.cp.stellsym Q.cp.mpol Q.cp.ntor).2]?) h
    simp only [addConstant, List.getElem?_modify, if_true, List.getElem?_eq_getElem hlt] at h3
    exact ht (by simpa using h3)

/-- **C114.** Every minimiser can be moved along the constant mode. -/
theorem C114_minimisers_partial (Q : FieldProblem) (hs : Q.cp.stellsym = false) (w : ℝ) (c : List ℝ)
    (hc : IsBest (regObjective Q w) (cpNdofs Q.cp.stellsym Q.cp.mpol Q.cp.ntor).1 c) (t : ℝ) :
    IsBest (regObjective Q w) (cpNdofs Q.cp.stellsym Q.cp.mpol Q.cp.ntor).1 (addConstant Q.cp t c) := by
  obtain ⟨h1, h2, -⟩ := C114_flat_direction_partial Q hs c hc.1 t
  refine ⟨by rw [addConstant, List.length_modify, hc.1], fun d hd => ?_⟩
  rw [regObjective, h1, h2]
  exact hc.2 d hd

/-- **C114.** Hence never exactly one minimiser. -/
theorem C114_not_unique_partial (Q : FieldProblem) (hs : Q.cp.stellsym = false) (w : ℝ) :
    ¬ ∃! c, IsBest (regObjective Q w) (cpNdofs Q.cp.stellsym Q.cp.mpol Q.cp.ntor).1 c := by
  rintro ⟨c, hc, hu⟩
  exact (C114_flat_direction_partial Q hs c hc.1 1).2.2 one_ne_zero (hu _ (C114_minimisers_partial Q hs w c hc 1))

/-! ## Examples -/

/-- `torusProblem` on a grid that resolves its one mode. -/
noncomputable def resolvedTorus : FieldProblem := { torusProblem with eThetas := linspace0 1 3, ePhis := linspace0 (1 / (1 : ℕ)) 2 }

example : ∃! c, IsBest (regObjective resolvedTorus 1) 1 c :=
  C113_unique_minimiser resolvedTorus rfl 1 one_pos (by decide) (A := 2) (B := 3) le_rfl (by norm_num) (by decide) (by decide)
    rfl rfl (by simp only [resolvedTorus, torusProblem, gridStep_linspace0 _ _ (le_refl 2)]; norm_num)
    fun q _ => (circularTorus_regular q.1 q.2).1

/-- The same surface with a potential that is not stellarator symmetric. -/
noncomputable def generalTorus : FieldProblem := { resolvedTorus with cp := { circularTorus with stellsym := false } }

example : (∃ c, IsBest (regObjective generalTorus 1) 3 c) ∧ ¬ ∃! c, IsBest (regObjective generalTorus 1) 3 c :=
  ⟨C113_minimiser_exists generalTorus 1 zero_le_one 3
    (by simp only [generalTorus, resolvedTorus, torusProblem, gridStep_linspace0 _ _ (le_refl 2)]; norm_num)
    (by simp only [generalTorus, resolvedTorus, gridStep_linspace0 _ _ (le_refl 2), gridStep_linspace0 _ 3 (by norm_num)]; norm_num),
    C114_not_unique_partial generalTorus rfl 1⟩

end Verif
