import Verif.Model.Surface
import Verif.Spec.Deriv
import Verif.Spec.Rotation
import Mathlib.Analysis.SpecialFunctions.Trigonometric.Deriv
import Mathlib.Data.Nat.Choose.Sum
import Mathlib.Tactic.FieldSimp

/-! # Lemmas about trigonometric sums and surfaces -/

namespace Verif

open Real

/-- The `N`-th derivative of `cos`. -/
noncomputable def cosD (N : ℕ) (u : ℝ) : ℝ := if N % 2 = 0 then (-1) ^ (N / 2) * cos u else -((-1) ^ (N / 2) * sin u)

/-- The `N`-th derivative of `sin`. -/
noncomputable def sinD (N : ℕ) (u : ℝ) : ℝ := if N % 2 = 0 then (-1) ^ (N / 2) * sin u else (-1) ^ (N / 2) * cos u

theorem cosD_hasDerivAt (N : ℕ) (u : ℝ) : HasDerivAt (cosD N) (cosD (N + 1) u) u := by
  rcases Nat.mod_two_eq_zero_or_one N with h | h
  · have e : cosD N = fun u => (-1) ^ (N / 2) * cos u := by ext u; simp [cosD, h]
    have h1 : (N + 1) % 2 = 1 := by omega
    have h2 : (N + 1) / 2 = N / 2 := by omega
    rw [e]
    simp only [cosD, h1, h2]
    refine ((hasDerivAt_cos u).const_mul _).congr_deriv ?_
    simp
  · have e : cosD N = fun u => -((-1) ^ (N / 2) * sin u) := by ext u; simp [cosD, h]
    have h1 : (N + 1) % 2 = 0 := by omega
    have h2 : (N + 1) / 2 = N / 2 + 1 := by omega
    rw [e]
    simp only [cosD, h1, h2]
    refine ((hasDerivAt_sin u).const_mul _).neg.congr_deriv ?_
    simp [pow_succ]

theorem sinD_hasDerivAt (N : ℕ) (u : ℝ) : HasDerivAt (sinD N) (sinD (N + 1) u) u := by
  rcases Nat.mod_two_eq_zero_or_one N with h | h
  · have e : sinD N = fun u => (-1) ^ (N / 2) * sin u := by ext u; simp [sinD, h]
    have h1 : (N + 1) % 2 = 1 := by omega
    have h2 : (N + 1) / 2 = N / 2 := by omega
    rw [e]
    simp only [sinD, h1, h2]
    refine ((hasDerivAt_sin u).const_mul _).congr_deriv ?_
    simp
  · have e : sinD N = fun u => (-1) ^ (N / 2) * cos u := by ext u; simp [sinD, h]
    have h1 : (N + 1) % 2 = 0 := by omega
    have h2 : (N + 1) / 2 = N / 2 + 1 := by omega
    rw [e]
    simp only [sinD, h1, h2]
    refine ((hasDerivAt_cos u).const_mul _).congr_deriv ?_
    simp [pow_succ]

theorem cosD_add (N : ℕ) (u v : ℝ) : cosD N (u + v) = cos v * cosD N u - sin v * sinD N u := by
  unfold cosD sinD
  split_ifs
  · rw [cos_add]; ring
  · rw [sin_add]; ring

theorem sinD_add (N : ℕ) (u v : ℝ) : sinD N (u + v) = sin v * cosD N u + cos v * sinD N u := by
  unfold cosD sinD
  split_ifs
  · rw [sin_add]; ring
  · rw [cos_add]; ring

theorem cosD_neg (N : ℕ) (u : ℝ) : cosD N (-u) = (-1) ^ N * cosD N u := by
  rcases Nat.even_or_odd N with h | h
  · simp [cosD, Nat.even_iff.1 h, h.neg_one_pow]
  · simp [cosD, Nat.odd_iff.1 h, h.neg_one_pow]

theorem sinD_neg (N : ℕ) (u : ℝ) : sinD N (-u) = -((-1) ^ N * sinD N u) := by
  rcases Nat.even_or_odd N with h | h
  · simp [sinD, Nat.even_iff.1 h, h.neg_one_pow]
  · simp [sinD, Nat.odd_iff.1 h, h.neg_one_pow]

theorem cEntry_eq (nfp a b : ℕ) (phi theta : ℝ) (m n : ℤ) :
    cEntry nfp a b phi theta m n = (-(n : ℝ) * π * 2 * nfp) ^ a * ((m : ℝ) * π * 2) ^ b *
      cosD (a + b) (modeAngle nfp phi theta m n) := by
  unfold cEntry derivFactor cosD
  split_ifs <;> ring

theorem sEntry_eq (nfp a b : ℕ) (phi theta : ℝ) (m n : ℤ) :
    sEntry nfp a b phi theta m n = (-(n : ℝ) * π * 2 * nfp) ^ a * ((m : ℝ) * π * 2) ^ b *
      sinD (a + b) (modeAngle nfp phi theta m n) := by
  unfold sEntry derivFactor sinD
  split_ifs <;> ring

theorem modeAngle_phi (nfp : ℕ) (phi theta : ℝ) (m n : ℤ) :
    HasDerivAt (fun p => modeAngle nfp p theta m n) (-(n : ℝ) * π * 2 * nfp) phi := by
  unfold modeAngle
  refine (((hasDerivAt_id phi).const_mul ((n : ℝ) * π * 2 * nfp)).const_sub _).congr_deriv ?_
  ring

theorem modeAngle_theta (nfp : ℕ) (phi theta : ℝ) (m n : ℤ) :
    HasDerivAt (fun t => modeAngle nfp phi t m n) ((m : ℝ) * π * 2) theta := by
  unfold modeAngle
  refine (((hasDerivAt_id theta).const_mul ((m : ℝ) * π * 2)).sub_const _).congr_deriv ?_
  ring

theorem cEntry_phi (nfp a b : ℕ) (phi theta : ℝ) (m n : ℤ) :
    HasDerivAt (fun p => cEntry nfp a b p theta m n) (cEntry nfp (a + 1) b phi theta m n) phi := by
  simp only [cEntry_eq]
  refine (((cosD_hasDerivAt (a + b) _).comp phi (modeAngle_phi nfp phi theta m n)).const_mul _).congr_deriv ?_
  rw [show a + 1 + b = a + b + 1 by ring]
  ring

theorem cEntry_theta (nfp a b : ℕ) (phi theta : ℝ) (m n : ℤ) :
    HasDerivAt (fun t => cEntry nfp a b phi t m n) (cEntry nfp a (b + 1) phi theta m n) theta := by
  simp only [cEntry_eq]
  refine (((cosD_hasDerivAt (a + b) _).comp theta (modeAngle_theta nfp phi theta m n)).const_mul _).congr_deriv ?_
  rw [show a + (b + 1) = a + b + 1 by ring]
  ring

theorem sEntry_phi (nfp a b : ℕ) (phi theta : ℝ) (m n : ℤ) :
    HasDerivAt (fun p => sEntry nfp a b p theta m n) (sEntry nfp (a + 1) b phi theta m n) phi := by
  simp only [sEntry_eq]
  refine (((sinD_hasDerivAt (a + b) _).comp phi (modeAngle_phi nfp phi theta m n)).const_mul _).congr_deriv ?_
  rw [show a + 1 + b = a + b + 1 by ring]
  ring

theorem sEntry_theta (nfp a b : ℕ) (phi theta : ℝ) (m n : ℤ) :
    HasDerivAt (fun t => sEntry nfp a b phi t m n) (sEntry nfp a (b + 1) phi theta m n) theta := by
  simp only [sEntry_eq]
  refine (((sinD_hasDerivAt (a + b) _).comp theta (modeAngle_theta nfp phi theta m n)).const_mul _).congr_deriv ?_
  rw [show a + (b + 1) = a + b + 1 by ring]
  ring

/-! ## Rows -/

/-- The kind of a row of the operator: zero, cosine or sine of a mode. -/
inductive RowKind where
  | zero
  | cosine (m n : ℤ)
  | sine (m n : ℤ)

/-- The entry of a row. -/
noncomputable def RowKind.entry (nfp a b : ℕ) (phi theta : ℝ) : RowKind → ℝ
  | .zero => 0
  | .cosine m n => cEntry nfp a b phi theta m n
  | .sine m n => sEntry nfp a b phi theta m n

theorem RowKind.entry_phi (nfp a b : ℕ) (phi theta : ℝ) (r : RowKind) :
    HasDerivAt (fun p => r.entry nfp a b p theta) (r.entry nfp (a + 1) b phi theta) phi := by
  cases r with
  | zero => exact hasDerivAt_const _ _
  | cosine m n => exact cEntry_phi ..
  | sine m n => exact sEntry_phi ..

theorem RowKind.entry_theta (nfp a b : ℕ) (phi theta : ℝ) (r : RowKind) :
    HasDerivAt (fun t => r.entry nfp a b phi t) (r.entry nfp a (b + 1) phi theta) theta := by
  cases r with
  | zero => exact hasDerivAt_const _ _
  | cosine m n => exact cEntry_theta ..
  | sine m n => exact sEntry_theta ..

namespace SurfaceShape

variable (S : SurfaceShape)

/-- Cosine rows. -/
def cRows : List RowKind := List.zipWith RowKind.cosine (surfMc S.mpol S.ntor) (surfNc S.mpol S.ntor)
/-- Sine rows. -/
def sRows : List RowKind := List.zipWith RowKind.sine (surfMs S.mpol S.ntor) (surfNs S.mpol S.ntor)
/-- Rows of the r operator. -/
def rRows : List RowKind := if S.stellsym then S.cRows else S.cRows ++ S.sRows
/-- Rows of the z operator. -/
def zRows : List RowKind := if S.stellsym then S.sRows else S.cRows ++ S.sRows
/-- Rows of the padded r operator. -/
def rRowsP : List RowKind := S.rRows ++ S.zRows.map fun _ => .zero
/-- Rows of the padded z operator. -/
def zRowsP : List RowKind := (S.rRows.map fun _ => .zero) ++ S.zRows

theorem cmn_eq (a b : ℕ) (phi theta : ℝ) : S.cmn a b phi theta = S.cRows.map (RowKind.entry S.nfp a b phi theta) := by
  simp only [cmn, cRows, List.map_zipWith, RowKind.entry]

theorem smn_eq (a b : ℕ) (phi theta : ℝ) : S.smn a b phi theta = S.sRows.map (RowKind.entry S.nfp a b phi theta) := by
  simp only [smn, sRows, List.map_zipWith, RowKind.entry]

theorem rOperator_eq (a b : ℕ) (phi theta : ℝ) :
    S.rOperator a b phi theta = S.rRows.map (RowKind.entry S.nfp a b phi theta) := by
  unfold rOperator rRows
  split_ifs <;> simp [cmn_eq, smn_eq]

theorem zOperator_eq (a b : ℕ) (phi theta : ℝ) :
    S.zOperator a b phi theta = S.zRows.map (RowKind.entry S.nfp a b phi theta) := by
  unfold zOperator zRows
  split_ifs <;> simp [cmn_eq, smn_eq]

theorem rOperatorPadded_eq (a b : ℕ) (phi theta : ℝ) :
    S.rOperatorPadded a b phi theta = S.rRowsP.map (RowKind.entry S.nfp a b phi theta) := by
  simp only [rOperatorPadded, rRowsP, rOperator_eq, zOperator_eq, List.map_append, List.map_map]
  rfl

theorem zOperatorPadded_eq (a b : ℕ) (phi theta : ℝ) :
    S.zOperatorPadded a b phi theta = S.zRowsP.map (RowKind.entry S.nfp a b phi theta) := by
  simp only [zOperatorPadded, zRowsP, rOperator_eq, zOperator_eq, List.map_append, List.map_map]
  rfl

theorem applyRow_hasDerivAt (rows : List RowKind) (f : RowKind → ℝ → ℝ) (f' : RowKind → ℝ) (t : ℝ)
    (h : ∀ r, HasDerivAt (f r) (f' r) t) (dofs : List ℝ) :
    HasDerivAt (fun s => applyRow (rows.map fun r => f r s) dofs) (applyRow (rows.map f') dofs) t := by
  induction rows generalizing dofs with
  | nil => simpa [applyRow] using hasDerivAt_const t (0 : ℝ)
  | cons r rows ih =>
    cases dofs with
    | nil => simpa [applyRow] using hasDerivAt_const t (0 : ℝ)
    | cons d dofs =>
      have := ih dofs
      simp only [applyRow, List.map_cons, List.zipWith_cons_cons, List.sum_cons] at this ⊢
      exact ((h r).mul_const d).add this

theorem rDash_phi (dofs : List ℝ) (a b : ℕ) (phi theta : ℝ) :
    HasDerivAt (fun p => S.rDash dofs a b p theta) (S.rDash dofs (a + 1) b phi theta) phi := by
  simp only [rDash, rOperatorPadded_eq]
  exact applyRow_hasDerivAt _ (fun r p => r.entry S.nfp a b p theta) _ _ (fun r => r.entry_phi _ _ _ _ _) _

theorem rDash_theta (dofs : List ℝ) (a b : ℕ) (phi theta : ℝ) :
    HasDerivAt (fun t => S.rDash dofs a b phi t) (S.rDash dofs a (b + 1) phi theta) theta := by
  simp only [rDash, rOperatorPadded_eq]
  exact applyRow_hasDerivAt _ (fun r t => r.entry S.nfp a b phi t) _ _ (fun r => r.entry_theta _ _ _ _ _) _

theorem zDash_phi (dofs : List ℝ) (a b : ℕ) (phi theta : ℝ) :
    HasDerivAt (fun p => S.zDash dofs a b p theta) (S.zDash dofs (a + 1) b phi theta) phi := by
  simp only [zDash, zOperatorPadded_eq]
  exact applyRow_hasDerivAt _ (fun r p => r.entry S.nfp a b p theta) _ _ (fun r => r.entry_phi _ _ _ _ _) _

theorem zDash_theta (dofs : List ℝ) (a b : ℕ) (phi theta : ℝ) :
    HasDerivAt (fun t => S.zDash dofs a b phi t) (S.zDash dofs a (b + 1) phi theta) theta := by
  simp only [zDash, zOperatorPadded_eq]
  exact applyRow_hasDerivAt _ (fun r t => r.entry S.nfp a b phi t) _ _ (fun r => r.entry_theta _ _ _ _ _) _

/-! ## Cartesian position -/

theorem binomialCoef_eq (a k : ℕ) (h : k ≤ a) : binomialCoef a k = (a.choose k : ℝ) := by
  rw [binomialCoef, Nat.cast_choose ℝ h, div_div]

/-- The Leibniz sum. -/
noncomputable def leibniz (f g : ℕ → ℝ) (a : ℕ) : ℝ :=
  ∑ ij ∈ Finset.antidiagonal a, (a.choose ij.1 : ℝ) * (f ij.1 * g ij.2)

theorem list_range_sum (f : ℕ → ℝ) (n : ℕ) : ((List.range n).map f).sum = ∑ k ∈ Finset.range n, f k := by
  induction n with
  | zero => simp
  | succ n ih => rw [List.range_succ, Finset.sum_range_succ, List.map_append, List.sum_append, ih]; simp

theorem xTerm_sum (dofs : List ℝ) (a b : ℕ) (phi theta : ℝ) :
    ((List.range (a + 1)).map (S.xTerm dofs a b phi theta)).sum =
      leibniz (fun k => S.rDash dofs k b phi theta) (fun j => (π * 2) ^ j * cosD j (phi * π * 2)) a := by
  rw [list_range_sum, leibniz, Finset.Nat.sum_antidiagonal_eq_sum_range_succ_mk]
  refine Finset.sum_congr rfl fun k hk => ?_
  rw [Finset.mem_range] at hk
  simp only [xTerm, trigFactor, binomialCoef_eq a k (by omega), cosD]
  split_ifs <;> ring

theorem yTerm_sum (dofs : List ℝ) (a b : ℕ) (phi theta : ℝ) :
    ((List.range (a + 1)).map (S.yTerm dofs a b phi theta)).sum =
      leibniz (fun k => S.rDash dofs k b phi theta) (fun j => (π * 2) ^ j * sinD j (phi * π * 2)) a := by
  rw [list_range_sum, leibniz, Finset.Nat.sum_antidiagonal_eq_sum_range_succ_mk]
  refine Finset.sum_congr rfl fun k hk => ?_
  rw [Finset.mem_range] at hk
  simp only [yTerm, trigFactor, binomialCoef_eq a k (by omega), sinD]
  split_ifs <;> ring

theorem leibniz_hasDerivAt (f g : ℕ → ℝ → ℝ) (t : ℝ) (hf : ∀ k, HasDerivAt (f k) (f (k + 1) t) t)
    (hg : ∀ k, HasDerivAt (g k) (g (k + 1) t) t) (a : ℕ) :
    HasDerivAt (fun s => leibniz (fun k => f k s) (fun j => g j s) a)
      (leibniz (fun k => f k t) (fun j => g j t) (a + 1)) t := by
  unfold leibniz
  rw [Finset.sum_antidiagonal_choose_succ_mul (fun i j => f i t * g j t) a, ← Finset.sum_add_distrib]
  refine HasDerivAt.fun_sum fun ij hij => ?_
  refine (((hf ij.1).mul (hg ij.2)).const_mul _).congr_deriv ?_
  rw [Finset.mem_antidiagonal] at hij
  have : (a.choose ij.2 : ℝ) = a.choose ij.1 := by
    rw [← hij, Nat.choose_symm_add]
  rw [this]
  ring

theorem leibniz_congr (f f' g g' : ℕ → ℝ) (hf : ∀ k, f k = f' k) (hg : ∀ k, g k = g' k) (a : ℕ) :
    leibniz f g a = leibniz f' g' a := by
  rw [show f = f' from funext hf, show g = g' from funext hg]

theorem leibniz_lin (f g h : ℕ → ℝ) (c d : ℝ) (a : ℕ) :
    leibniz f (fun j => c * g j + d * h j) a = c * leibniz f g a + d * leibniz f h a := by
  unfold leibniz
  rw [Finset.mul_sum, Finset.mul_sum, ← Finset.sum_add_distrib]
  exact Finset.sum_congr rfl fun ij _ => by ring

theorem cosD_scaled (j : ℕ) (phi : ℝ) :
    HasDerivAt (fun p => (π * 2) ^ j * cosD j (p * π * 2)) ((π * 2) ^ (j + 1) * cosD (j + 1) (phi * π * 2)) phi := by
  have h : HasDerivAt (fun p : ℝ => p * π * 2) (π * 2) phi := by
    refine (((hasDerivAt_id phi).mul_const π).mul_const 2).congr_deriv ?_
    ring
  refine (((cosD_hasDerivAt j _).comp phi h).const_mul _).congr_deriv ?_
  ring

theorem sinD_scaled (j : ℕ) (phi : ℝ) :
    HasDerivAt (fun p => (π * 2) ^ j * sinD j (p * π * 2)) ((π * 2) ^ (j + 1) * sinD (j + 1) (phi * π * 2)) phi := by
  have h : HasDerivAt (fun p : ℝ => p * π * 2) (π * 2) phi := by
    refine (((hasDerivAt_id phi).mul_const π).mul_const 2).congr_deriv ?_
    ring
  refine (((sinD_hasDerivAt j _).comp phi h).const_mul _).congr_deriv ?_
  ring

/-! ## Symmetries -/

theorem applyRow_congr (rows : List RowKind) (f g : RowKind → ℝ) (h : ∀ r ∈ rows, f r = g r) (dofs : List ℝ) :
    applyRow (rows.map f) dofs = applyRow (rows.map g) dofs := by
  rw [List.map_congr_left h]

theorem applyRow_smul (rows : List RowKind) (f : RowKind → ℝ) (c : ℝ) (dofs : List ℝ) :
    applyRow (rows.map fun r => c * f r) dofs = c * applyRow (rows.map f) dofs := by
  induction rows generalizing dofs with
  | nil => simp [applyRow]
  | cons r rows ih =>
    cases dofs with
    | nil => simp [applyRow]
    | cons d dofs =>
      have := ih dofs
      simp only [applyRow, List.map_cons, List.zipWith_cons_cons, List.sum_cons] at this ⊢
      rw [this]
      ring

theorem cosD_sub_int (N : ℕ) (u : ℝ) (k : ℤ) : cosD N (u + (k : ℝ) * (2 * π)) = cosD N u := by
  rw [cosD_add, Real.cos_int_mul_two_pi]
  rw [show sin ((k : ℝ) * (2 * π)) = 0 by
    have := Real.sin_int_mul_pi (2 * k)
    rw [← this]
    push_cast
    ring_nf]
  ring

theorem sinD_sub_int (N : ℕ) (u : ℝ) (k : ℤ) : sinD N (u + (k : ℝ) * (2 * π)) = sinD N u := by
  rw [sinD_add, Real.cos_int_mul_two_pi]
  rw [show sin ((k : ℝ) * (2 * π)) = 0 by
    have := Real.sin_int_mul_pi (2 * k)
    rw [← this]
    push_cast
    ring_nf]
  ring

theorem entry_shift_phi (nfp : ℕ) (hn : nfp ≠ 0) (a b : ℕ) (phi theta : ℝ) (j : ℤ) (r : RowKind) :
    r.entry nfp a b (phi + j / nfp) theta = r.entry nfp a b phi theta := by
  have hn' : (nfp : ℝ) ≠ 0 := by exact_mod_cast hn
  have key : ∀ m n : ℤ, modeAngle nfp (phi + j / nfp) theta m n =
      modeAngle nfp phi theta m n + ((-(n * j) : ℤ) : ℝ) * (2 * π) := by
    intro m n
    simp only [modeAngle]
    push_cast
    field_simp
    ring
  cases r with
  | zero => rfl
  | cosine m n => simp only [RowKind.entry, cEntry_eq, key, cosD_sub_int]
  | sine m n => simp only [RowKind.entry, sEntry_eq, key, sinD_sub_int]

theorem entry_shift_theta (nfp : ℕ) (a b : ℕ) (phi theta : ℝ) (j : ℤ) (r : RowKind) :
    r.entry nfp a b phi (theta + j) = r.entry nfp a b phi theta := by
  have key : ∀ m n : ℤ, modeAngle nfp phi (theta + j) m n =
      modeAngle nfp phi theta m n + ((m * j : ℤ) : ℝ) * (2 * π) := by
    intro m n
    simp only [modeAngle]
    push_cast
    ring
  cases r with
  | zero => rfl
  | cosine m n => simp only [RowKind.entry, cEntry_eq, key, cosD_sub_int]
  | sine m n => simp only [RowKind.entry, sEntry_eq, key, sinD_sub_int]

theorem rDash_shift_phi (hn : S.nfp ≠ 0) (dofs : List ℝ) (a b : ℕ) (phi theta : ℝ) (j : ℤ) :
    S.rDash dofs a b (phi + j / S.nfp) theta = S.rDash dofs a b phi theta := by
  simp only [rDash, rOperatorPadded_eq]
  exact applyRow_congr _ _ _ (fun r _ => entry_shift_phi _ hn _ _ _ _ _ _) _

theorem zDash_shift_phi (hn : S.nfp ≠ 0) (dofs : List ℝ) (a b : ℕ) (phi theta : ℝ) (j : ℤ) :
    S.zDash dofs a b (phi + j / S.nfp) theta = S.zDash dofs a b phi theta := by
  simp only [zDash, zOperatorPadded_eq]
  exact applyRow_congr _ _ _ (fun r _ => entry_shift_phi _ hn _ _ _ _ _ _) _

theorem rDash_shift_theta (dofs : List ℝ) (a b : ℕ) (phi theta : ℝ) (j : ℤ) :
    S.rDash dofs a b phi (theta + j) = S.rDash dofs a b phi theta := by
  simp only [rDash, rOperatorPadded_eq]
  exact applyRow_congr _ _ _ (fun r _ => entry_shift_theta _ _ _ _ _ _ _) _

theorem zDash_shift_theta (dofs : List ℝ) (a b : ℕ) (phi theta : ℝ) (j : ℤ) :
    S.zDash dofs a b phi (theta + j) = S.zDash dofs a b phi theta := by
  simp only [zDash, zOperatorPadded_eq]
  exact applyRow_congr _ _ _ (fun r _ => entry_shift_theta _ _ _ _ _ _ _) _

theorem modeAngle_neg (nfp : ℕ) (phi theta : ℝ) (m n : ℤ) :
    modeAngle nfp (-phi) (-theta) m n = -modeAngle nfp phi theta m n := by
  simp only [modeAngle]
  ring

theorem mem_rRowsP_stellsym (h : S.stellsym = true) (r : RowKind) (hr : r ∈ S.rRowsP) :
    r = .zero ∨ ∃ m n, r = .cosine m n := by
  simp only [rRowsP, rRows, h, if_true, List.mem_append, List.mem_map] at hr
  rcases hr with hr | ⟨_, _, rfl⟩
  · right
    simp only [cRows, List.mem_iff_getElem, List.getElem_zipWith] at hr
    obtain ⟨i, hi, rfl⟩ := hr
    exact ⟨_, _, rfl⟩
  · exact Or.inl rfl

theorem mem_zRowsP_stellsym (h : S.stellsym = true) (r : RowKind) (hr : r ∈ S.zRowsP) :
    r = .zero ∨ ∃ m n, r = .sine m n := by
  simp only [zRowsP, zRows, h, if_true, List.mem_append, List.mem_map] at hr
  rcases hr with ⟨_, _, rfl⟩ | hr
  · exact Or.inl rfl
  · right
    simp only [sRows, List.mem_iff_getElem, List.getElem_zipWith] at hr
    obtain ⟨i, hi, rfl⟩ := hr
    exact ⟨_, _, rfl⟩

theorem rDash_neg (h : S.stellsym = true) (dofs : List ℝ) (a b : ℕ) (phi theta : ℝ) :
    S.rDash dofs a b (-phi) (-theta) = (-1) ^ (a + b) * S.rDash dofs a b phi theta := by
  simp only [rDash, rOperatorPadded_eq]
  rw [← applyRow_smul]
  refine applyRow_congr _ _ _ (fun r hr => ?_) _
  rcases S.mem_rRowsP_stellsym h r hr with rfl | ⟨m, n, rfl⟩
  · simp [RowKind.entry]
  · simp only [RowKind.entry, cEntry_eq, modeAngle_neg, cosD_neg]
    ring

theorem zDash_neg (h : S.stellsym = true) (dofs : List ℝ) (a b : ℕ) (phi theta : ℝ) :
    S.zDash dofs a b (-phi) (-theta) = (-1) ^ (a + b) * -S.zDash dofs a b phi theta := by
  simp only [zDash, zOperatorPadded_eq]
  rw [show ∀ x : ℝ, (-1) ^ (a + b) * -x = (-(-1) ^ (a + b)) * x by intro x; ring]
  rw [← applyRow_smul]
  refine applyRow_congr _ _ _ (fun r hr => ?_) _
  rcases S.mem_zRowsP_stellsym h r hr with rfl | ⟨m, n, rfl⟩
  · simp [RowKind.entry]
  · simp only [RowKind.entry, sEntry_eq, modeAngle_neg, sinD_neg]
    ring

theorem leibniz_parity (f g : ℕ → ℝ) (b a : ℕ) :
    leibniz (fun k => (-1) ^ (k + b) * f k) (fun j => (-1) ^ j * g j) a = (-1) ^ (a + b) * leibniz f g a := by
  unfold leibniz
  rw [Finset.mul_sum]
  refine Finset.sum_congr rfl fun ij hij => ?_
  rw [Finset.mem_antidiagonal] at hij
  rw [← hij]
  simp only [pow_add]
  ring

theorem leibniz_hasDerivAt_left (f : ℕ → ℝ → ℝ) (f' : ℕ → ℝ) (g : ℕ → ℝ) (t : ℝ)
    (hf : ∀ k, HasDerivAt (f k) (f' k) t) (a : ℕ) :
    HasDerivAt (fun s => leibniz (fun k => f k s) g a) (leibniz f' g a) t := by
  unfold leibniz
  refine HasDerivAt.fun_sum fun ij _ => ?_
  exact ((hf ij.1).mul_const _).const_mul _

end SurfaceShape

end Verif
