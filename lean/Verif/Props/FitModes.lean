import Verif.Props.WindingSurface
import Verif.Props.Unique
import Verif.Lemmas.TrigZeros

/-!
# Columns of the surface fit, and its normal equations
-/

namespace Verif

open Real

namespace SurfaceShape

variable (S : SurfaceShape)

/-! ## Columns -/

/-- The modes of the cosines. -/
def cosModes : List (ℤ × ℤ) := modePairs (surfMc S.mpol S.ntor, surfNc S.mpol S.ntor)
/-- The modes of the sines. -/
def sinModes : List (ℤ × ℤ) := modePairs (surfMs S.mpol S.ntor, surfNs S.mpol S.ntor)

/-- For every column of the fit, what it adds to `R`, what it adds to `Z`, and its Tikhonov weight. -/
def fitColumns : List (RowKind × RowKind × ℤ) :=
  if S.stellsym then
    S.cosModes.map (fun p => (.cosine p.1 p.2, .zero, p.1 ^ 2 + p.2 ^ 2)) ++ S.sinModes.map fun p => (.zero, .sine p.1 p.2, p.1 ^ 2 + p.2 ^ 2)
  else
    S.cosModes.map (fun p => (.cosine p.1 p.2, .zero, p.1 ^ 2 + p.2 ^ 2)) ++
      S.sinModes.map (fun p => (.sine p.1 p.2, .zero, p.1 ^ 2 + p.2 ^ 2)) ++
      (S.cosModes.map (fun p => (.zero, .cosine p.1 p.2, p.1 ^ 2 + p.2 ^ 2)) ++
        S.sinModes.map fun p => (.zero, .sine p.1 p.2, p.1 ^ 2 + p.2 ^ 2))

theorem cRows_eq_modes : S.cRows = S.cosModes.map fun p => RowKind.cosine p.1 p.2 := by
  rw [cRows, cosModes, modePairs, ← List.map_uncurry_zip_eq_zipWith]
  rfl

theorem sRows_eq_modes : S.sRows = S.sinModes.map fun p => RowKind.sine p.1 p.2 := by
  rw [sRows, sinModes, modePairs, ← List.map_uncurry_zip_eq_zipWith]
  rfl

theorem fitColumns_r : S.fitColumns.map (fun t => t.1) = S.rRowsP := by
  rw [fitColumns, rRowsP, rRows, zRows, cRows_eq_modes, sRows_eq_modes]
  split_ifs <;> simp [List.map_map, Function.comp_def]

theorem fitColumns_z : S.fitColumns.map (fun t => t.2.1) = S.zRowsP := by
  rw [fitColumns, zRowsP, rRows, zRows, cRows_eq_modes, sRows_eq_modes]
  split_ifs
  · simp [List.map_map, Function.comp_def]
  · simp only [List.map_append, List.map_map, Function.comp_def, List.append_assoc]

theorem fitColumns_weight : S.fitColumns.map (fun t => t.2.2) = S.m2n2 := by
  have h := C52_regularisation_weights S
  simp only at h
  rw [h, fitColumns, cosModes, sinModes]
  split_ifs <;> simp [List.map_map, Function.comp_def]

theorem fitColumns_length : S.fitColumns.length = S.fitSize := by
  rw [fitSize, ← fitColumns_weight, List.length_map]

/-- Column `k`. -/
def column (k : Fin S.fitSize) : RowKind × RowKind × ℤ := S.fitColumns[k]'(by rw [fitColumns_length]; exact k.isLt)

theorem column_mem (k : Fin S.fitSize) : S.column k ∈ S.fitColumns := List.getElem_mem _

theorem column_weight (k : Fin S.fitSize) : S.m2n2[k] = (S.column k).2.2 := by
  have h : ∀ (l : List ℤ) (hl : S.fitColumns.map (fun t => t.2.2) = l) (i : ℕ) (hi : i < l.length),
      l[i] = (S.fitColumns[i]'(by rw [← hl, List.length_map] at hi; exact hi)).2.2 := by
    intro l hl i hi
    subst hl
    simp
  exact h _ S.fitColumns_weight k k.isLt

theorem exists_column {t : RowKind × RowKind × ℤ} (h : t ∈ S.fitColumns) : ∃ k, S.column k = t := by
  obtain ⟨i, hi, e⟩ := List.getElem_of_mem h
  exact ⟨⟨i, by rw [← fitColumns_length]; exact hi⟩, e⟩

theorem rDash_columns (x : Fin S.fitSize → ℝ) (phi theta : ℝ) :
    S.rDash (List.ofFn x) 0 0 phi theta = ∑ k, (S.column k).1.entry S.nfp 0 0 phi theta * x k := by
  rw [rDash, applyRow_ofFn _ _ (S.fitSize_eq phi theta).symm, rOperatorPadded_eq, ← fitColumns_r]
  refine Finset.sum_congr rfl fun k _ => ?_
  have hk : (k : ℕ) < S.fitColumns.length := by rw [fitColumns_length]; exact k.isLt
  simp [column, List.getD_eq_getElem?_getD, hk]

theorem zDash_columns (x : Fin S.fitSize → ℝ) (phi theta : ℝ) :
    S.zDash (List.ofFn x) 0 0 phi theta = ∑ k, (S.column k).2.1.entry S.nfp 0 0 phi theta * x k := by
  rw [zDash, applyRow_ofFn _ _ (S.fitSize_eq_z phi theta).symm, zOperatorPadded_eq, ← fitColumns_z]
  refine Finset.sum_congr rfl fun k _ => ?_
  have hk : (k : ℕ) < S.fitColumns.length := by rw [fitColumns_length]; exact k.isLt
  simp [column, List.getD_eq_getElem?_getD, hk]

theorem rDash_single (k : Fin S.fitSize) (c phi theta : ℝ) :
    S.rDash (List.ofFn (Pi.single k c)) 0 0 phi theta = c * (S.column k).1.entry S.nfp 0 0 phi theta := by
  rw [rDash_columns, Finset.sum_eq_single k]
  · rw [Pi.single_eq_same, mul_comm]
  · intro l _ hl
    rw [Pi.single_eq_of_ne hl, mul_zero]
  · intro h
    exact absurd (Finset.mem_univ k) h

theorem zDash_single (k : Fin S.fitSize) (c phi theta : ℝ) :
    S.zDash (List.ofFn (Pi.single k c)) 0 0 phi theta = c * (S.column k).2.1.entry S.nfp 0 0 phi theta := by
  rw [zDash_columns, Finset.sum_eq_single k]
  · rw [Pi.single_eq_same, mul_comm]
  · intro l _ hl
    rw [Pi.single_eq_of_ne hl, mul_zero]
  · intro h
    exact absurd (Finset.mem_univ k) h

theorem rDash_add (x y : Fin S.fitSize → ℝ) (phi theta : ℝ) :
    S.rDash (List.ofFn (x + y)) 0 0 phi theta = S.rDash (List.ofFn x) 0 0 phi theta + S.rDash (List.ofFn y) 0 0 phi theta := by
  simp only [rDash_columns, Pi.add_apply, mul_add, Finset.sum_add_distrib]

theorem zDash_add (x y : Fin S.fitSize → ℝ) (phi theta : ℝ) :
    S.zDash (List.ofFn (x + y)) 0 0 phi theta = S.zDash (List.ofFn x) 0 0 phi theta + S.zDash (List.ofFn y) 0 0 phi theta := by
  simp only [zDash_columns, Pi.add_apply, mul_add, Finset.sum_add_distrib]

theorem rDash_sub (x y : Fin S.fitSize → ℝ) (phi theta : ℝ) :
    S.rDash (List.ofFn (x - y)) 0 0 phi theta = S.rDash (List.ofFn x) 0 0 phi theta - S.rDash (List.ofFn y) 0 0 phi theta := by
  simp only [rDash_columns, Pi.sub_apply, mul_sub, Finset.sum_sub_distrib]

theorem zDash_sub (x y : Fin S.fitSize → ℝ) (phi theta : ℝ) :
    S.zDash (List.ofFn (x - y)) 0 0 phi theta = S.zDash (List.ofFn x) 0 0 phi theta - S.zDash (List.ofFn y) 0 0 phi theta := by
  simp only [zDash_columns, Pi.sub_apply, mul_sub, Finset.sum_sub_distrib]

/-! ## Modes -/

theorem mem_sinModes {m n : ℤ} : (m, n) ∈ S.sinModes ↔ (m = 0 ∧ 0 < n ∧ n ≤ S.ntor) ∨ (0 < m ∧ m ≤ S.mpol ∧ |n| ≤ S.ntor) :=
  (C37_modes_complete S.mpol S.ntor).2.2 m n

theorem cosModes_eq : S.cosModes = (0, 0) :: S.sinModes := (C37_modes_complete S.mpol S.ntor).2.1

theorem cos_column {m n : ℤ} (h : (m, n) ∈ S.cosModes) : ∃ k, S.column k = (.cosine m n, .zero, m ^ 2 + n ^ 2) := by
  apply S.exists_column
  rw [fitColumns]
  split_ifs
  · exact List.mem_append_left _ (List.mem_map.2 ⟨_, h, rfl⟩)
  · exact List.mem_append_left _ (List.mem_append_left _ (List.mem_map.2 ⟨_, h, rfl⟩))

theorem sin_column {m n : ℤ} (h : (m, n) ∈ S.sinModes) : ∃ k, S.column k = (.zero, .sine m n, m ^ 2 + n ^ 2) := by
  apply S.exists_column
  rw [fitColumns]
  split_ifs
  · exact List.mem_append_right _ (List.mem_map.2 ⟨_, h, rfl⟩)
  · exact List.mem_append_right _ (List.mem_append_right _ (List.mem_map.2 ⟨_, h, rfl⟩))

end SurfaceShape

/-- The mode numbers of a row are at most `mpol` and `ntor`. -/
def RowKind.Within (mpol ntor : ℕ) : RowKind → Prop
  | .zero => True
  | .cosine m n => |m| ≤ mpol ∧ |n| ≤ ntor
  | .sine m n => |m| ≤ mpol ∧ |n| ≤ ntor

theorem cEntry_zero (nfp : ℕ) (phi theta : ℝ) (m n : ℤ) : cEntry nfp 0 0 phi theta m n = cos (2 * π * (m * theta - n * (nfp * phi))) := by
  simp only [cEntry, derivFactor, modeAngle]
  norm_num
  congr 1
  ring

theorem sEntry_zero (nfp : ℕ) (phi theta : ℝ) (m n : ℤ) : sEntry nfp 0 0 phi theta m n = sin (2 * π * (m * theta - n * (nfp * phi))) := by
  simp only [sEntry, derivFactor, modeAngle]
  norm_num
  congr 1
  ring

theorem RowKind.trig_theta {mpol ntor : ℕ} {r : RowKind} (h : r.Within mpol ntor) (nfp : ℕ) (phi : ℝ) :
    IsTrig mpol fun t => r.entry nfp 0 0 phi t := by
  cases r with
  | zero => exact IsTrig.zero _
  | cosine m n =>
    have e : (fun t => (RowKind.cosine m n).entry nfp 0 0 phi t) = fun t => cos (2 * π * m * t + -(2 * π * (n * (nfp * phi)))) := by
      funext t
      rw [RowKind.entry, cEntry_zero]
      congr 1
      ring
    rw [e]
    exact IsTrig.cos h.1 _
  | sine m n =>
    have e : (fun t => (RowKind.sine m n).entry nfp 0 0 phi t) = fun t => sin (2 * π * m * t + -(2 * π * (n * (nfp * phi)))) := by
      funext t
      rw [RowKind.entry, sEntry_zero]
      congr 1
      ring
    rw [e]
    exact IsTrig.sin h.1 _

theorem RowKind.trig_phi {mpol ntor : ℕ} {r : RowKind} (h : r.Within mpol ntor) {nfp : ℕ} (hf : nfp ≠ 0) (theta : ℝ) :
    IsTrig ntor fun t => r.entry nfp 0 0 (t / nfp) theta := by
  have hf' : (nfp : ℝ) ≠ 0 := by exact_mod_cast hf
  cases r with
  | zero => exact IsTrig.zero _
  | cosine m n =>
    have e : (fun t : ℝ => (RowKind.cosine m n).entry nfp 0 0 (t / nfp) theta) =
        fun t => cos (2 * π * ((-n : ℤ) : ℝ) * t + 2 * π * (m * theta)) := by
      funext t
      rw [RowKind.entry, cEntry_zero, mul_div_cancel₀ _ hf']
      congr 1
      push_cast
      ring
    rw [e]
    exact IsTrig.cos (by rw [abs_neg]; exact h.2) _
  | sine m n =>
    have e : (fun t : ℝ => (RowKind.sine m n).entry nfp 0 0 (t / nfp) theta) =
        fun t => sin (2 * π * ((-n : ℤ) : ℝ) * t + 2 * π * (m * theta)) := by
      funext t
      rw [RowKind.entry, sEntry_zero, mul_div_cancel₀ _ hf']
      congr 1
      push_cast
      ring
    rw [e]
    exact IsTrig.sin (by rw [abs_neg]; exact h.2) _

namespace SurfaceShape

variable (S : SurfaceShape)

theorem mode_within {p : ℤ × ℤ} (h : p ∈ S.cosModes) : |p.1| ≤ S.mpol ∧ |p.2| ≤ S.ntor := by
  obtain ⟨m, n⟩ := p
  rw [cosModes_eq, List.mem_cons] at h
  rcases h with h | h
  · simp only [Prod.mk.injEq] at h
    simp [h.1, h.2]
  · rcases S.mem_sinModes.1 h with h | h
    · simp only [h.1, abs_zero, abs_of_pos h.2.1]
      omega
    · simp only [abs_of_pos h.1]
      omega

theorem column_within (k : Fin S.fitSize) : (S.column k).1.Within S.mpol S.ntor ∧ (S.column k).2.1.Within S.mpol S.ntor := by
  have h := S.column_mem k
  have hs : ∀ {p : ℤ × ℤ}, p ∈ S.sinModes → p ∈ S.cosModes := fun hp => by rw [cosModes_eq]; exact List.mem_cons_of_mem _ hp
  rw [fitColumns] at h
  split_ifs at h
  · rcases List.mem_append.1 h with h | h
    · obtain ⟨p, hp, e⟩ := List.mem_map.1 h
      rw [← e]
      exact ⟨S.mode_within hp, trivial⟩
    · obtain ⟨p, hp, e⟩ := List.mem_map.1 h
      rw [← e]
      exact ⟨trivial, S.mode_within (hs hp)⟩
  · rcases List.mem_append.1 h with h | h <;> rcases List.mem_append.1 h with h | h <;> obtain ⟨p, hp, e⟩ := List.mem_map.1 h <;> rw [← e]
    · exact ⟨S.mode_within hp, trivial⟩
    · exact ⟨S.mode_within (hs hp), trivial⟩
    · exact ⟨trivial, S.mode_within hp⟩
    · exact ⟨trivial, S.mode_within (hs hp)⟩

theorem rDash_trig_theta (x : Fin S.fitSize → ℝ) (phi : ℝ) : IsTrig S.mpol fun t => S.rDash (List.ofFn x) 0 0 phi t := by
  simp only [rDash_columns]
  refine IsTrig.sum _ fun k _ => ?_
  simpa only [mul_comm] using (RowKind.trig_theta (S.column_within k).1 S.nfp phi).const_mul (x k)

theorem zDash_trig_theta (x : Fin S.fitSize → ℝ) (phi : ℝ) : IsTrig S.mpol fun t => S.zDash (List.ofFn x) 0 0 phi t := by
  simp only [zDash_columns]
  refine IsTrig.sum _ fun k _ => ?_
  simpa only [mul_comm] using (RowKind.trig_theta (S.column_within k).2 S.nfp phi).const_mul (x k)

theorem rDash_trig_phi (hf : S.nfp ≠ 0) (x : Fin S.fitSize → ℝ) (theta : ℝ) :
    IsTrig S.ntor fun t => S.rDash (List.ofFn x) 0 0 (t / S.nfp) theta := by
  simp only [rDash_columns]
  refine IsTrig.sum _ fun k _ => ?_
  simpa only [mul_comm] using (RowKind.trig_phi (S.column_within k).1 hf theta).const_mul (x k)

theorem zDash_trig_phi (hf : S.nfp ≠ 0) (x : Fin S.fitSize → ℝ) (theta : ℝ) :
    IsTrig S.ntor fun t => S.zDash (List.ofFn x) 0 0 (t / S.nfp) theta := by
  simp only [zDash_columns]
  refine IsTrig.sum _ fun k _ => ?_
  simpa only [mul_comm] using (RowKind.trig_phi (S.column_within k).2 hf theta).const_mul (x k)

/-! ## Normal equations -/

open Matrix

/-- A fit is stationary in every direction. -/
theorem fit_stationary {lam : ℝ} {pts : List FitPoint} {x : Fin S.fitSize → ℝ} (hx : S.IsFit lam pts x) (v : Fin S.fitSize → ℝ) :
    (pts.map fun p => p.w ^ 2 * ((S.rDash (List.ofFn x) 0 0 p.phi p.theta - p.r) * S.rDash (List.ofFn v) 0 0 p.phi p.theta +
      (S.zDash (List.ofFn x) 0 0 p.phi p.theta - p.z) * S.zDash (List.ofFn v) 0 0 p.phi p.theta)).sum +
    lam * ∑ k, ((S.m2n2[k] : ℤ) : ℝ) * x k * v k = 0 := by
  rw [IsFit, fitReg_eq] at hx
  have key : ∑ i, ((S.fitMatrix pts *ᵥ x) i - S.fitRhs pts i) * (S.fitMatrix pts *ᵥ v) i =
      -∑ k, lam * ((S.m2n2[k] : ℤ) : ℝ) * x k * v k := by
    generalize S.fitMatrix pts = A at hx ⊢
    generalize S.fitRhs pts = b at hx ⊢
    have e1 : ∑ i, ((A *ᵥ x) i - b i) * (A *ᵥ v) i = (A *ᵥ x - b) ⬝ᵥ (A *ᵥ v) := rfl
    have e2 : Aᵀ *ᵥ (A *ᵥ x - b) = -(Matrix.diagonal (fun k : Fin S.fitSize => lam * ((S.m2n2[k] : ℤ) : ℝ)) *ᵥ x) := by
      rw [Matrix.add_mulVec, ← Matrix.mulVec_mulVec] at hx
      rw [Matrix.mulVec_sub, ← hx]
      abel
    rw [e1, Matrix.dotProduct_mulVec, ← Matrix.mulVec_transpose, e2]
    simp [dotProduct, Matrix.mulVec_diagonal, Finset.sum_neg_distrib]
  have h : ∀ i, ((S.fitMatrix pts *ᵥ x) i - S.fitRhs pts i) * (S.fitMatrix pts *ᵥ v) i =
      (fun r : List ℝ × ℝ => (applyRow r.1 (List.ofFn x) - r.2) * applyRow r.1 (List.ofFn v)) (S.fitRows pts)[i] := by
    intro i
    rw [fitMatrix_mulVec, fitMatrix_mulVec]
    rfl
  rw [Finset.sum_congr rfl fun i _ => h i, S.sum_rows pts fun r => (applyRow r.1 (List.ofFn x) - r.2) * applyRow r.1 (List.ofFn v),
    fitRows, flatMap_sum] at key
  have e : (pts.map fun p => p.w ^ 2 * ((S.rDash (List.ofFn x) 0 0 p.phi p.theta - p.r) * S.rDash (List.ofFn v) 0 0 p.phi p.theta +
      (S.zDash (List.ofFn x) 0 0 p.phi p.theta - p.z) * S.zDash (List.ofFn v) 0 0 p.phi p.theta)).sum =
      -∑ k, lam * ((S.m2n2[k] : ℤ) : ℝ) * x k * v k := by
    rw [← key]
    congr 1
    apply List.map_congr_left
    intro p _
    simp only [List.map_cons, List.map_nil, List.sum_cons, List.sum_nil, applyRow_scaled, rDash, zDash]
    ring
  rw [e, Finset.mul_sum, neg_add_eq_zero]
  exact Finset.sum_congr rfl fun k _ => by ring

/-! ## Coefficients -/

theorem cos_column_unique {m n : ℤ} {k l : Fin S.fitSize} (hk : (S.column k).1 = .cosine m n) (hl : (S.column l).1 = .cosine m n) : k = l := by
  have key : ∀ (rest : List (RowKind × RowKind × ℤ)) (hrest : ∀ t ∈ rest, t.1 ≠ .cosine m n)
      (e : S.fitColumns = S.cosModes.map (fun p => (.cosine p.1 p.2, .zero, p.1 ^ 2 + p.2 ^ 2)) ++ rest) (i : ℕ) (hi : i < S.fitColumns.length),
      (S.fitColumns[i]).1 = .cosine m n → ∃ h : i < S.cosModes.length, S.cosModes[i] = (m, n) := by
    intro rest hrest e i hi h
    simp only [e] at h
    by_cases hc : i < S.cosModes.length
    · rw [List.getElem_append_left (by simpa using hc)] at h
      simp only [List.getElem_map, RowKind.cosine.injEq] at h
      exact ⟨hc, Prod.ext h.1 h.2⟩
    · rw [List.getElem_append_right (by simpa using hc)] at h
      exact absurd h (hrest _ (List.getElem_mem _))
  have hex : ∃ rest : List (RowKind × RowKind × ℤ), (∀ t ∈ rest, t.1 ≠ .cosine m n) ∧
      S.fitColumns = S.cosModes.map (fun p => (.cosine p.1 p.2, .zero, p.1 ^ 2 + p.2 ^ 2)) ++ rest := by
    rw [fitColumns]
    split_ifs
    · refine ⟨_, ?_, rfl⟩
      intro t ht
      obtain ⟨p, -, rfl⟩ := List.mem_map.1 ht
      simp
    · refine ⟨_, ?_, List.append_assoc _ _ _⟩
      intro t ht
      rcases List.mem_append.1 ht with ht | ht
      · obtain ⟨p, -, rfl⟩ := List.mem_map.1 ht
        simp
      · rcases List.mem_append.1 ht with ht | ht <;> obtain ⟨p, -, rfl⟩ := List.mem_map.1 ht <;> simp
  obtain ⟨rest, h1, h2⟩ := hex
  obtain ⟨a1, a2⟩ := key rest h1 h2 k (by rw [fitColumns_length]; exact k.isLt) hk
  obtain ⟨b1, b2⟩ := key rest h1 h2 l (by rw [fitColumns_length]; exact l.isLt) hl
  have hn : S.cosModes.Nodup := (C37_modes_complete S.mpol S.ntor).1
  exact Fin.ext ((hn.getElem_inj_iff).1 (a2.trans b2.symm))

theorem isMode_of_sinModes {m n : ℤ} (h : (m, n) ∈ S.sinModes) : IsMode S.mpol S.ntor m n := by
  rcases S.mem_sinModes.1 h with h | h
  · exact Or.inl ⟨h.1, by omega, h.2.2⟩
  · rw [abs_le] at h
    exact Or.inr ⟨by omega, h.2.1, h.2.2.1, h.2.2.2⟩

theorem entry_grid_cos (hf : S.nfp ≠ 0) (A B : ℕ) (m n : ℤ) (i j : ℕ) :
    cEntry S.nfp 0 0 ((i : ℝ) / A / S.nfp) ((j : ℝ) / B) m n = cos (gridAngle A B m n i j) := by
  have hf' : (S.nfp : ℝ) ≠ 0 := by exact_mod_cast hf
  rw [cEntry_zero, mul_div_cancel₀ _ hf', gridAngle]
  congr 1
  ring

theorem entry_grid_sin (hf : S.nfp ≠ 0) (A B : ℕ) (m n : ℤ) (i j : ℕ) :
    sEntry S.nfp 0 0 ((i : ℝ) / A / S.nfp) ((j : ℝ) / B) m n = sin (gridAngle A B m n i j) := by
  have hf' : (S.nfp : ℝ) ≠ 0 := by exact_mod_cast hf
  rw [sEntry_zero, mul_div_cancel₀ _ hf', gridAngle]
  congr 1
  ring

theorem column_kinds (k : Fin S.fitSize) : (S.column k).1 = .zero ∨ (S.column k).1 = .cosine 0 0 ∨
    ∃ m n, (m, n) ∈ S.sinModes ∧ ((S.column k).1 = .cosine m n ∨ (S.column k).1 = .sine m n) := by
  have h := S.column_mem k
  have hc : ∀ p ∈ S.cosModes, (S.column k).1 = .cosine p.1 p.2 → (S.column k).1 = .zero ∨ (S.column k).1 = .cosine 0 0 ∨
      ∃ m n, (m, n) ∈ S.sinModes ∧ ((S.column k).1 = .cosine m n ∨ (S.column k).1 = .sine m n) := by
    intro p hp e
    rw [cosModes_eq, List.mem_cons] at hp
    rcases hp with rfl | hp
    · exact Or.inr (Or.inl e)
    · exact Or.inr (Or.inr ⟨p.1, p.2, hp, Or.inl e⟩)
  rw [fitColumns] at h
  split_ifs at h
  · rcases List.mem_append.1 h with h | h <;> obtain ⟨p, hp, e⟩ := List.mem_map.1 h
    · exact hc p hp (by rw [← e])
    · exact Or.inl (by rw [← e])
  · rcases List.mem_append.1 h with h | h <;> rcases List.mem_append.1 h with h | h <;> obtain ⟨p, hp, e⟩ := List.mem_map.1 h
    · exact hc p hp (by rw [← e])
    · exact Or.inr (Or.inr ⟨p.1, p.2, hp, Or.inr (by rw [← e])⟩)
    · exact Or.inl (by rw [← e])
    · exact Or.inl (by rw [← e])

/-- The coefficient of a cosine of `R` is a sum over a fine grid. -/
theorem cos_coefficient (hf : S.nfp ≠ 0) {A B : ℕ} (hA : 2 * S.ntor < A) (hB : 2 * S.mpol < B) {m n : ℤ} (hmn : (m, n) ∈ S.sinModes)
    {k : Fin S.fitSize} (hk : (S.column k).1 = .cosine m n) (x : Fin S.fitSize → ℝ) :
    ∑ i ∈ Finset.range A, ∑ j ∈ Finset.range B,
      S.rDash (List.ofFn x) 0 0 ((i : ℝ) / A / S.nfp) ((j : ℝ) / B) * cos (gridAngle A B m n i j) = (A : ℝ) * B / 2 * x k := by
  have hA0 : A ≠ 0 := by omega
  have hB0 : B ≠ 0 := by omega
  have hM := S.isMode_of_sinModes hmn
  have e1 : ∑ i ∈ Finset.range A, ∑ j ∈ Finset.range B,
      S.rDash (List.ofFn x) 0 0 ((i : ℝ) / A / S.nfp) ((j : ℝ) / B) * cos (gridAngle A B m n i j) =
      ∑ l, x l * ∑ i ∈ Finset.range A, ∑ j ∈ Finset.range B,
        (S.column l).1.entry S.nfp 0 0 ((i : ℝ) / A / S.nfp) ((j : ℝ) / B) * cos (gridAngle A B m n i j) := by
    simp only [rDash_columns, Finset.mul_sum, Finset.sum_mul]
    rw [Finset.sum_comm (s := Finset.univ)]
    refine Finset.sum_congr rfl fun i _ => ?_
    rw [Finset.sum_comm (s := Finset.univ)]
    refine Finset.sum_congr rfl fun j _ => Finset.sum_congr rfl fun l _ => by ring
  have e2 : ∀ l, ∑ i ∈ Finset.range A, ∑ j ∈ Finset.range B,
      (S.column l).1.entry S.nfp 0 0 ((i : ℝ) / A / S.nfp) ((j : ℝ) / B) * cos (gridAngle A B m n i j) =
      if l = k then (A : ℝ) * B / 2 else 0 := by
    intro l
    have hne : ¬ ((-1 : ℤ) = 1) := by norm_num
    rcases S.column_kinds l with h | h | ⟨m', n', hm', h | h⟩
    · have hlk : l ≠ k := by
        rintro rfl
        rw [hk] at h
        cases h
      rw [h, if_neg hlk]
      simp [RowKind.entry]
    · have hlk : l ≠ k := by
        rintro rfl
        rw [hk] at h
        simp only [RowKind.cosine.injEq] at h
        rcases hM with hM | hM <;> omega
      rw [h, if_neg hlk]
      simp only [RowKind.entry, cEntry_zero, Int.cast_zero, zero_mul, sub_zero, mul_zero, cos_zero, one_mul]
      rw [grid_cos_sum A B hA0 hB0, if_neg]
      rintro ⟨h1, h2⟩
      simp only [IsMode] at hM
      have e1 := Int.eq_zero_of_abs_lt_dvd h1 (by rw [abs_lt]; constructor <;> omega)
      have e2 := Int.eq_zero_of_abs_lt_dvd h2 (by rw [abs_lt]; constructor <;> omega)
      omega
    · have ho := grid_orthogonal hA hB (S.isMode_of_sinModes hm') hM (s := -1) (s' := -1) (Or.inr rfl) (Or.inr rfl)
      simp only [sinOrCos, if_neg hne] at ho
      simp only [h, RowKind.entry, S.entry_grid_cos hf]
      rw [ho]
      by_cases hlk : l = k
      · subst hlk
        rw [hk] at h
        simp only [RowKind.cosine.injEq] at h
        rw [if_pos ⟨h.1.symm, h.2.symm, trivial⟩, if_pos rfl]
      · rw [if_neg, if_neg hlk]
        rintro ⟨rfl, rfl, -⟩
        exact hlk (S.cos_column_unique h hk)
    · have hlk : l ≠ k := by
        rintro rfl
        rw [hk] at h
        cases h
      have ho := grid_orthogonal hA hB (S.isMode_of_sinModes hm') hM (s := 1) (s' := -1) (Or.inl rfl) (Or.inr rfl)
      simp only [sinOrCos, if_neg hne, if_true] at ho
      simp only [h, RowKind.entry, S.entry_grid_sin hf]
      rw [ho, if_neg hlk, if_neg]
      rintro ⟨-, -, h⟩
      omega
  rw [e1]
  simp only [e2, mul_ite, mul_zero, Finset.sum_ite_eq', Finset.mem_univ, if_true]
  ring

end SurfaceShape

end Verif
