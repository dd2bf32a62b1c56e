import Verif.Model.Winding
import Verif.Lemmas.V3
import Verif.Props.Surface
import Verif.Spec.Rotation
import Mathlib.Algebra.BigOperators.Fin
import Mathlib.LinearAlgebra.FiniteDimensional.Basic
import Mathlib.LinearAlgebra.Matrix.ToLin
import Mathlib.LinearAlgebra.Matrix.DotProduct

/-!
# Properties C51, C52, C54: automatic winding surfaces
-/

namespace Verif

open Real Finset

/-! ## C51 -/

/-- The neighbour of row `i` in the toroidal direction; after the last row comes the first one, one field period further. -/
noncomputable def toroidalNeighbour (G : PlasmaGrid) (i j : ℕ) : V3 :=
  if i + 1 < G.nPhi then G.gamma (i + 1) j else rotZ (2 * π / G.nfp) (G.gamma 0 j)

/-- The neighbour of column `j` in the (negative) poloidal direction, cyclically. -/
def poloidalNeighbour (G : PlasmaGrid) (i j : ℕ) : V3 := if j = 0 then G.gamma i (G.nTheta - 1) else G.gamma i (j - 1)

/-- **C51.** An offset point is at distance `|d|` from the plasma point it comes from, in a direction orthogonal to the
differences to both neighbours. -/
theorem C51_offset_distance (G : PlasmaGrid) (d : ℝ) (i j : ℕ) (hj : j < G.nTheta)
    (hN : V3.cross (poloidalNeighbour G i j - G.gamma i j) (toroidalNeighbour G i j - G.gamma i j) ≠ 0) :
    (G.offset d i j - G.gamma i j).norm = |d| ∧
    V3.dot (G.offset d i j - G.gamma i j) (toroidalNeighbour G i j - G.gamma i j) = 0 ∧
    V3.dot (G.offset d i j - G.gamma i j) (poloidalNeighbour G i j - G.gamma i j) = 0 := by
  have hphi : G.deltaPhi i j = toroidalNeighbour G i j - G.gamma i j := rfl
  have htheta : G.deltaTheta i j = poloidalNeighbour G i j - G.gamma i j := by
    rw [PlasmaGrid.deltaTheta, poloidalNeighbour]
    split_ifs with h
    · subst h
      rw [zero_add, Nat.mod_eq_of_lt (by omega)]
    · rw [show j + G.nTheta - 1 = j - 1 + G.nTheta by omega, Nat.add_mod_right, Nat.mod_eq_of_lt (by omega)]
  rw [← hphi, ← htheta] at hN ⊢
  have hn : 0 < (V3.cross (G.deltaTheta i j) (G.deltaPhi i j)).norm := (V3.norm_pos_iff _).2 hN
  have hoff : G.offset d i j - G.gamma i j =
      (d * (1 / (V3.cross (G.deltaTheta i j) (G.deltaPhi i j)).norm)) • V3.cross (G.deltaTheta i j) (G.deltaPhi i j) := by
    rw [PlasmaGrid.offset, PlasmaGrid.unitnormalApprox, PlasmaGrid.normalApprox]
    ext <;> simp only [V3.add_x, V3.add_y, V3.add_z, V3.sub_x, V3.sub_y, V3.sub_z, V3.smul_x, V3.smul_y, V3.smul_z] <;> ring
  rw [hoff]
  refine ⟨?_, ?_, ?_⟩
  · have h1 : ∀ (s : ℝ) (v : V3), (s • v).norm = |s| * v.norm := by
      intro s v
      rw [V3.norm, V3.norm, ← Real.sqrt_sq_eq_abs, ← Real.sqrt_mul (sq_nonneg s)]
      congr 1
      simp only [V3.normSq, V3.smul_x, V3.smul_y, V3.smul_z]
      ring
    rw [h1, abs_mul, abs_of_pos (one_div_pos.2 hn)]
    field_simp
  · simp only [V3.dot, V3.cross, V3.smul_x, V3.smul_y, V3.smul_z]
    ring
  · simp only [V3.dot, V3.cross, V3.smul_x, V3.smul_y, V3.smul_z]
    ring

/-- **C51.** If the grid samples one field period of a surface uniformly, the neighbours are the surface points one grid step
away, also across the ends of the grid. -/
theorem C51_neighbours_on_surface (S : SurfaceShape) (dofs : List ℝ) (hn : S.nfp ≠ 0) (nPhi nTheta : ℕ) (h1 : 0 < nPhi)
    (h2 : 0 < nTheta) (i j : ℕ) (hi : i < nPhi) (hj : j < nTheta) :
    let G : PlasmaGrid := ⟨S.nfp, nPhi, nTheta, fun i j => S.gamma dofs ((i : ℝ) / (S.nfp * nPhi)) ((j : ℝ) / nTheta)⟩
    toroidalNeighbour G i j = S.gamma dofs (((i : ℝ) + 1) / (S.nfp * nPhi)) ((j : ℝ) / nTheta) ∧
    poloidalNeighbour G i j = S.gamma dofs ((i : ℝ) / (S.nfp * nPhi)) (((j : ℝ) - 1) / nTheta) := by
  intro G
  have hnf : (S.nfp : ℝ) ≠ 0 := by exact_mod_cast hn
  have hp : (nPhi : ℝ) ≠ 0 := by exact_mod_cast h1.ne'
  have ht : (nTheta : ℝ) ≠ 0 := by exact_mod_cast h2.ne'
  constructor
  · rw [toroidalNeighbour]
    split_ifs with h
    · simp only [G]
      push_cast
      rfl
    · have hi' : i + 1 = nPhi := by
        have : ¬ i + 1 < nPhi := h
        omega
      have hc := C39_field_period S hn dofs 0 0 0 ((j : ℝ) / nTheta) 1
      have e : ((i : ℝ) + 1) / (S.nfp * nPhi) = 0 + ((1 : ℤ) : ℝ) / S.nfp := by
        rw [show (i : ℝ) + 1 = nPhi by exact_mod_cast hi']
        push_cast
        field_simp
        ring
      rw [e, SurfaceShape.gamma, hc]
      simp only [G, SurfaceShape.gamma]
      push_cast
      simp
  · rw [poloidalNeighbour]
    split_ifs with h
    · subst h
      have hc := C39_theta_periodic S dofs 0 0 ((i : ℝ) / (S.nfp * nPhi)) ((((0 : ℕ) : ℝ) - 1) / nTheta) 1
      simp only [G, SurfaceShape.gamma]
      rw [← hc]
      congr 1
      rw [Nat.cast_sub (by omega)]
      push_cast
      field_simp
      ring
    · simp only [G]
      rw [Nat.cast_sub (by omega)]
      push_cast
      rfl

/-- **C51.** The rows that are offset: all rows; with stellarator symmetry the first half. Then every other row is the mirror image of
an offset row, except the one or two rows next to the middle of the period. -/
theorem C51_rows (G : PlasmaGrid) :
    G.offsetRows false = G.nPhi ∧
    (∀ i, i < G.offsetRows true → i < G.nPhi ∧ (0 < i → ¬ G.nPhi - i < G.offsetRows true)) ∧
    ∀ i, i < G.nPhi → i < G.offsetRows true ∨ G.nPhi - i < G.offsetRows true ∨
      (G.nPhi ≤ 2 * i + 1 ∧ 2 * i ≤ G.nPhi + 1) := by
  simp only [PlasmaGrid.offsetRows, Bool.false_eq_true, if_false, if_true]
  refine ⟨trivial, fun i hi => ⟨by omega, by omega⟩, fun i hi => by omega⟩

/-- Nine rows: rows 0 to 3 are offset. -/
example (g : ℕ → ℕ → V3) : (⟨3, 9, 8, g⟩ : PlasmaGrid).offsetRows true = 4 := by
  simp [PlasmaGrid.offsetRows]

/-- **C51.** The data fitted are the cylindrical coordinates of the offset points: radius, toroidal angle in turns, and
height. -/
theorem C51_cylindrical_coordinates (G : PlasmaGrid) (d : ℝ) (i j : ℕ) :
    G.offset d i j = ⟨G.rExpand d i j * cos (2 * π * G.phiExpand d i j), G.rExpand d i j * sin (2 * π * G.phiExpand d i j),
      (G.offset d i j).z⟩ := by
  have hp : 2 * π * G.phiExpand d i j = Complex.arg ⟨(G.offset d i j).x, (G.offset d i j).y⟩ := by
    rw [PlasmaGrid.phiExpand]
    have := pi_ne_zero
    field_simp
  have hr : G.rExpand d i j = ‖(⟨(G.offset d i j).x, (G.offset d i j).y⟩ : ℂ)‖ := by
    rw [PlasmaGrid.rExpand, Complex.norm_def, Complex.normSq_mk]
    congr 1
    ring
  rw [hp, hr]
  ext
  · simp only
    rw [Complex.norm_mul_cos_arg]
  · simp only
    rw [Complex.norm_mul_sin_arg]
  · rfl

/-- Four points of a unit cell; the offset of the first is straight down. -/
example :
    let G : PlasmaGrid := ⟨1, 2, 2, fun i j => ⟨1 + i, j, 0⟩⟩
    V3.cross (poloidalNeighbour G 0 0 - G.gamma 0 0) (toroidalNeighbour G 0 0 - G.gamma 0 0) ≠ 0 := by
  intro G h
  have := congrArg V3.z h
  simp [G, poloidalNeighbour, toroidalNeighbour, V3.cross] at this

/-! ## C52 -/

namespace SurfaceShape

variable (S : SurfaceShape)

/-- The squares `m^2 + n^2` of the sine modes. -/
def sineSquares : List ℤ := List.zipWith (fun m n => m ^ 2 + n ^ 2) (surfMs S.mpol S.ntor) (surfNs S.mpol S.ntor)

theorem m2n2_eq : S.m2n2 = if S.stellsym then 0 :: (S.sineSquares ++ S.sineSquares)
    else (0 :: (S.sineSquares ++ S.sineSquares)) ++ 0 :: (S.sineSquares ++ S.sineSquares) := by
  have h : List.zipWith (fun m n : ℤ => m ^ 2 + n ^ 2) (surfMc S.mpol S.ntor ++ surfMs S.mpol S.ntor)
    (surfNc S.mpol S.ntor ++ surfNs S.mpol S.ntor) = 0 :: (S.sineSquares ++ S.sineSquares) := by
    have hc := C37_mode_counts S.mpol S.ntor
    rw [List.zipWith_append (by rw [hc.1, hc.2.1])]
    simp [surfMc, surfNc, sineSquares]
  rw [m2n2, h]

theorem sineSquares_length : S.sineSquares.length = S.ntor + S.mpol * (2 * S.ntor + 1) := by
  have hc := C37_mode_counts S.mpol S.ntor
  rw [sineSquares, List.length_zipWith, hc.2.2.1, hc.2.2.2, min_self]

theorem sineSquares_pos (q : ℤ) (hq : q ∈ S.sineSquares) : 0 < q := by
  rw [sineSquares, ← List.map_uncurry_zip_eq_zipWith] at hq
  obtain ⟨⟨m, n⟩, hmn, rfl⟩ := List.mem_map.1 hq
  have h := ((C37_modes_complete S.mpol S.ntor).2.2 m n).1 hmn
  simp only [Function.uncurry_apply_pair]
  rcases h with h | h
  · have : 0 < n := h.2.1
    positivity
  · have : 0 < m := h.1
    positivity

theorem fitSize_eq (phi theta : ℝ) : S.fitSize = (S.rOperatorPadded 0 0 phi theta).length := by
  rw [(C37_dof_count S 0 0 phi theta).2, fitSize, m2n2_eq]
  split_ifs <;> simp only [List.length_append, List.length_cons, S.sineSquares_length] <;> ring

theorem fitSize_eq_z (phi theta : ℝ) : S.fitSize = (S.zOperatorPadded 0 0 phi theta).length := by
  rw [← (C37_dof_count S 0 0 phi theta).1, ← S.fitSize_eq]

theorem applyRow_ofFn (n : ℕ) (row : List ℝ) (h : row.length = n) (x : Fin n → ℝ) :
    applyRow row (List.ofFn x) = ∑ k : Fin n, row.getD k 0 * x k := by
  subst h
  induction row with
  | nil => simp [applyRow]
  | cons a l ih =>
    have hs := Fin.sum_univ_succ (n := l.length) fun k : Fin (l.length + 1) => (a :: l).getD k 0 * x k
    rw [List.ofFn_succ, applyRow, List.zipWith_cons_cons, List.sum_cons]
    refine Eq.trans ?_ hs.symm
    congr 1
    exact ih fun i => x i.succ

theorem fitRows_length (pts : List FitPoint) (r : List ℝ × ℝ) (hr : r ∈ S.fitRows pts) : r.1.length = S.fitSize := by
  rw [fitRows, List.mem_flatMap] at hr
  obtain ⟨p, -, hp⟩ := hr
  simp only [List.mem_cons, List.not_mem_nil, or_false] at hp
  rcases hp with rfl | rfl
  · rw [List.length_map, ← S.fitSize_eq]
  · rw [List.length_map, ← S.fitSize_eq_z]

theorem applyRow_scaled (row d : List ℝ) (w : ℝ) : applyRow (row.map (· * w)) d = applyRow row d * w := by
  induction row generalizing d with
  | nil => simp [applyRow]
  | cons a l ih =>
    cases d with
    | nil => simp [applyRow]
    | cons b d =>
      have := ih d
      simp only [applyRow, List.map_cons, List.zipWith_cons_cons, List.sum_cons] at this ⊢
      rw [this]
      ring

/-- The regularised weighted misfit of a surface with coefficients `x`. -/
noncomputable def fitObjective (lam : ℝ) (pts : List FitPoint) (x : Fin S.fitSize → ℝ) : ℝ :=
  (pts.map fun p => p.w ^ 2 * ((S.rDash (List.ofFn x) 0 0 p.phi p.theta - p.r) ^ 2 +
    (S.zDash (List.ofFn x) 0 0 p.phi p.theta - p.z) ^ 2)).sum +
  lam * ∑ k : Fin S.fitSize, ((S.m2n2[k] : ℤ) : ℝ) * x k ^ 2

open Matrix

theorem fitMatrix_mulVec (pts : List FitPoint) (x : Fin S.fitSize → ℝ) (i : Fin (S.fitRows pts).length) :
    (S.fitMatrix pts *ᵥ x) i = applyRow (S.fitRows pts)[i].1 (List.ofFn x) := by
  exact (applyRow_ofFn _ _ (S.fitRows_length pts _ (List.getElem_mem _)) x).symm

theorem sum_rows (pts : List FitPoint) (g : List ℝ × ℝ → ℝ) :
    ∑ i : Fin (S.fitRows pts).length, g (S.fitRows pts)[i] = ((S.fitRows pts).map g).sum := by
  rw [← Fin.sum_univ_getElem]
  exact (Fin.sum_congr' (fun i : Fin (S.fitRows pts).length => g (S.fitRows pts)[i]) (List.length_map g)).symm ▸
    Finset.sum_congr rfl fun i _ => by simp

theorem flatMap_sum {β γ : Type} (l : List β) (f : β → List γ) (g : γ → ℝ) :
    ((l.flatMap f).map g).sum = (l.map fun b => ((f b).map g).sum).sum := by
  induction l with
  | nil => rfl
  | cons a l ih => simp [List.flatMap_cons, ih]

theorem fitObjective_eq (lam : ℝ) (pts : List FitPoint) (x : Fin S.fitSize → ℝ) :
    S.fitObjective lam pts x = ∑ i, ((S.fitMatrix pts *ᵥ x) i - S.fitRhs pts i) ^ 2 +
      ∑ k, lam * ((S.m2n2[k] : ℤ) : ℝ) * x k ^ 2 := by
  rw [fitObjective, Finset.mul_sum]
  congr 1
  · have h : ∀ i, ((S.fitMatrix pts *ᵥ x) i - S.fitRhs pts i) ^ 2 =
        (fun r : List ℝ × ℝ => (applyRow r.1 (List.ofFn x) - r.2) ^ 2) (S.fitRows pts)[i] := by
      intro i
      rw [fitMatrix_mulVec]
      rfl
    rw [Finset.sum_congr rfl fun i _ => h i, S.sum_rows pts fun r => (applyRow r.1 (List.ofFn x) - r.2) ^ 2, fitRows, flatMap_sum]
    congr 1
    apply List.map_congr_left
    intro p _
    simp only [List.map_cons, List.map_nil, List.sum_cons, List.sum_nil, applyRow_scaled, rDash, zDash]
    ring
  · exact Finset.sum_congr rfl fun k _ => by ring

/-- Expansion of the misfit around a solution of the normal equations. -/
theorem quadratic_expand {R n : Type} [Fintype R] [Fintype n] [DecidableEq n] (A : Matrix R n ℝ) (b : R → ℝ) (q : n → ℝ)
    (x h : n → ℝ) (hx : (Aᵀ * A + Matrix.diagonal q) *ᵥ x = Aᵀ *ᵥ b) :
    ∑ i, ((A *ᵥ (x + h)) i - b i) ^ 2 + ∑ k, q k * (x + h) k ^ 2 =
      (∑ i, ((A *ᵥ x) i - b i) ^ 2 + ∑ k, q k * x k ^ 2) + (∑ i, (A *ᵥ h) i ^ 2 + ∑ k, q k * h k ^ 2) := by
  have key : ∑ i, ((A *ᵥ x) i - b i) * (A *ᵥ h) i = -∑ k, q k * x k * h k := by
    have e1 : ∑ i, ((A *ᵥ x) i - b i) * (A *ᵥ h) i = (A *ᵥ x - b) ⬝ᵥ (A *ᵥ h) := rfl
    have e2 : Aᵀ *ᵥ (A *ᵥ x - b) = -(Matrix.diagonal q *ᵥ x) := by
      rw [Matrix.add_mulVec, ← Matrix.mulVec_mulVec] at hx
      rw [Matrix.mulVec_sub, ← hx]
      abel
    rw [e1, Matrix.dotProduct_mulVec, ← Matrix.mulVec_transpose, e2]
    simp [dotProduct, Matrix.mulVec_diagonal, Finset.sum_neg_distrib]
  rw [Matrix.mulVec_add]
  have e3 : ∀ i, ((A *ᵥ x + A *ᵥ h) i - b i) ^ 2 = ((A *ᵥ x) i - b i) ^ 2 + 2 * (((A *ᵥ x) i - b i) * (A *ᵥ h) i) +
      (A *ᵥ h) i ^ 2 := by
    intro i
    simp only [Pi.add_apply]
    ring
  have e4 : ∀ k, q k * (x + h) k ^ 2 = q k * x k ^ 2 + 2 * (q k * x k * h k) + q k * h k ^ 2 := by
    intro k
    simp only [Pi.add_apply]
    ring
  simp only [e3, e4, Finset.sum_add_distrib, ← Finset.mul_sum]
  rw [key]
  ring

theorem fitReg_eq (lam : ℝ) : S.fitReg lam = Matrix.diagonal fun k : Fin S.fitSize => lam * ((S.m2n2[k] : ℤ) : ℝ) := by
  rw [fitReg]
  ext i j
  simp [Matrix.diagonal_apply]

theorem m2n2_nonneg (k : Fin S.fitSize) : (0 : ℝ) ≤ ((S.m2n2[k] : ℤ) : ℝ) := by
  have h : S.m2n2[k] ∈ S.m2n2 := List.getElem_mem _
  have hp := S.sineSquares_pos
  have : ∀ q ∈ S.m2n2, 0 ≤ q := by
    intro q hq
    rw [m2n2_eq] at hq
    split_ifs at hq <;> simp only [List.mem_cons, List.mem_append, or_self] at hq
    · rcases hq with rfl | hq
      · rfl
      · exact (hp q hq).le
    · rcases hq with rfl | hq
      · rfl
      · exact (hp q hq).le
  exact_mod_cast this _ h

end SurfaceShape

open Matrix

/-- **C52.** The regularisation weight of every coefficient is `m^2 + n^2` of its own mode: with stellarator symmetry the
coefficients are those of the cosine modes of `R` and the sine modes of `Z`; without, cosine and sine modes of `R`, then of
`Z`. -/
theorem C52_regularisation_weights (S : SurfaceShape) :
    let c := (modePairs (surfMc S.mpol S.ntor, surfNc S.mpol S.ntor)).map fun p => p.1 ^ 2 + p.2 ^ 2
    let s := (modePairs (surfMs S.mpol S.ntor, surfNs S.mpol S.ntor)).map fun p => p.1 ^ 2 + p.2 ^ 2
    S.m2n2 = if S.stellsym then c ++ s else c ++ s ++ (c ++ s) := by
  intro c s
  have hs : s = S.sineSquares := by
    simp only [s, modePairs, SurfaceShape.sineSquares]
    rw [← List.map_uncurry_zip_eq_zipWith]
    rfl
  have hc : c = 0 :: s := by
    simp only [c, s]
    rw [(C37_modes_complete S.mpol S.ntor).2.1]
    simp
  rw [S.m2n2_eq, hc, hs]
  split_ifs <;> simp

/-- **C52.** The fit minimises the weighted squared misfit plus `lam * sum (m^2+n^2) x^2` over all coefficient vectors. -/
theorem C52_fit_is_minimiser (S : SurfaceShape) (lam : ℝ) (hl : 0 ≤ lam) (pts : List FitPoint) (x : Fin S.fitSize → ℝ)
    (hx : S.IsFit lam pts x) (y : Fin S.fitSize → ℝ) : S.fitObjective lam pts x ≤ S.fitObjective lam pts y := by
  rw [SurfaceShape.IsFit, S.fitReg_eq] at hx
  have h := SurfaceShape.quadratic_expand _ _ _ x (y - x) hx
  rw [show x + (y - x) = y by abel] at h
  rw [S.fitObjective_eq, S.fitObjective_eq, h]
  have h1 : 0 ≤ ∑ i, (S.fitMatrix pts *ᵥ (y - x)) i ^ 2 := Finset.sum_nonneg fun i _ => sq_nonneg _
  have h2 : 0 ≤ ∑ k : Fin S.fitSize, lam * ((S.m2n2[k] : ℤ) : ℝ) * (y - x) k ^ 2 :=
    Finset.sum_nonneg fun k _ => mul_nonneg (mul_nonneg hl (S.m2n2_nonneg k)) (sq_nonneg _)
  linarith

theorem zero_except_first (l : List ℤ) (hl : ∀ q ∈ l, 0 < q) (d : List ℝ) (hd : d.length = l.length + 1)
    (h : ∀ k (hk : k < d.length), (0 :: l)[k]'(by simpa [hd] using hk) ≠ 0 → d[k] = 0) :
    ∃ a, d = a :: List.replicate l.length 0 := by
  cases d with
  | nil => simp at hd
  | cons a d =>
    refine ⟨a, ?_⟩
    congr 1
    simp only [List.length_cons, add_left_inj] at hd
    rw [List.eq_replicate_iff]
    refine ⟨hd, ?_⟩
    intro b hb
    obtain ⟨k, hk, rfl⟩ := List.mem_iff_getElem.1 hb
    have := h (k + 1) (by simpa using hk)
    simp only [List.getElem_cons_succ] at this
    exact this (hl _ (List.getElem_mem _)).ne'

theorem applyRow_replicate (row : List ℝ) (n : ℕ) : SurfaceShape.applyRow row (List.replicate n 0) = 0 := by
  induction row generalizing n with
  | nil => simp [SurfaceShape.applyRow]
  | cons a l ih =>
    cases n with
    | zero => simp [SurfaceShape.applyRow]
    | succ n =>
      have := ih n
      simp only [SurfaceShape.applyRow, List.replicate_succ, List.zipWith_cons_cons, List.sum_cons] at this ⊢
      rw [this]
      ring

theorem cmn_cons (S : SurfaceShape) (phi theta : ℝ) :
    ∃ l, S.cmn 0 0 phi theta = 1 :: l ∧ l.length = S.sineSquares.length := by
  refine ⟨_, by simp only [SurfaceShape.cmn, surfMc, surfNc, List.zipWith_cons_cons]; congr 1; simp [cEntry, derivFactor, modeAngle],
    ?_⟩
  have hc := C37_mode_counts S.mpol S.ntor
  rw [List.length_zipWith, hc.2.2.1, hc.2.2.2, S.sineSquares_length, min_self]

/-- A coefficient vector that is zero on all non-constant modes and gives `R = Z = 0` at one point is zero. -/
theorem constant_modes_zero (S : SurfaceShape) (phi theta : ℝ) (h : Fin S.fitSize → ℝ)
    (hk : ∀ k : Fin S.fitSize, S.m2n2[k] ≠ 0 → h k = 0) (hr : S.rDash (List.ofFn h) 0 0 phi theta = 0)
    (hz : S.zDash (List.ofFn h) 0 0 phi theta = 0) : h = 0 := by
  have hpos : ∀ q ∈ S.sineSquares ++ S.sineSquares, 0 < q := by
    intro q hq
    rw [List.mem_append, or_self] at hq
    exact S.sineSquares_pos q hq
  obtain ⟨l, hc, hcl⟩ := cmn_cons S phi theta
  have hsl : (S.smn 0 0 phi theta).length = S.sineSquares.length := by
    have hc := C37_mode_counts S.mpol S.ntor
    rw [SurfaceShape.smn, List.length_zipWith, hc.2.2.1, hc.2.2.2, S.sineSquares_length, min_self]
  suffices hs : List.ofFn h = List.replicate S.fitSize 0 by
    ext k
    have := List.getElem_of_eq hs (i := k) (by simp)
    simpa using this
  by_cases hss : S.stellsym = true
  · have hm : S.m2n2 = 0 :: (S.sineSquares ++ S.sineSquares) := by rw [S.m2n2_eq, if_pos hss]
    have hN : S.fitSize = (S.sineSquares ++ S.sineSquares).length + 1 := by rw [SurfaceShape.fitSize, hm, List.length_cons]
    obtain ⟨a, ha⟩ := zero_except_first _ hpos (List.ofFn h) (by rw [List.length_ofFn, hN]) (by
      intro k hk' hne
      rw [List.getElem_ofFn]
      apply hk
      have : k < S.fitSize := by simpa using hk'
      simp only [Fin.getElem_fin, hm]
      exact hne)
    have hro : S.rOperatorPadded 0 0 phi theta = 1 :: (l ++ (S.zOperator 0 0 phi theta).map fun _ => 0) := by
      rw [SurfaceShape.rOperatorPadded, SurfaceShape.rOperator, if_pos hss, hc, List.cons_append]
    rw [SurfaceShape.rDash, hro, ha, SurfaceShape.applyRow, List.zipWith_cons_cons, List.sum_cons] at hr
    have h0 := applyRow_replicate (l ++ (S.zOperator 0 0 phi theta).map fun _ => 0) (S.sineSquares ++ S.sineSquares).length
    rw [SurfaceShape.applyRow] at h0
    rw [h0] at hr
    rw [ha, hN, List.replicate_succ]
    congr 1
    linarith
  · have hm : S.m2n2 = (0 :: (S.sineSquares ++ S.sineSquares)) ++ 0 :: (S.sineSquares ++ S.sineSquares) := by
      rw [S.m2n2_eq, if_neg hss]
    set q := S.sineSquares ++ S.sineSquares with hq
    have hN : S.fitSize = (q.length + 1) + (q.length + 1) := by
      rw [SurfaceShape.fitSize, hm, List.length_append, List.length_cons]
    have hlen : (List.ofFn h).length = (q.length + 1) + (q.length + 1) := by rw [List.length_ofFn, hN]
    obtain ⟨a, ha⟩ := zero_except_first _ hpos ((List.ofFn h).take (q.length + 1)) (by
        rw [List.length_take, hlen, min_eq_left (by omega)]) (by
      intro k hk' hne
      have hkq : k < q.length + 1 := by
        rw [List.length_take, hlen] at hk'
        omega
      rw [List.getElem_take, List.getElem_ofFn]
      apply hk
      simp only [Fin.getElem_fin, hm]
      rw [List.getElem_append_left (by simpa using hkq)]
      exact hne)
    obtain ⟨b, hb⟩ := zero_except_first _ hpos ((List.ofFn h).drop (q.length + 1)) (by
        rw [List.length_drop, hlen]; omega) (by
      intro k hk' hne
      have hkq : k < q.length + 1 := by
        rw [List.length_drop, hlen] at hk'
        omega
      rw [List.getElem_drop, List.getElem_ofFn]
      apply hk
      simp only [Fin.getElem_fin, hm]
      rw [List.getElem_append_right (by simp)]
      simp only [List.length_cons, Nat.add_sub_cancel_left]
      exact hne)
    have hall : List.ofFn h = (a :: List.replicate q.length 0) ++ (b :: List.replicate q.length 0) := by
      rw [← ha, ← hb, List.take_append_drop]
    have hop : S.rOperator 0 0 phi theta = 1 :: (l ++ S.smn 0 0 phi theta) ∧ S.zOperator 0 0 phi theta =
        1 :: (l ++ S.smn 0 0 phi theta) := by
      rw [SurfaceShape.rOperator, SurfaceShape.zOperator, if_neg hss, if_neg hss, hc, List.cons_append]
      exact ⟨rfl, rfl⟩
    have hol : (1 :: (l ++ S.smn 0 0 phi theta)).length = (a :: List.replicate q.length (0 : ℝ)).length := by
      simp [hcl, hsl, hq]
    have happ : ∀ c : ℝ, SurfaceShape.applyRow (1 :: (l ++ S.smn 0 0 phi theta)) (c :: List.replicate q.length 0) = c := by
      intro c
      have h0 := applyRow_replicate (l ++ S.smn 0 0 phi theta) q.length
      rw [SurfaceShape.applyRow] at h0 ⊢
      rw [List.zipWith_cons_cons, List.sum_cons, h0]
      ring
    rw [SurfaceShape.rDash, SurfaceShape.rOperatorPadded, hop.1, hop.2, hall, applyRow_append _ _ _ _ hol, happ,
      applyRow_zero] at hr
    rw [SurfaceShape.zDash, SurfaceShape.zOperatorPadded, hop.1, hop.2, hall, applyRow_append _ _ _ _ (by
      rw [List.length_map]; exact hol), happ, applyRow_zero] at hz
    rw [hall, hN, List.replicate_add, List.replicate_succ]
    congr 2 <;> linarith

/-- **C52.** With positive regularisation and at least one point of non-zero weight, the fit exists and is unique. -/
theorem C52_fit_exists_unique (S : SurfaceShape) (lam : ℝ) (hl : 0 < lam) (pts : List FitPoint)
    (hw : ∃ p ∈ pts, p.w ≠ 0) : ∃! x, S.IsFit lam pts x := by
  obtain ⟨p, hp, hpw⟩ := hw
  have hinj : Function.Injective (Matrix.mulVecLin ((S.fitMatrix pts)ᵀ * S.fitMatrix pts + S.fitReg lam)) := by
    rw [← LinearMap.ker_eq_bot, LinearMap.ker_eq_bot']
    intro h hh
    rw [Matrix.mulVecLin_apply] at hh
    have hzero : ((S.fitMatrix pts)ᵀ * S.fitMatrix pts + S.fitReg lam) *ᵥ 0 = (S.fitMatrix pts)ᵀ *ᵥ 0 := by simp
    rw [S.fitReg_eq] at hzero hh
    have hq : ∑ i, (S.fitMatrix pts *ᵥ h) i ^ 2 + ∑ k : Fin S.fitSize, lam * ((S.m2n2[k] : ℤ) : ℝ) * h k ^ 2 = 0 := by
      have hd : h ⬝ᵥ (((S.fitMatrix pts)ᵀ * S.fitMatrix pts + Matrix.diagonal fun k : Fin S.fitSize =>
          lam * ((S.m2n2[k] : ℤ) : ℝ)) *ᵥ h) = 0 := by rw [hh]; simp
      rw [Matrix.add_mulVec, dotProduct_add, ← Matrix.mulVec_mulVec, Matrix.dotProduct_mulVec, Matrix.vecMul_transpose] at hd
      rw [← hd]
      congr 1
      · simp only [dotProduct]
        exact Finset.sum_congr rfl fun i _ => by ring
      · simp only [dotProduct, Matrix.mulVec_diagonal]
        exact Finset.sum_congr rfl fun i _ => by ring
    have h1 : 0 ≤ ∑ i, (S.fitMatrix pts *ᵥ h) i ^ 2 := Finset.sum_nonneg fun i _ => sq_nonneg _
    have h2 : ∀ k ∈ (Finset.univ : Finset (Fin S.fitSize)), (0 : ℝ) ≤ lam * ((S.m2n2[k] : ℤ) : ℝ) * h k ^ 2 :=
      fun k _ => mul_nonneg (mul_nonneg hl.le (S.m2n2_nonneg k)) (sq_nonneg _)
    have h3 := Finset.sum_nonneg h2
    have hA : ∑ i, (S.fitMatrix pts *ᵥ h) i ^ 2 = 0 := by linarith
    have hB := (Finset.sum_eq_zero_iff_of_nonneg h2).1 (by linarith)
    have hA' := (Finset.sum_eq_zero_iff_of_nonneg fun i _ => sq_nonneg _).1 hA
    have hrow : ∀ r ∈ S.fitRows pts, SurfaceShape.applyRow r.1 (List.ofFn h) = 0 := by
      intro r hr
      obtain ⟨i, hi, rfl⟩ := List.mem_iff_getElem.1 hr
      have := hA' ⟨i, hi⟩ (Finset.mem_univ _)
      rw [S.fitMatrix_mulVec] at this
      exact pow_eq_zero_iff (two_ne_zero) |>.1 this
    have hmem : ∀ r ∈ [((S.rOperatorPadded 0 0 p.phi p.theta).map (· * p.w), p.r * p.w),
        ((S.zOperatorPadded 0 0 p.phi p.theta).map (· * p.w), p.z * p.w)], r ∈ S.fitRows pts := by
      intro r hr
      rw [SurfaceShape.fitRows, List.mem_flatMap]
      exact ⟨p, hp, hr⟩
    have hr := hrow _ (hmem _ (List.mem_cons_self ..))
    have hz := hrow _ (hmem _ (List.mem_cons_of_mem _ (List.mem_cons_self ..)))
    rw [SurfaceShape.applyRow_scaled] at hr hz
    apply constant_modes_zero S p.phi p.theta h
    · intro k hk
      have := hB k (Finset.mem_univ _)
      have hk' : ((S.m2n2[k] : ℤ) : ℝ) ≠ 0 := by exact_mod_cast hk
      rcases mul_eq_zero.1 this with h' | h'
      · exact absurd h' (mul_ne_zero hl.ne' hk')
      · exact pow_eq_zero_iff (two_ne_zero) |>.1 h'
    · exact (mul_eq_zero.1 hr).resolve_right hpw
    · exact (mul_eq_zero.1 hz).resolve_right hpw
  have hsurj := LinearMap.surjective_of_injective hinj
  obtain ⟨x, hx⟩ := hsurj ((S.fitMatrix pts)ᵀ *ᵥ S.fitRhs pts)
  exact ⟨x, hx, fun y hy => hinj (Eq.trans hy hx.symm)⟩

/-- **C52.** Points of weight 0 do not matter. -/
theorem C52_zero_weight_irrelevant (S : SurfaceShape) (lam : ℝ) (pts : List FitPoint) (x : Fin S.fitSize → ℝ) :
    S.fitObjective lam pts x = S.fitObjective lam (pts.filter fun p => decide (p.w ≠ 0)) x := by
  rw [SurfaceShape.fitObjective, SurfaceShape.fitObjective]
  congr 1
  induction pts with
  | nil => rfl
  | cons p l ih =>
    by_cases h : p.w = 0
    · rw [List.filter_cons_of_neg (by simp [h]), List.map_cons, List.sum_cons, ih, h]
      ring
    · rw [List.filter_cons_of_pos (by simp [h]), List.map_cons, List.sum_cons, List.map_cons, List.sum_cons, ih]

/-- **C52.** Without regularisation, samples of a surface of the same shape are reproduced: its coefficients are a fit, and
every fit passes through all points of non-zero weight. -/
theorem C52_exact_data (S : SurfaceShape) (pts : List FitPoint) (c : Fin S.fitSize → ℝ)
    (hc : ∀ p ∈ pts, p.r = S.rDash (List.ofFn c) 0 0 p.phi p.theta ∧ p.z = S.zDash (List.ofFn c) 0 0 p.phi p.theta) :
    S.IsFit 0 pts c ∧ ∀ x, S.IsFit 0 pts x → ∀ p ∈ pts, p.w ≠ 0 →
      S.rDash (List.ofFn x) 0 0 p.phi p.theta = p.r ∧ S.zDash (List.ofFn x) 0 0 p.phi p.theta = p.z := by
  have hAc : S.fitMatrix pts *ᵥ c = S.fitRhs pts := by
    ext i
    rw [S.fitMatrix_mulVec]
    have hi : (S.fitRows pts)[i] ∈ S.fitRows pts := List.getElem_mem _
    have : ∀ r ∈ S.fitRows pts, SurfaceShape.applyRow r.1 (List.ofFn c) = r.2 := by
      intro r hr
      rw [SurfaceShape.fitRows, List.mem_flatMap] at hr
      obtain ⟨p, hp, hr⟩ := hr
      simp only [List.mem_cons, List.not_mem_nil, or_false] at hr
      rcases hr with rfl | rfl
      · rw [SurfaceShape.applyRow_scaled, (hc p hp).1]
        rfl
      · rw [SurfaceShape.applyRow_scaled, (hc p hp).2]
        rfl
    exact this _ hi
  have hfit : S.IsFit 0 pts c := by
    rw [SurfaceShape.IsFit, SurfaceShape.fitReg, zero_smul, add_zero, ← Matrix.mulVec_mulVec, hAc]
  refine ⟨hfit, ?_⟩
  intro x hx p hp hw
  have hle := C52_fit_is_minimiser S 0 le_rfl pts x hx c
  have h0 : S.fitObjective 0 pts c = 0 := by
    rw [S.fitObjective_eq, hAc]
    simp
  rw [h0, SurfaceShape.fitObjective, zero_mul, add_zero] at hle
  have hterm : ∀ v ∈ pts.map (fun p => p.w ^ 2 * ((S.rDash (List.ofFn x) 0 0 p.phi p.theta - p.r) ^ 2 +
      (S.zDash (List.ofFn x) 0 0 p.phi p.theta - p.z) ^ 2)), 0 ≤ v := by
    intro v hv
    obtain ⟨p, -, rfl⟩ := List.mem_map.1 hv
    positivity
  have hz := le_trans (List.single_le_sum hterm _ (List.mem_map_of_mem hp)) hle
  have hw2 : 0 < p.w ^ 2 := by positivity
  have h5 : (S.rDash (List.ofFn x) 0 0 p.phi p.theta - p.r) ^ 2 + (S.zDash (List.ofFn x) 0 0 p.phi p.theta - p.z) ^ 2 ≤ 0 :=
    by_contra fun hh => absurd hz (not_le.2 (mul_pos hw2 (not_le.1 hh)))
  have h6 := sq_nonneg (S.rDash (List.ofFn x) 0 0 p.phi p.theta - p.r)
  have h7 := sq_nonneg (S.zDash (List.ofFn x) 0 0 p.phi p.theta - p.z)
  constructor
  · exact sub_eq_zero.1 (pow_eq_zero_iff (two_ne_zero) |>.1 (by linarith))
  · exact sub_eq_zero.1 (pow_eq_zero_iff (two_ne_zero) |>.1 (by linarith))

/-- One point of weight 1 and one of weight 0. -/
example : ∃ p ∈ [FitPoint.mk 0 0 1 0 1, FitPoint.mk 0 (1 / 2) 1 0 0], p.w ≠ 0 :=
  ⟨_, List.mem_cons_self .., one_ne_zero⟩

/-! ## C54 -/

/-- **C54 (when it is right).** The generated surface can be evaluated exactly when both symmetry flags agree. -/
theorem C54_usable_iff_partial (s ps : Bool) (nfp mpol ntor : ℕ) : windingUsable s ps nfp mpol ntor ↔ s = ps := by
  rw [windingUsable, generatedDofs]
  rw [SurfaceShape.fitSize_eq _ 0 0, (C37_dof_count _ 0 0 0 0).2]
  constructor
  · intro h
    have := h 0 0
    rw [(C37_dof_count _ 0 0 0 0).2] at this
    simp only at this
    cases s <;> cases ps <;> simp at this ⊢
  · rintro rfl phi theta
    rw [(C37_dof_count _ 0 0 phi theta).2]

/-- **C54.** False of the code: a stellarator symmetric coil problem for a plasma surface without that symmetry (and the
other way round) gets a winding surface that cannot be evaluated, at every resolution. -/
theorem C54_mixed_symmetry_violated_partial (nfp mpol ntor : ℕ) :
    ¬ windingUsable true false nfp mpol ntor ∧ ¬ windingUsable false true nfp mpol ntor := by
  simp [C54_usable_iff_partial]

end Verif
