import Verif.Props.Axisymmetric
import Verif.Props.Polygon

/-!
# C147, second part: the second fit of the generators
-/

namespace Verif

open Real

/-- The surface with coefficients `x` does not depend on the toroidal angle. -/
def IsAxisymmetric (S : SurfaceShape) (x : Fin S.fitSize → ℝ) : Prop :=
  ∀ phi phi' theta, S.rDash (List.ofFn x) 0 0 phi theta = S.rDash (List.ofFn x) 0 0 phi' theta ∧
    S.zDash (List.ofFn x) 0 0 phi theta = S.zDash (List.ofFn x) 0 0 phi' theta

theorem IsTorus.isAxisymmetric {S : SurfaceShape} {x : Fin S.fitSize → ℝ} {R ρ : ℝ} (h : IsTorus S x R ρ) : IsAxisymmetric S x := by
  intro phi phi' theta
  rw [(h phi theta).1, (h phi theta).2, (h phi' theta).1, (h phi' theta).2]
  exact ⟨rfl, rfl⟩

/-! ## Regularised fits of a torus -/

/-- Coefficients of an axisymmetric `R`. -/
theorem axisymmetric_coefficient (S : SurfaceShape) (hf : S.nfp ≠ 0) {x : Fin S.fitSize → ℝ} (hx : IsAxisymmetric S x) {m n : ℤ}
    (hmn : (m, n) ∈ S.sinModes) (hn : n ≠ 0) {k : Fin S.fitSize} (hk : (S.column k).1 = .cosine m n) : x k = 0 := by
  have h := S.cos_coefficient hf (A := 2 * S.ntor + 1) (B := 2 * S.mpol + 1) (by omega) (by omega) hmn hk x
  have hnot : ¬ ((2 * S.ntor + 1 : ℕ) : ℤ) ∣ n := by
    intro hd
    have hw := (S.mode_within (p := (m, n)) (by rw [S.cosModes_eq]; exact List.mem_cons_of_mem _ hmn)).2
    exact hn (Int.eq_zero_of_abs_lt_dvd hd (by simp only at hw; push_cast; linarith [abs_nonneg n]))
  have hc := cos_sum (2 * S.ntor + 1) (by omega) n
  have hs := sin_sum (2 * S.ntor + 1) (by omega) n
  rw [if_neg hnot] at hc
  have hz : ∑ i ∈ Finset.range (2 * S.ntor + 1), ∑ j ∈ Finset.range (2 * S.mpol + 1),
      S.rDash (List.ofFn x) 0 0 ((i : ℝ) / (2 * S.ntor + 1 : ℕ) / S.nfp) ((j : ℝ) / (2 * S.mpol + 1 : ℕ)) *
        cos (gridAngle (2 * S.ntor + 1) (2 * S.mpol + 1) m n i j) = 0 := by
    rw [Finset.sum_comm]
    refine Finset.sum_eq_zero fun j _ => ?_
    have e : ∀ i : ℕ, S.rDash (List.ofFn x) 0 0 ((i : ℝ) / (2 * S.ntor + 1 : ℕ) / S.nfp) ((j : ℝ) / (2 * S.mpol + 1 : ℕ)) *
        cos (gridAngle (2 * S.ntor + 1) (2 * S.mpol + 1) m n i j) =
        S.rDash (List.ofFn x) 0 0 0 ((j : ℝ) / (2 * S.mpol + 1 : ℕ)) * cos (2 * π * j * m / (2 * S.mpol + 1 : ℕ)) *
          cos (2 * π * i * n / (2 * S.ntor + 1 : ℕ)) +
        S.rDash (List.ofFn x) 0 0 0 ((j : ℝ) / (2 * S.mpol + 1 : ℕ)) * sin (2 * π * j * m / (2 * S.mpol + 1 : ℕ)) *
          sin (2 * π * i * n / (2 * S.ntor + 1 : ℕ)) := by
      intro i
      rw [(hx _ 0 _).1, gridAngle, cos_sub]
      ring
    simp only [e, Finset.sum_add_distrib, ← Finset.mul_sum, hc, hs, mul_zero, add_zero]
  rw [hz] at h
  have hpos : ((2 * S.ntor + 1 : ℕ) : ℝ) * (2 * S.mpol + 1 : ℕ) / 2 ≠ 0 := by positivity
  exact (mul_eq_zero.1 h.symm).resolve_left hpos

/-- The samples of a torus, in rows of constant toroidal angle. -/
structure TorusSamples (nfp : ℕ) (R ρ : ℝ) (rows cols : ℕ) (t : ℕ → ℝ) (P : ℕ → ℕ → FitPoint) : Prop where
  phi : ∀ i < rows, ∀ j < cols, (P i j).phi = t i
  theta : ∀ i < rows, ∀ j < cols, ∃ l : ℤ, (P i j).theta = (j : ℝ) / cols + l
  r : ∀ i < rows, ∀ j < cols, (P i j).r = R + ρ * cos (2 * π * (j / cols))
  z : ∀ i < rows, ∀ j < cols, (P i j).z = ρ * sin (2 * π * (j / cols))
  w : ∀ i < rows, ∀ j < cols, (P i j).w = 1

/-- A regularised fit of a torus whose toroidal samples do not average out the first toroidal mode is not axisymmetric. -/
theorem torus_fit_not_axisymmetric (S : SurfaceShape) (hf : S.nfp ≠ 0) (hm : 1 ≤ S.mpol) (hn : 1 ≤ S.ntor) {R ρ : ℝ} (hρ : ρ ≠ 0)
    {rows cols : ℕ} (hc : 2 * S.mpol < cols) {t : ℕ → ℝ} {P : ℕ → ℕ → FitPoint} (hP : TorusSamples S.nfp R ρ rows cols t P)
    (ht : ∑ i ∈ Finset.range rows, cos (2 * π * (S.nfp * t i)) ≠ 0) {lam : ℝ} (hl : lam ≠ 0) {x : Fin S.fitSize → ℝ}
    (hx : S.IsFit lam ((List.range rows).flatMap fun i => (List.range cols).map fun j => P i j) x) : ¬ IsAxisymmetric S x := by
  intro hax
  have hmode : ∀ n : ℤ, |n| ≤ 1 → ((1 : ℤ), n) ∈ S.sinModes := fun n h =>
    S.mem_sinModes.2 (Or.inr ⟨by norm_num, by exact_mod_cast hm, h.trans (by exact_mod_cast hn)⟩)
  have hcos : ∀ n : ℤ, |n| ≤ 1 → ((1 : ℤ), n) ∈ S.cosModes := fun n h => by rw [S.cosModes_eq]; exact List.mem_cons_of_mem _ (hmode n h)
  obtain ⟨k0, hk0⟩ := S.cos_column (hcos 0 (by norm_num))
  obtain ⟨k1, hk1⟩ := S.cos_column (hcos 1 (by norm_num))
  obtain ⟨k2, hk2⟩ := S.cos_column (hcos (-1) (by norm_num))
  have hx1 := axisymmetric_coefficient S hf hax (hmode 1 (by norm_num)) (by norm_num) (k := k1) (by rw [hk1])
  have hx2 := axisymmetric_coefficient S hf hax (hmode (-1) (by norm_num)) (by norm_num) (k := k2) (by rw [hk2])
  have hcR : (cols : ℝ) ≠ 0 := by exact_mod_cast (by omega : cols ≠ 0)
  -- the misfit as a function of the column
  set g : ℕ → ℝ := fun j => S.rDash (List.ofFn x) 0 0 0 ((j : ℝ) / cols) with hg
  set D : ℝ := ∑ j ∈ Finset.range cols, (g j - (R + ρ * cos (2 * π * (j / cols)))) * cos (2 * π * (j / cols)) with hD
  -- sums over the samples
  have hsum : ∀ (v : Fin S.fitSize → ℝ) (a : ℝ → ℝ), (∀ phi theta, S.zDash (List.ofFn v) 0 0 phi theta = 0) →
      (∀ phi theta, S.rDash (List.ofFn v) 0 0 phi theta = cos (2 * π * theta) * a phi) →
      D * ∑ i ∈ Finset.range rows, a (t i) + lam * ∑ k, ((S.m2n2[k] : ℤ) : ℝ) * x k * v k = 0 := by
    intro v a hz hr
    have h := S.fit_stationary hx v
    rw [SurfaceShape.flatMap_sum] at h
    simp only [List.map_map] at h
    rw [SurfaceShape.list_range_sum] at h
    simp only [SurfaceShape.list_range_sum, Function.comp_apply] at h
    rw [← h]
    congr 1
    rw [Finset.mul_sum]
    refine Finset.sum_congr rfl fun i hi => ?_
    rw [hD, Finset.sum_mul]
    refine Finset.sum_congr rfl fun j hj => ?_
    rw [Finset.mem_range] at hi hj
    obtain ⟨l, hl⟩ := hP.theta i hi j hj
    rw [hz, hr, hP.w i hi j hj, hP.r i hi j hj, hP.phi i hi j hj, hl]
    have e1 : S.rDash (List.ofFn x) 0 0 (t i) ((j : ℝ) / cols + l) = g j := by
      have := S.rDash_shift x (t i) ((j : ℝ) / cols) 0 l
      rw [Int.cast_zero, add_zero] at this
      rw [this, hg]
      exact (hax _ _ _).1
    have e2 : cos (2 * π * ((j : ℝ) / cols + l)) = cos (2 * π * (j / cols)) := by
      rw [mul_add, mul_comm (2 * π) (l : ℝ), cos_add_int_mul_two_pi]
    rw [e1, e2]
    ring
  -- first toroidal mode
  have h1 := hsum (Pi.single k1 1 + Pi.single k2 1) (fun phi => 2 * cos (2 * π * (S.nfp * phi)))
    (fun phi theta => by rw [S.zDash_add, S.zDash_single, S.zDash_single, hk1, hk2]; simp [RowKind.entry])
    (fun phi theta => by
      rw [S.rDash_add, S.rDash_single, S.rDash_single, hk1, hk2]
      simp only [RowKind.entry, cEntry_zero]
      rw [show 2 * π * (((1 : ℤ) : ℝ) * theta - ((1 : ℤ) : ℝ) * (S.nfp * phi)) = 2 * π * theta - 2 * π * (S.nfp * phi) by push_cast; ring,
        show 2 * π * (((1 : ℤ) : ℝ) * theta - ((-1 : ℤ) : ℝ) * (S.nfp * phi)) = 2 * π * theta + 2 * π * (S.nfp * phi) by push_cast; ring,
        cos_sub, cos_add]
      ring)
  have hreg : ∑ k, ((S.m2n2[k] : ℤ) : ℝ) * x k * (Pi.single k1 1 + Pi.single k2 1 : Fin S.fitSize → ℝ) k = 0 := by
    refine Finset.sum_eq_zero fun k _ => ?_
    by_cases e1 : k = k1
    · rw [e1, hx1]
      ring
    · by_cases e2 : k = k2
      · rw [e2, hx2]
        ring
      · rw [Pi.add_apply, Pi.single_eq_of_ne e1, Pi.single_eq_of_ne e2]
        ring
  rw [hreg, mul_zero, add_zero, ← Finset.mul_sum] at h1
  have hD0 : D = 0 := by
    rcases mul_eq_zero.1 h1 with h | h
    · exact h
    · exact absurd h (mul_ne_zero two_ne_zero ht)
  -- the mode of the circle
  have h0 := hsum (Pi.single k0 1) (fun _ => 1)
    (fun phi theta => by rw [S.zDash_single, hk0]; simp [RowKind.entry])
    (fun phi theta => by rw [S.rDash_single, hk0]; simp [RowKind.entry, cEntry_zero])
  have hreg0 : ∑ k, ((S.m2n2[k] : ℤ) : ℝ) * x k * (Pi.single k0 1 : Fin S.fitSize → ℝ) k = x k0 := by
    rw [Finset.sum_eq_single k0]
    · rw [S.column_weight, hk0]
      simp
    · intro k _ hk
      rw [Pi.single_eq_of_ne hk, mul_zero]
    · intro h
      exact absurd (Finset.mem_univ k0) h
  rw [hreg0, hD0, zero_mul, zero_add] at h0
  have hxk : x k0 = 0 := (mul_eq_zero.1 h0).resolve_left hl
  have hco := S.cos_coefficient hf (A := 2 * S.ntor + 1) (B := cols) (by omega) hc (hmode 0 (by norm_num)) (k := k0) (by rw [hk0]) x
  rw [hxk, mul_zero] at hco
  have e : ∀ i j : ℕ, S.rDash (List.ofFn x) 0 0 ((i : ℝ) / (2 * S.ntor + 1 : ℕ) / S.nfp) ((j : ℝ) / cols) *
      cos (gridAngle (2 * S.ntor + 1) cols 1 0 i j) = g j * cos (2 * π * (j / cols)) := by
    intro i j
    rw [(hax _ 0 _).1, gridAngle, hg]
    congr 2
    push_cast
    ring
  simp only [e, Finset.sum_const, Finset.card_range, nsmul_eq_mul] at hco
  have hco2 : ∑ j ∈ Finset.range cols, g j * cos (2 * π * (j / cols)) = 0 :=
    (mul_eq_zero.1 hco).resolve_left (by positivity)
  have s1 := cos_sum cols (by omega) 1
  have s2 := cos_sum cols (by omega) 2
  rw [if_neg (by intro h; have := Int.le_of_dvd (by norm_num) h; omega)] at s1 s2
  have e3 : ∀ j : ℕ, (g j - (R + ρ * cos (2 * π * (j / cols)))) * cos (2 * π * (j / cols)) =
      g j * cos (2 * π * (j / cols)) - R * cos (2 * π * j * (1 : ℤ) / cols) - ρ / 2 * cos (2 * π * j * (2 : ℤ) / cols) - ρ / 2 := by
    intro j
    rw [show 2 * π * (j : ℝ) * ((1 : ℤ) : ℝ) / cols = 2 * π * (j / cols) by push_cast; ring,
      show 2 * π * (j : ℝ) * ((2 : ℤ) : ℝ) / cols = 2 * (2 * π * (j / cols)) by push_cast; ring, cos_two_mul]
    ring
  rw [hD] at hD0
  simp only [e3, Finset.sum_sub_distrib, ← Finset.mul_sum, s1, s2, hco2, Finset.sum_const, Finset.card_range, nsmul_eq_mul] at hD0
  have : ρ = 0 := by
    have h3 : (cols : ℝ) * (ρ / 2) = 0 := by linarith
    rcases mul_eq_zero.1 h3 with h | h
    · exact absurd h hcR
    · linarith
  exact hρ this

/-! ## Regular polygons -/

/-- The vertices of a regular polygon. -/
noncomputable def regularPolygon (R ρ : ℝ) (n : ℕ) (j : ℕ) : ℝ × ℝ := (R + ρ * cos (2 * π * (j / n)), ρ * sin (2 * π * (j / n)))

theorem regularPolygon_next (R ρ : ℝ) {n : ℕ} (hn : 0 < n) {j : ℕ} (hj : j < n) :
    regularPolygon R ρ n ((j + 1) % n) =
      (R + ρ * cos (2 * π * (j / n) + 2 * (π / n)), ρ * sin (2 * π * (j / n) + 2 * (π / n))) := by
  have hn' : (n : ℝ) ≠ 0 := by exact_mod_cast hn.ne'
  have e : 2 * π * ((j : ℝ) / n) + 2 * (π / n) = 2 * π * (((j + 1 : ℕ) : ℝ) / n) := by
    push_cast
    ring
  rw [e, regularPolygon]
  by_cases h : j + 1 < n
  · rw [Nat.mod_eq_of_lt h]
  · have hjn : j + 1 = n := by omega
    rw [hjn, Nat.mod_self, div_self hn']
    simp

theorem regularPolygon_edge (R ρ : ℝ) (hρ : 0 < ρ) {n : ℕ} (hn : 2 ≤ n) {j : ℕ} (hj : j < n) :
    edgeLength n (regularPolygon R ρ n) j = 2 * ρ * sin (π / n) := by
  have hn' : (2 : ℝ) ≤ n := by exact_mod_cast hn
  have hs : 0 ≤ sin (π / n) := sin_nonneg_of_nonneg_of_le_pi (by positivity) (div_le_self pi_pos.le (by linarith))
  rw [edgeLength, regularPolygon_next R ρ (by omega) hj, regularPolygon]
  rw [← sqrt_sq (by positivity : 0 ≤ 2 * ρ * sin (π / n))]
  congr 1
  simp only
  have h1 := sin_sq_add_cos_sq (2 * π * ((j : ℝ) / n))
  have h2 := sin_sq_add_cos_sq (π / n)
  rw [cos_add, sin_add, cos_two_mul, sin_two_mul]
  generalize 2 * π * ((j : ℝ) / n) = a at *
  generalize π / (n : ℝ) = b at *
  have h3 : cos b ^ 2 = 1 - sin b ^ 2 := by linarith
  have h4 : cos a ^ 2 = 1 - sin a ^ 2 := by linarith
  ring_nf
  rw [h3, h4, show cos b ^ 4 = (1 - sin b ^ 2) ^ 2 by rw [← h3]; ring]
  ring

theorem regularPolygon_angle (R ρ : ℝ) (hρ : 0 < ρ) {n : ℕ} (hn : 2 ≤ n) {j : ℕ} (hj : j < n) :
    thetaArc n (regularPolygon R ρ n) j = (j : ℝ) / n := by
  have hn' : (2 : ℝ) ≤ n := by exact_mod_cast hn
  have hs : 0 < sin (π / n) := sin_pos_of_pos_of_lt_pi (by positivity) (div_lt_self pi_pos (by linarith))
  rw [C65_angle_formula_partial n (by omega), perimeter]
  rw [Finset.sum_congr rfl fun k hk => regularPolygon_edge R ρ hρ hn (j := k + 1) (by rw [Finset.mem_range] at hk; omega)]
  rw [Finset.sum_congr rfl fun k hk => regularPolygon_edge R ρ hρ hn (j := k) (Finset.mem_range.1 hk)]
  simp only [Finset.sum_const, Finset.card_range, nsmul_eq_mul]
  have hp : 2 * ρ * sin (π / n) ≠ 0 := by positivity
  rw [mul_div_mul_right _ _ hp]

/-- The vertices that are not on an edge of a regular polygon are on one side of it. -/
theorem regularPolygon_side {n b k : ℕ} (hn : 3 ≤ n) (hb : b < n) (hk : k < n) (h1 : k ≠ b) (h2 : k ≠ (b + 1) % n) :
    cos (2 * π * ((k : ℝ) / n) - (2 * π * (b / n) + π / n)) < cos (π / n) := by
  have hn' : (0 : ℝ) < n := by exact_mod_cast (by omega : 0 < n)
  have hs : 0 < sin (π / n) := sin_pos_of_pos_of_lt_pi (by positivity) (div_lt_self pi_pos (by exact_mod_cast (by omega : 1 < n)))
  have e : cos (π / n) - cos (2 * π * ((k : ℝ) / n) - (2 * π * (b / n) + π / n)) =
      2 * (sin (π * ((k : ℝ) - b) / n) * sin (π * ((k : ℝ) - b - 1) / n)) := by
    rw [cos_sub_cos, show (π / n + (2 * π * ((k : ℝ) / n) - (2 * π * (b / n) + π / n))) / 2 = π * ((k : ℝ) - b) / n by ring,
      show (π / n - (2 * π * ((k : ℝ) / n) - (2 * π * (b / n) + π / n))) / 2 = -(π * ((k : ℝ) - b - 1) / n) by ring, sin_neg]
    ring
  have hpos : 0 < sin (π * ((k : ℝ) - b) / n) * sin (π * ((k : ℝ) - b - 1) / n) := by
    rcases lt_or_gt_of_ne h1 with h | h
    · have hkb : b + 1 - k < n := by
        by_cases hbn : b + 1 = n
        · rw [hbn, Nat.mod_self] at h2
          omega
        · omega
      have c1 : (k : ℝ) + 1 ≤ b := by exact_mod_cast h
      have c2 : (b : ℝ) + 1 < n + k := by exact_mod_cast (by omega : b + 1 < n + k)
      apply mul_pos_of_neg_of_neg
      · apply sin_neg_of_neg_of_neg_pi_lt
        · exact div_neg_of_neg_of_pos (mul_neg_of_pos_of_neg pi_pos (by linarith)) hn'
        · rw [lt_div_iff₀ hn']
          nlinarith [pi_pos]
      · apply sin_neg_of_neg_of_neg_pi_lt
        · exact div_neg_of_neg_of_pos (mul_neg_of_pos_of_neg pi_pos (by linarith)) hn'
        · rw [lt_div_iff₀ hn']
          nlinarith [pi_pos]
    · have hkb : b + 2 ≤ k := by
        have : (b + 1) % n = b + 1 := Nat.mod_eq_of_lt (by omega)
        omega
      have c1 : (b : ℝ) + 2 ≤ k := by exact_mod_cast hkb
      have c2 : (k : ℝ) < n := by exact_mod_cast hk
      have c3 : (0 : ℝ) ≤ b := Nat.cast_nonneg b
      apply mul_pos
      · apply sin_pos_of_pos_of_lt_pi
        · exact div_pos (mul_pos pi_pos (by linarith)) hn'
        · rw [div_lt_iff₀ hn']
          nlinarith [pi_pos]
      · apply sin_pos_of_pos_of_lt_pi
        · exact div_pos (mul_pos pi_pos (by linarith)) hn'
        · rw [div_lt_iff₀ hn']
          nlinarith [pi_pos]
  linarith

/-- Edges of a regular polygon that are not neighbours have no common point. -/
theorem regularPolygon_simple (R ρ : ℝ) (hρ : 0 < ρ) {n : ℕ} (hn : 3 ≤ n) (a b : ℕ) (ha : a < n) (hb : b < n) (h1 : a ≠ b)
    (h2 : a ≠ (b + 1) % n) (h3 : b ≠ (a + 1) % n) :
    segment ℝ (regularPolygon R ρ n a) (regularPolygon R ρ n ((a + 1) % n)) ∩
      segment ℝ (regularPolygon R ρ n b) (regularPolygon R ρ n ((b + 1) % n)) = ∅ := by
  rw [Set.eq_empty_iff_forall_notMem]
  rintro q ⟨hqa, hqb⟩
  set α : ℝ := 2 * π * ((b : ℝ) / n) + π / n with hα
  -- distance from the edge `b`
  set f : ℝ × ℝ → ℝ := fun p => (p.1 - R) * cos α + p.2 * sin α with hf
  have haff : ∀ (u v : ℝ × ℝ) (s t : ℝ), s + t = 1 → f (s • u + t • v) = s * f u + t * f v := by
    intro u v s t hst
    simp only [hf, Prod.fst_add, Prod.smul_fst, Prod.snd_add, Prod.smul_snd, smul_eq_mul]
    linear_combination (R * cos α) * hst
  have hval : ∀ β, f (R + ρ * cos β, ρ * sin β) = ρ * cos (β - α) := by
    intro β
    simp only [hf]
    rw [cos_sub]
    ring
  have hb0 : f (regularPolygon R ρ n b) = ρ * cos (π / n) := by
    rw [regularPolygon, hval, hα, ← cos_neg]
    congr 2
    ring
  have hb1 : f (regularPolygon R ρ n ((b + 1) % n)) = ρ * cos (π / n) := by
    rw [regularPolygon_next R ρ (by omega) hb, hval, hα]
    congr 2
    ring
  have hvert : ∀ k < n, k ≠ b → k ≠ (b + 1) % n → f (regularPolygon R ρ n k) < ρ * cos (π / n) := by
    intro k hk e1 e2
    rw [regularPolygon, hval]
    exact mul_lt_mul_of_pos_left (regularPolygon_side hn hb hk e1 e2) hρ
  have ha0 := hvert a ha h1 h2
  have ha1 := hvert ((a + 1) % n) (Nat.mod_lt _ (by omega)) (fun h => h3 h.symm) (by
    intro h
    apply h1
    by_cases e1 : a + 1 = n <;> by_cases e2 : b + 1 = n
    · omega
    · rw [e1, Nat.mod_self, Nat.mod_eq_of_lt (by omega)] at h
      omega
    · rw [e2, Nat.mod_self, Nat.mod_eq_of_lt (by omega)] at h
      omega
    · rw [Nat.mod_eq_of_lt (by omega), Nat.mod_eq_of_lt (by omega)] at h
      omega)
  obtain ⟨s, t, hs, ht, hst, rfl⟩ := hqa
  obtain ⟨s', t', hs', ht', hst', he⟩ := hqb
  have e1 := haff (regularPolygon R ρ n b) (regularPolygon R ρ n ((b + 1) % n)) s' t' hst'
  have e2 := haff (regularPolygon R ρ n a) (regularPolygon R ρ n ((a + 1) % n)) s t hst
  rw [he, hb0, hb1] at e1
  rw [e1] at e2
  generalize f (regularPolygon R ρ n a) = u at *
  generalize f (regularPolygon R ρ n ((a + 1) % n)) = v at *
  generalize ρ * cos (π / n) = c at *
  have e3 : c = s * u + t * v := by rw [← e2, ← add_mul, hst', one_mul]
  have e4 : s * (c - u) + t * (c - v) = 0 := by linear_combination e3 + c * hst
  have p1 := mul_nonneg hs (sub_nonneg.2 ha0.le)
  have p2 := mul_nonneg ht (sub_nonneg.2 ha1.le)
  have z1 : s * (c - u) = 0 := by linarith
  have z2 : t * (c - v) = 0 := by linarith
  have s0 : s = 0 := (mul_eq_zero.1 z1).resolve_right (sub_pos.2 ha0).ne'
  have t0 : t = 0 := (mul_eq_zero.1 z2).resolve_right (sub_pos.2 ha1).ne'
  rw [s0, t0] at hst
  norm_num at hst

/-- No vertex of a regular polygon is removed. -/
theorem regularPolygon_kept (R ρ : ℝ) (hρ : 0 < ρ) {n : ℕ} (hn : 3 ≤ n) {j : ℕ} (hj : j < n) :
    polygonWeight n (regularPolygon R ρ n) j = 1 :=
  C50_simple_polygon_kept n (by omega) _ (regularPolygon_simple R ρ hρ hn) j hj

/-! ## Toroidal samples -/

theorem half_cos_sum (h : ℝ) (L : ℕ) : 2 * sin h * ∑ i ∈ Finset.range L, cos (2 * h * i) = sin ((2 * L - 1) * h) + sin h := by
  induction L with
  | zero => simp [neg_one_mul, sin_neg]
  | succ L ih =>
    rw [Finset.sum_range_succ, mul_add, ih]
    have e : sin ((2 * ((L + 1 : ℕ) : ℝ) - 1) * h) = sin (2 * h * L + h) := by
      congr 1
      push_cast
      ring
    have e2 : sin ((2 * (L : ℝ) - 1) * h) = sin (2 * h * L - h) := by
      congr 1
      ring
    rw [e, e2, sin_add, sin_sub]
    ring

theorem half_sin_sum (h : ℝ) (L : ℕ) : 2 * sin h * ∑ i ∈ Finset.range L, sin (2 * h * i) = cos h - cos ((2 * L - 1) * h) := by
  induction L with
  | zero => simp [neg_one_mul, cos_neg]
  | succ L ih =>
    rw [Finset.sum_range_succ, mul_add, ih]
    have e : cos ((2 * ((L + 1 : ℕ) : ℝ) - 1) * h) = cos (2 * h * L + h) := by
      congr 1
      push_cast
      ring
    have e2 : cos ((2 * (L : ℝ) - 1) * h) = cos (2 * h * L - h) := by
      congr 1
      ring
    rw [e, e2, cos_add, cos_sub]
    ring

/-- The toroidal samples of the second fit do not average out the first toroidal mode. -/
theorem interp_cos_sum {nfp : ℕ} (hf : nfp ≠ 0) (stellsym : Bool) {nPhi tor : ℕ} (hN : 2 ≤ nPhi * tor) :
    0 < ∑ i ∈ Finset.range (interpRows stellsym nPhi tor), cos (2 * π * (nfp * interpPhi nfp nPhi tor i)) := by
  have hf' : (nfp : ℝ) ≠ 0 := by exact_mod_cast hf
  obtain ⟨K, hK⟩ : ∃ K, nPhi * tor = K + 1 := ⟨nPhi * tor - 1, by omega⟩
  have hK1 : 1 ≤ K := by omega
  have hKR : (1 : ℝ) ≤ K := by exact_mod_cast hK1
  have hK0 : (K : ℝ) ≠ 0 := by linarith
  have e : ∀ i : ℕ, 2 * π * (nfp * interpPhi nfp nPhi tor i) = 2 * (π / K) * i := by
    intro i
    rw [interpPhi, phiInterp, hK]
    push_cast
    rw [add_sub_cancel_right]
    field_simp
  simp only [e, interpRows, hK]
  by_cases hs : stellsym = true
  · rw [if_pos hs]
    by_cases hK2 : K = 1
    · subst hK2
      simp
    · have hsin : 0 < sin (π / K) := sin_pos_of_pos_of_lt_pi (by positivity)
        (div_lt_self pi_pos (by exact_mod_cast (by omega : 1 < K)))
      have h := half_cos_sum (π / K) ((K + 1) / 2)
      have h2 : 0 ≤ sin ((2 * (((K + 1) / 2 : ℕ) : ℝ) - 1) * (π / K)) := by
        have c1 : (1 : ℝ) ≤ (((K + 1) / 2 : ℕ) : ℝ) := by exact_mod_cast (by omega : 1 ≤ (K + 1) / 2)
        have c2 : 2 * (((K + 1) / 2 : ℕ) : ℝ) ≤ K + 1 := by exact_mod_cast (by omega : 2 * ((K + 1) / 2) ≤ K + 1)
        apply sin_nonneg_of_nonneg_of_le_pi
        · exact mul_nonneg (by linarith) (by positivity)
        · calc (2 * (((K + 1) / 2 : ℕ) : ℝ) - 1) * (π / K) ≤ K * (π / K) := by gcongr; linarith
            _ = π := by field_simp
      have h3 : 0 < 2 * sin (π / K) * ∑ i ∈ Finset.range ((K + 1) / 2), cos (2 * (π / K) * i) := by linarith
      exact (mul_pos_iff_of_pos_left (by positivity)).1 h3
  · rw [if_neg hs, Finset.sum_range_succ]
    have h := cos_sum K (by omega) 1
    have e2 : ∀ i : ℕ, 2 * (π / K) * (i : ℝ) = 2 * π * i * (1 : ℤ) / K := by
      intro i
      push_cast
      ring
    have e3 : cos (2 * (π / K) * K) = 1 := by
      rw [show 2 * (π / K) * (K : ℝ) = 2 * π by field_simp, cos_two_pi]
    rw [e3]
    simp only [e2]
    rw [h]
    split_ifs <;> linarith

/-! ## The generators -/

theorem sectionPoint_torus {S : SurfaceShape} {x : Fin S.fitSize → ℝ} {R ρ : ℝ} (hR : |ρ| < R) (hx : IsTorus S x R ρ)
    (nPhi nTheta tor pol i : ℕ) :
    sectionPoint S (List.ofFn x) nPhi nTheta tor pol i = regularPolygon R ρ (nTheta * pol) := by
  funext j
  have hang : (j : ℝ) * (1 / (nTheta * pol : ℕ)) = j / (nTheta * pol : ℕ) := by ring
  simp only [sectionPoint, gamma_rz, (hx _ _).1, (hx _ _).2, hang, regularPolygon]
  have hpos : 0 ≤ R + ρ * cos (2 * π * ((j : ℝ) / (nTheta * pol : ℕ))) := by
    have h1 := abs_cos_le_one (2 * π * ((j : ℝ) / (nTheta * pol : ℕ)))
    have h2 : |ρ * cos (2 * π * ((j : ℝ) / (nTheta * pol : ℕ)))| ≤ |ρ| := by
      rw [abs_mul]
      exact mul_le_of_le_one_right (abs_nonneg _) h1
    have h3 := neg_abs_le (ρ * cos (2 * π * ((j : ℝ) / (nTheta * pol : ℕ))))
    linarith
  rw [show ∀ a s c : ℝ, (a * s) ^ 2 + (a * c) ^ 2 = a ^ 2 * (s ^ 2 + c ^ 2) by intros; ring, sin_sq_add_cos_sq, mul_one, sqrt_sq hpos]

/-- The samples of the second fit of the arc generator. -/
noncomputable def arcSample (S : SurfaceShape) (dofs : List ℝ) (nPhi nTheta tor pol i j : ℕ) : FitPoint :=
  { phi := interpPhi S.nfp nPhi tor i
    theta := thetaArc (nTheta * pol) (sectionPoint S dofs nPhi nTheta tor pol i) j
    r := (sectionPoint S dofs nPhi nTheta tor pol i j).1
    z := (sectionPoint S dofs nPhi nTheta tor pol i j).2
    w := polygonWeight (nTheta * pol) (sectionPoint S dofs nPhi nTheta tor pol i) j }

theorem arcSample_torus {S : SurfaceShape} {x : Fin S.fitSize → ℝ} {R ρ : ℝ} (hρ : 0 < ρ) (hR : ρ < R) (hx : IsTorus S x R ρ)
    {nPhi nTheta tor pol : ℕ} (hn : 3 ≤ nTheta * pol) (rows : ℕ) :
    TorusSamples S.nfp R ρ rows (nTheta * pol) (interpPhi S.nfp nPhi tor) (arcSample S (List.ofFn x) nPhi nTheta tor pol) := by
  have hs := sectionPoint_torus (by rwa [abs_of_pos hρ]) hx nPhi nTheta tor pol
  refine ⟨fun i _ j _ => rfl, fun i _ j hj => ⟨0, ?_⟩, fun i _ j _ => ?_, fun i _ j _ => ?_, fun i _ j hj => ?_⟩
  · simp only [arcSample, hs]
    rw [regularPolygon_angle R ρ hρ (by omega) hj]
    simp
  · simp only [arcSample, hs, regularPolygon]
  · simp only [arcSample, hs, regularPolygon]
  · simp only [arcSample, hs]
    exact regularPolygon_kept R ρ hρ hn hj

/-- The coefficients of a torus and their Tikhonov term. -/
theorem torus_exists_weight (S : SurfaceShape) (hm : 1 ≤ S.mpol) (R ρ : ℝ) :
    ∃ x, IsTorus S x R ρ ∧ ∑ k, ((S.m2n2[k] : ℤ) : ℝ) * x k ^ 2 = 2 * ρ ^ 2 := by
  have h10 : ((1 : ℤ), (0 : ℤ)) ∈ S.sinModes := S.mem_sinModes.2 (Or.inr ⟨by norm_num, by exact_mod_cast hm, by simp⟩)
  obtain ⟨k0, h0⟩ := S.cos_column (m := 0) (n := 0) (by rw [S.cosModes_eq]; exact List.mem_cons_self)
  obtain ⟨k1, h1⟩ := S.cos_column (m := 1) (n := 0) (by rw [S.cosModes_eq]; exact List.mem_cons_of_mem _ h10)
  obtain ⟨k2, h2⟩ := S.sin_column h10
  have n01 : k0 ≠ k1 := by
    rintro rfl
    rw [h0] at h1
    simp at h1
  have n02 : k0 ≠ k2 := by
    rintro rfl
    rw [h0] at h2
    simp at h2
  have n12 : k1 ≠ k2 := by
    rintro rfl
    rw [h1] at h2
    simp at h2
  refine ⟨Pi.single k0 R + Pi.single k1 ρ + Pi.single k2 ρ, fun phi theta => ⟨?_, ?_⟩, ?_⟩
  · rw [S.rDash_add, S.rDash_add, S.rDash_single, S.rDash_single, S.rDash_single, h0, h1, h2]
    simp [RowKind.entry, cEntry_zero]
  · rw [S.zDash_add, S.zDash_add, S.zDash_single, S.zDash_single, S.zDash_single, h0, h1, h2]
    simp [RowKind.entry, sEntry_zero]
  · have e : ∀ k, ((S.m2n2[k] : ℤ) : ℝ) * (Pi.single k0 R + Pi.single k1 ρ + Pi.single k2 ρ : Fin S.fitSize → ℝ) k ^ 2 =
        (if k = k1 then ρ ^ 2 else 0) + if k = k2 then ρ ^ 2 else 0 := by
      intro k
      simp only [Pi.add_apply, Pi.single_apply, S.column_weight]
      by_cases e0 : k = k0
      · subst e0
        rw [h0, if_neg n01, if_neg n02, if_neg n01, if_neg n02]
        simp
      · by_cases e1 : k = k1
        · subst e1
          rw [h1, if_neg e0, if_pos rfl, if_neg n12, if_neg n12]
          simp
        · by_cases e2 : k = k2
          · subst e2
            rw [h2]
            simp [e0, e1]
          · rw [if_neg e0, if_neg e1, if_neg e2, if_neg e1, if_neg e2]
            simp
    simp only [e, Finset.sum_add_distrib, Finset.sum_ite_eq', Finset.mem_univ, if_true]
    ring

/-- A regularised fit of a torus is close to it at the samples. -/
theorem torus_fit_close (S : SurfaceShape) (hm : 1 ≤ S.mpol) {R ρ : ℝ} {rows cols : ℕ} {t : ℕ → ℝ} {P : ℕ → ℕ → FitPoint}
    (hP : TorusSamples S.nfp R ρ rows cols t P) {lam : ℝ} (hl : 0 ≤ lam) {x : Fin S.fitSize → ℝ}
    (hx : S.IsFit lam ((List.range rows).flatMap fun i => (List.range cols).map fun j => P i j) x) :
    ∑ i ∈ Finset.range rows, ∑ j ∈ Finset.range cols,
      ((S.rDash (List.ofFn x) 0 0 (t i) (j / cols) - (R + ρ * cos (2 * π * (j / cols)))) ^ 2 +
        (S.zDash (List.ofFn x) 0 0 (t i) (j / cols) - ρ * sin (2 * π * (j / cols))) ^ 2) ≤ 2 * lam * ρ ^ 2 := by
  obtain ⟨c, hc, hw⟩ := torus_exists_weight S hm R ρ
  have h := C52_fit_is_minimiser S lam hl _ x hx c
  have key : ∀ y : Fin S.fitSize → ℝ, S.fitObjective lam ((List.range rows).flatMap fun i => (List.range cols).map fun j => P i j) y =
      ∑ i ∈ Finset.range rows, ∑ j ∈ Finset.range cols,
        ((S.rDash (List.ofFn y) 0 0 (t i) (j / cols) - (R + ρ * cos (2 * π * (j / cols)))) ^ 2 +
          (S.zDash (List.ofFn y) 0 0 (t i) (j / cols) - ρ * sin (2 * π * (j / cols))) ^ 2) +
      lam * ∑ k, ((S.m2n2[k] : ℤ) : ℝ) * y k ^ 2 := by
    intro y
    rw [SurfaceShape.fitObjective, SurfaceShape.flatMap_sum]
    simp only [List.map_map]
    rw [SurfaceShape.list_range_sum]
    simp only [SurfaceShape.list_range_sum, Function.comp_apply]
    congr 1
    refine Finset.sum_congr rfl fun i hi => Finset.sum_congr rfl fun j hj => ?_
    rw [Finset.mem_range] at hi hj
    obtain ⟨l, hl⟩ := hP.theta i hi j hj
    have e1 := S.rDash_shift y (t i) ((j : ℝ) / cols) 0 l
    have e2 := S.zDash_shift y (t i) ((j : ℝ) / cols) 0 l
    rw [Int.cast_zero, add_zero] at e1 e2
    rw [hP.w i hi j hj, hP.r i hi j hj, hP.z i hi j hj, hP.phi i hi j hj, hl, e1, e2]
    ring
  rw [key, key, hw] at h
  have h0 : ∑ i ∈ Finset.range rows, ∑ j ∈ Finset.range cols,
      ((S.rDash (List.ofFn c) 0 0 (t i) (j / cols) - (R + ρ * cos (2 * π * (j / cols)))) ^ 2 +
        (S.zDash (List.ofFn c) 0 0 (t i) (j / cols) - ρ * sin (2 * π * (j / cols))) ^ 2) = 0 := by
    refine Finset.sum_eq_zero fun i _ => Finset.sum_eq_zero fun j _ => ?_
    rw [(hc _ _).1, (hc _ _).2]
    ring
  have h1 : (0 : ℝ) ≤ lam * ∑ k, ((S.m2n2[k] : ℤ) : ℝ) * x k ^ 2 :=
    mul_nonneg hl (Finset.sum_nonneg fun k _ => mul_nonneg (S.m2n2_nonneg k) (sq_nonneg _))
  rw [h0] at h
  linarith

/-- What the second fit makes of a torus: close to it, but not axisymmetric. -/
theorem torus_second_fit {nfp nPhi nTheta mpol ntor tor pol : ℕ} (hf : nfp ≠ 0) {R ρ : ℝ} (hρ : 0 < ρ) (stellsym : Bool)
    (hm : 1 ≤ mpol) (hn : 1 ≤ ntor) (hres : Resolves stellsym nPhi nTheta mpol ntor) (htor : 1 ≤ tor) (hpol : 1 ≤ pol) {lam : ℝ} (hl : 0 < lam)
    {P : ℕ → ℕ → FitPoint}
    (hP : TorusSamples nfp R ρ (interpRows stellsym nPhi tor) (nTheta * pol) (interpPhi nfp nPhi tor) P)
    {x : Fin (SurfaceShape.mk nfp stellsym mpol ntor).fitSize → ℝ}
    (hx : (SurfaceShape.mk nfp stellsym mpol ntor).IsFit lam
      ((List.range (interpRows stellsym nPhi tor)).flatMap fun i => (List.range (nTheta * pol)).map fun j => P i j) x) :
    ¬ IsAxisymmetric (SurfaceShape.mk nfp stellsym mpol ntor) x ∧
    ∑ i ∈ Finset.range (interpRows stellsym nPhi tor), ∑ j ∈ Finset.range (nTheta * pol),
      (((SurfaceShape.mk nfp stellsym mpol ntor).rDash (List.ofFn x) 0 0 (interpPhi nfp nPhi tor i) (j / (nTheta * pol : ℕ)) -
          (R + ρ * cos (2 * π * (j / (nTheta * pol : ℕ))))) ^ 2 +
        ((SurfaceShape.mk nfp stellsym mpol ntor).zDash (List.ofFn x) 0 0 (interpPhi nfp nPhi tor i) (j / (nTheta * pol : ℕ)) -
          ρ * sin (2 * π * (j / (nTheta * pol : ℕ)))) ^ 2) ≤ 2 * lam * ρ ^ 2 := by
  have hN : 2 ≤ nPhi * tor := by
    have h1 : 2 ≤ nPhi := by
      have := hres.2
      split_ifs at this <;> omega
    exact h1.trans (Nat.le_mul_of_pos_right _ htor)
  have hc : 2 * mpol < nTheta * pol := hres.1.trans_le (Nat.le_mul_of_pos_right _ hpol)
  exact ⟨torus_fit_not_axisymmetric (SurfaceShape.mk nfp stellsym mpol ntor) hf hm hn hρ.ne' hc hP
    (interp_cos_sum hf stellsym hN).ne' hl.ne' hx, torus_fit_close _ hm hP hl.le hx⟩

/-- **C147, arc length generator.** Even with the exact unit normals of a circular torus and on grids that resolve all modes, the result of
the arc length generator is not axisymmetric, whatever the Tikhonov parameter. It is close to the concentric torus at the requested
distance if the parameter is small. -/
theorem C147_arc_violated_partial {nfp nPhi nTheta mpol ntor tor pol : ℕ} (hf : nfp ≠ 0) {R r d : ℝ} (hr : 0 < r + d) (hR : r + d < R)
    (stellsym : Bool) (hm : 1 ≤ mpol) (hn : 1 ≤ ntor) (hres : Resolves stellsym nPhi nTheta mpol ntor) (htor : 1 ≤ tor) (hpol : 1 ≤ pol)
    {lam : ℝ} (hl : 0 < lam) :
    let S := generatedShape (torusGrid nfp nPhi nTheta R r) stellsym mpol ntor
    (∃ x, IsArcResult (torusGrid nfp nPhi nTheta R r) (some (torusNormals nfp nPhi nTheta)) d stellsym mpol ntor tor pol lam x) ∧
    ∀ x, IsArcResult (torusGrid nfp nPhi nTheta R r) (some (torusNormals nfp nPhi nTheta)) d stellsym mpol ntor tor pol lam x →
      ¬ IsAxisymmetric S x ∧
      ∑ i ∈ Finset.range (interpRows stellsym nPhi tor), ∑ j ∈ Finset.range (nTheta * pol),
        ((S.rDash (List.ofFn x) 0 0 (interpPhi nfp nPhi tor i) (j / (nTheta * pol : ℕ)) -
            (R + (r + d) * cos (2 * π * (j / (nTheta * pol : ℕ))))) ^ 2 +
          (S.zDash (List.ofFn x) 0 0 (interpPhi nfp nPhi tor i) (j / (nTheta * pol : ℕ)) -
            (r + d) * sin (2 * π * (j / (nTheta * pol : ℕ)))) ^ 2) ≤ 2 * lam * (r + d) ^ 2 := by
  intro S
  have hc : 3 ≤ nTheta * pol := by
    have h1 : 3 ≤ nTheta := by have := hres.1; omega
    exact h1.trans (Nat.le_mul_of_pos_right _ hpol)
  obtain ⟨⟨x0, hx0⟩, hall⟩ := C147_offset_exact_normals hf (by rwa [abs_of_pos hr] : |r + d| < R) stellsym hm hres
  have hrows : 0 < interpRows stellsym nPhi tor := by
    have h1 : 2 ≤ nPhi := by
      have := hres.2
      split_ifs at this <;> omega
    have h2 : 2 ≤ nPhi * tor := h1.trans (Nat.le_mul_of_pos_right _ htor)
    rw [interpRows]
    split_ifs <;> omega
  constructor
  · have hs := arcSample_torus hr hR (hall x0 hx0) (nPhi := nPhi) (tor := tor) hc (interpRows stellsym nPhi tor)
    have hmem : arcSample S (List.ofFn x0) nPhi nTheta tor pol 0 0 ∈ arcSamples S (List.ofFn x0) nPhi nTheta tor pol :=
      List.mem_flatMap.2 ⟨0, List.mem_range.2 hrows, List.mem_map.2 ⟨0, List.mem_range.2 (by omega), rfl⟩⟩
    obtain ⟨x, hx, -⟩ := C52_fit_exists_unique S lam hl _ ⟨_, hmem, by rw [hs.w 0 hrows 0 (by omega)]; norm_num⟩
    exact ⟨x, x0, hx0, hx⟩
  · rintro x ⟨x1, hx1, hx⟩
    exact torus_second_fit hf hr stellsym hm hn hres htor hpol hl
      (arcSample_torus hr hR (hall x1 hx1) (nPhi := nPhi) (tor := tor) hc (interpRows stellsym nPhi tor)) hx

/-! ## Angles around the centre -/

theorem torus_centre {nfp nPhi nTheta : ℕ} (hn : 2 ≤ nTheta) {R r : ℝ} (hR : |r| < R) (c : ℕ) :
    centrePoint (torusGrid nfp nPhi nTheta R r) c = (R, 0) := by
  have hn' : (nTheta : ℝ) ≠ 0 := by exact_mod_cast (by omega : nTheta ≠ 0)
  have hq : ∀ j, (torusGrid nfp nPhi nTheta R r).gamma c j =
      revolve (2 * π * c / (nfp * nPhi)) (R + r * cos (2 * π * j / nTheta), r * sin (2 * π * j / nTheta)) := fun j => rfl
  have hr : ∀ j : ℕ, sqrt (((torusGrid nfp nPhi nTheta R r).gamma c j).y ^ 2 + ((torusGrid nfp nPhi nTheta R r).gamma c j).x ^ 2) =
      R + r * cos (2 * π * j * (1 : ℤ) / nTheta) := by
    intro j
    have hpos : 0 ≤ R + r * cos (2 * π * j / nTheta) := by
      have h1 := abs_cos_le_one (2 * π * j / nTheta)
      have h2 : |r * cos (2 * π * j / nTheta)| ≤ |r| := by
        rw [abs_mul]
        exact mul_le_of_le_one_right (abs_nonneg _) h1
      have h3 := neg_abs_le (r * cos (2 * π * j / nTheta))
      linarith
    rw [hq]
    simp only [revolve]
    rw [show ∀ a s c : ℝ, (a * s) ^ 2 + (a * c) ^ 2 = a ^ 2 * (s ^ 2 + c ^ 2) by intros; ring, sin_sq_add_cos_sq, mul_one, sqrt_sq hpos]
    simp
  have hz : ∀ j : ℕ, ((torusGrid nfp nPhi nTheta R r).gamma c j).z = r * sin (2 * π * j * (1 : ℤ) / nTheta) := by
    intro j
    rw [hq]
    simp [revolve]
  have hT : (torusGrid nfp nPhi nTheta R r).nTheta = nTheta := rfl
  have s1 := cos_sum nTheta (by omega) 1
  have s2 := sin_sum nTheta (by omega) 1
  rw [if_neg (by intro h; have := Int.le_of_dvd (by norm_num) h; omega)] at s1
  rw [centrePoint, hT, SurfaceShape.list_range_sum, SurfaceShape.list_range_sum]
  simp only [hr, hz, Finset.sum_add_distrib, ← Finset.mul_sum, s1, s2, Finset.sum_const, Finset.card_range, nsmul_eq_mul]
  rw [mul_zero, add_zero, zero_div, mul_div_cancel_left₀ _ hn']

theorem torus_atan {R ρ t : ℝ} (hρ : 0 < ρ) : ∃ l : ℤ, thetaAtan (R + ρ * cos (2 * π * t), ρ * sin (2 * π * t)) (R, 0) = t + l := by
  obtain ⟨k, hk⟩ := arg_turns (t := 2 * π * t) hρ
  rw [mul_div_cancel_left₀ t (by positivity)] at hk
  simp only [thetaAtan, add_sub_cancel_left, sub_zero, hk]
  split_ifs
  · exact ⟨k, rfl⟩
  · exact ⟨k + 1, by push_cast; ring⟩

/-- The samples of the second fit of the arctangent generator. -/
noncomputable def atanSample (G : PlasmaGrid) (S : SurfaceShape) (dofs : List ℝ) (tor pol i j : ℕ) : FitPoint :=
  { phi := interpPhi S.nfp G.nPhi tor i
    theta := thetaAtan (sectionPoint S dofs G.nPhi G.nTheta tor pol i j) (centrePoint G i)
    r := (sectionPoint S dofs G.nPhi G.nTheta tor pol i j).1
    z := (sectionPoint S dofs G.nPhi G.nTheta tor pol i j).2
    w := polygonWeight (G.nTheta * pol) (sectionPoint S dofs G.nPhi G.nTheta tor pol i) j }

theorem atanSamples_matching (G : PlasmaGrid) (S : SurfaceShape) (dofs : List ℝ) (tor pol : ℕ)
    (h : ∀ i, centreRow S.stellsym G.nPhi tor i = .ok i) :
    atanSamples G S dofs tor pol = .ok ((List.range (interpRows S.stellsym G.nPhi tor)).flatMap fun i =>
      (List.range (G.nTheta * pol)).map fun j => atanSample G S dofs tor pol i j) := by
  have e : ∀ l : List ℕ, (l.mapM fun i => do
      let c ← centreRow S.stellsym G.nPhi tor i
      (.ok (atanRow G S dofs tor pol i c) : Except PyErr (List FitPoint))) = .ok (l.map fun i => atanRow G S dofs tor pol i i) := by
    intro l
    induction l with
    | nil => rfl
    | cons a l ih =>
      rw [List.mapM_cons, ih, h a]
      rfl
  rw [atanSamples, e]
  rfl

theorem atanSample_torus {nfp nPhi nTheta mpol ntor tor pol : ℕ} {stellsym : Bool} {R r ρ : ℝ} (hr : |r| < R) (hρ : 0 < ρ) (hR : ρ < R)
    {x : Fin (generatedShape (torusGrid nfp nPhi nTheta R r) stellsym mpol ntor).fitSize → ℝ}
    (hx : IsTorus (generatedShape (torusGrid nfp nPhi nTheta R r) stellsym mpol ntor) x R ρ) (ht : 2 ≤ nTheta) (hn : 3 ≤ nTheta * pol)
    (rows : ℕ) :
    TorusSamples nfp R ρ rows (nTheta * pol) (interpPhi nfp nPhi tor)
      (atanSample (torusGrid nfp nPhi nTheta R r) (generatedShape (torusGrid nfp nPhi nTheta R r) stellsym mpol ntor) (List.ofFn x) tor pol) := by
  have hs : ∀ i, sectionPoint (generatedShape (torusGrid nfp nPhi nTheta R r) stellsym mpol ntor) (List.ofFn x)
      (torusGrid nfp nPhi nTheta R r).nPhi (torusGrid nfp nPhi nTheta R r).nTheta tor pol i = regularPolygon R ρ (nTheta * pol) :=
    fun i => sectionPoint_torus (by rwa [abs_of_pos hρ]) hx nPhi nTheta tor pol i
  refine ⟨fun i _ j _ => rfl, fun i _ j hj => ?_, fun i _ j _ => ?_, fun i _ j _ => ?_, fun i _ j hj => ?_⟩
  · simp only [atanSample, hs, torus_centre ht hr, regularPolygon]
    exact torus_atan hρ
  · simp only [atanSample, hs, regularPolygon]
  · simp only [atanSample, hs, regularPolygon]
  · simp only [atanSample, hs]
    exact regularPolygon_kept R ρ hρ hn hj

/-- **C147, arctangent generator.** The same for the arctangent generator with stellarator symmetry and the default interpolation, the
case in which it works (C101). -/
theorem C147_atan_violated_partial {nfp nPhi nTheta mpol ntor pol : ℕ} (hf : nfp ≠ 0) {R r d : ℝ} (hr0 : |r| < R) (hr : 0 < r + d)
    (hR : r + d < R) (hm : 1 ≤ mpol) (hn : 1 ≤ ntor) (hres : Resolves true nPhi nTheta mpol ntor) (hpol : 1 ≤ pol) {lam : ℝ} (hl : 0 < lam) :
    let S := generatedShape (torusGrid nfp nPhi nTheta R r) true mpol ntor
    (∃ x, IsAtanResult (torusGrid nfp nPhi nTheta R r) (some (torusNormals nfp nPhi nTheta)) d true mpol ntor 2 pol lam x) ∧
    ∀ x, IsAtanResult (torusGrid nfp nPhi nTheta R r) (some (torusNormals nfp nPhi nTheta)) d true mpol ntor 2 pol lam x →
      ¬ IsAxisymmetric S x ∧
      ∑ i ∈ Finset.range (interpRows true nPhi 2), ∑ j ∈ Finset.range (nTheta * pol),
        ((S.rDash (List.ofFn x) 0 0 (interpPhi nfp nPhi 2 i) (j / (nTheta * pol : ℕ)) -
            (R + (r + d) * cos (2 * π * (j / (nTheta * pol : ℕ))))) ^ 2 +
          (S.zDash (List.ofFn x) 0 0 (interpPhi nfp nPhi 2 i) (j / (nTheta * pol : ℕ)) -
            (r + d) * sin (2 * π * (j / (nTheta * pol : ℕ)))) ^ 2) ≤ 2 * lam * (r + d) ^ 2 := by
  intro S
  have ht : 3 ≤ nTheta := by have := hres.1; omega
  have hc : 3 ≤ nTheta * pol := ht.trans (Nat.le_mul_of_pos_right _ hpol)
  have hP : 4 ≤ nPhi := by
    have := hres.2
    rw [if_pos rfl] at this
    omega
  obtain ⟨⟨x0, hx0⟩, hall⟩ := C147_offset_exact_normals hf (by rwa [abs_of_pos hr] : |r + d| < R) true hm hres
  have hrows : 0 < interpRows true nPhi 2 := by
    rw [interpRows, if_pos rfl]
    omega
  have hrow : ∀ i, centreRow S.stellsym (torusGrid nfp nPhi nTheta R r).nPhi 2 i = .ok i := by
    intro i
    change centreRow true nPhi 2 i = .ok i
    have h1 : interpRows true nPhi 2 = nPhi := by rw [interpRows, if_pos rfl]; omega
    have h2 : centreRows true nPhi 2 = nPhi := by simp [centreRows]
    simp only [centreRow, h1, h2]
    rw [if_neg (by omega), if_pos trivial]
  have hmatch : ∀ x1 : Fin S.fitSize → ℝ, _ := fun x1 => atanSamples_matching (torusGrid nfp nPhi nTheta R r) S (List.ofFn x1) 2 pol hrow
  constructor
  · have hs := atanSample_torus (tor := 2) hr0 hr hR (hall x0 hx0) (by omega) hc (interpRows true nPhi 2)
    have hmem : atanSample (torusGrid nfp nPhi nTheta R r) S (List.ofFn x0) 2 pol 0 0 ∈
        (List.range (interpRows true nPhi 2)).flatMap fun i =>
          (List.range (nTheta * pol)).map fun j => atanSample (torusGrid nfp nPhi nTheta R r) S (List.ofFn x0) 2 pol i j :=
      List.mem_flatMap.2 ⟨0, List.mem_range.2 hrows, List.mem_map.2 ⟨0, List.mem_range.2 (by omega), rfl⟩⟩
    obtain ⟨x, hx, -⟩ := C52_fit_exists_unique S lam hl _ ⟨_, hmem, by rw [hs.w 0 hrows 0 (by omega)]; norm_num⟩
    exact ⟨x, x0, _, hx0, hmatch x0, hx⟩
  · rintro x ⟨x1, pts, hx1, hpts, hx⟩
    rw [show atanSamples (torusGrid nfp nPhi nTheta R r) (generatedShape (torusGrid nfp nPhi nTheta R r) true mpol ntor) (List.ofFn x1) 2 pol = _
      from hmatch x1] at hpts
    obtain rfl := Except.ok.inj hpts
    exact torus_second_fit hf hr true hm hn hres (by norm_num) hpol hl
      (atanSample_torus hr0 hr hR (hall x1 hx1) (by omega) hc (interpRows true nPhi 2)) hx

/-- A grid with 16 toroidal and 32 poloidal points resolves the default modes. -/
example : Resolves true 16 32 5 5 := by norm_num [Resolves]

example : Resolves false 16 32 5 5 := by norm_num [Resolves]

/-- Results of the three generators for a torus of minor radius 1 at distance 1/2. -/
example : (∃ x, IsOffsetResult (torusGrid 2 16 32 3 1) (some (torusNormals 2 16 32)) (1 / 2) true 5 5 x) ∧
    (∃ x, IsArcResult (torusGrid 2 16 32 3 1) (some (torusNormals 2 16 32)) (1 / 2) true 5 5 2 10 (1 / 100000) x ∧
      ¬ IsAxisymmetric (generatedShape (torusGrid 2 16 32 3 1) true 5 5) x) ∧
    ∃ x, IsAtanResult (torusGrid 2 16 32 3 1) (some (torusNormals 2 16 32)) (1 / 2) true 5 5 2 10 (1 / 100000) x ∧
      ¬ IsAxisymmetric (generatedShape (torusGrid 2 16 32 3 1) true 5 5) x := by
  have hres : Resolves true 16 32 5 5 := by norm_num [Resolves]
  refine ⟨(C147_offset_exact_normals (by norm_num) (by norm_num [abs_of_pos]) true (by norm_num) hres).1, ?_, ?_⟩
  · obtain ⟨⟨x, hx⟩, hall⟩ := C147_arc_violated_partial (nfp := 2) (R := 3) (r := 1) (d := 1 / 2) (by norm_num) (by norm_num) (by norm_num)
      true (by norm_num) (by norm_num) hres (tor := 2) (pol := 10) (by norm_num) (by norm_num) (lam := 1 / 100000) (by norm_num)
    exact ⟨x, hx, (hall x hx).1⟩
  · obtain ⟨⟨x, hx⟩, hall⟩ := C147_atan_violated_partial (nfp := 2) (R := 3) (r := 1) (d := 1 / 2) (by norm_num) (by norm_num) (by norm_num)
      (by norm_num) (by norm_num) (by norm_num) hres (pol := 10) (by norm_num) (lam := 1 / 100000) (by norm_num)
    exact ⟨x, hx, (hall x hx).1⟩

end Verif
