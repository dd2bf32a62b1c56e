import Verif.Model.Hull
import Mathlib.Analysis.SpecialFunctions.Trigonometric.Basic
import Mathlib.Tactic.Linarith
import Mathlib.Tactic.Ring
import Mathlib.Tactic.FieldSimp
import Mathlib.Tactic.Positivity

/-!
# C98, C101: the offset surface and the centres of its cross sections

C98: on a surface of revolution the approximate normal points away from every point on the inner side of the cross section.
C101: the arctangent generator measures the angles about centres of other cross sections.
-/

namespace Verif

open Real

/-! ## C98 -/

/-- The point of the half plane at toroidal angle `φ` with cylindrical coordinates `q = (r, z)`. -/
noncomputable def revolve (φ : ℝ) (q : ℝ × ℝ) : V3 := ⟨q.1 * cos φ, q.1 * sin φ, q.2⟩

/-- The samples of the surface of revolution with the vertices `p` of its cross section, over one field period. -/
noncomputable def revolutionGrid (nfp nPhi nTheta : ℕ) (p : ℕ → ℝ × ℝ) : PlasmaGrid :=
  ⟨nfp, nPhi, nTheta, fun i j => revolve (2 * π * i / (nfp * nPhi)) (p j)⟩

theorem rot_revolve (t φ : ℝ) (q : ℝ × ℝ) : rotMatrixApply t (revolve φ q) = revolve (t + φ) q := by
  unfold rotMatrixApply revolve
  rw [cos_add, sin_add]
  ext <;> simp only <;> ring

theorem revolution_deltaPhi {nfp nPhi nTheta : ℕ} (hf : 0 < nfp) {p : ℕ → ℝ × ℝ} {i j : ℕ} (hi : i < nPhi) :
    (revolutionGrid nfp nPhi nTheta p).deltaPhi i j =
      revolve (2 * π * i / (nfp * nPhi) + 2 * π / (nfp * nPhi)) (p j) - revolve (2 * π * i / (nfp * nPhi)) (p j) := by
  have hp : (0 : ℝ) < nPhi := by exact_mod_cast (by omega : 0 < nPhi)
  have hf' : (0 : ℝ) < nfp := by exact_mod_cast hf
  by_cases h : i + 1 < nPhi
  · rw [PlasmaGrid.deltaPhi, if_pos (show i + 1 < (revolutionGrid nfp nPhi nTheta p).nPhi from h)]
    simp only [revolutionGrid]
    congr 2
    push_cast
    ring
  · rw [PlasmaGrid.deltaPhi, if_neg (show ¬ i + 1 < (revolutionGrid nfp nPhi nTheta p).nPhi from h)]
    simp only [revolutionGrid]
    rw [rot_revolve]
    congr 2
    have hi' : (nPhi : ℝ) = i + 1 := by
      have : nPhi = i + 1 := by omega
      rw [this]; push_cast; ring
    rw [hi']
    have : ((i : ℝ) + 1) ≠ 0 := by rw [← hi']; exact hp.ne'
    push_cast
    field_simp
    ring

/-- The product of the approximate normal with the vector to any point of the same half plane. -/
theorem C98_normal_formula {nfp nPhi nTheta : ℕ} (hf : 0 < nfp) (p : ℕ → ℝ × ℝ) {i j : ℕ} (hi : i < nPhi) (q : ℝ × ℝ) :
    V3.dot ((revolutionGrid nfp nPhi nTheta p).normalApprox i j)
        (revolve (2 * π * i / (nfp * nPhi)) q - (revolutionGrid nfp nPhi nTheta p).gamma i j) =
      -((p j).1 * sin (2 * π / (nfp * nPhi)) * ccw (p ((j + nTheta - 1) % nTheta)) (p j) q) := by
  unfold PlasmaGrid.normalApprox
  rw [revolution_deltaPhi hf hi]
  unfold PlasmaGrid.deltaTheta
  simp only [revolutionGrid]
  generalize 2 * π * (i : ℝ) / (nfp * nPhi) = φ
  generalize 2 * π / ((nfp : ℝ) * nPhi) = ε
  generalize p ((j + nTheta - 1) % nTheta) = a
  generalize p j = b
  simp only [revolve, V3.dot, V3.cross, V3.sub_x, V3.sub_y, V3.sub_z, cos_add, sin_add, ccw]
  have h := sin_sq_add_cos_sq φ
  linear_combination (-(b.1 * sin ε * ((b.1 - a.1) * (q.2 - a.2) - (q.1 - a.1) * (b.2 - a.2)))) * h

/-- C98. The normal points strictly away from every point `q` of the half plane that lies on the left of the edge ending at the
vertex, as all other vertices of a convex, counterclockwise cross section do. At least three grid points per turn are needed. -/
theorem C98_points_outwards {nfp nPhi nTheta : ℕ} (h3 : 3 ≤ nfp * nPhi) (p : ℕ → ℝ × ℝ) {i j : ℕ} (hi : i < nPhi)
    (hr : 0 < (p j).1) (q : ℝ × ℝ) (hq : 0 < ccw (p ((j + nTheta - 1) % nTheta)) (p j) q) {d : ℝ} (hd : 0 < d) :
    let G := revolutionGrid nfp nPhi nTheta p
    V3.dot (G.unitnormalApprox i j) (revolve (2 * π * i / (nfp * nPhi)) q - G.gamma i j) < 0 ∧
      V3.dot (G.offset d i j - G.gamma i j) (revolve (2 * π * i / (nfp * nPhi)) q - G.gamma i j) < 0 := by
  intro G
  have hf : 0 < nfp := Nat.pos_of_ne_zero (by rintro rfl; simp at h3)
  have h3' : (3 : ℝ) ≤ nfp * nPhi := by exact_mod_cast h3
  have hs : 0 < sin (2 * π / (nfp * nPhi)) := by
    apply sin_pos_of_pos_of_lt_pi
    · positivity
    · rw [div_lt_iff₀ (by linarith)]
      nlinarith [pi_pos]
  have hN : V3.dot (G.normalApprox i j) (revolve (2 * π * i / (nfp * nPhi)) q - G.gamma i j) < 0 := by
    rw [C98_normal_formula hf p hi q]
    have := mul_pos (mul_pos hr hs) hq
    linarith
  have hnorm : 0 < (G.normalApprox i j).norm := by
    unfold V3.norm
    apply sqrt_pos.mpr
    by_contra hcon
    push Not at hcon
    have hx : (G.normalApprox i j).x = 0 := by
      unfold V3.normSq at hcon
      nlinarith [sq_nonneg (G.normalApprox i j).x, sq_nonneg (G.normalApprox i j).y, sq_nonneg (G.normalApprox i j).z]
    have hy : (G.normalApprox i j).y = 0 := by
      unfold V3.normSq at hcon
      nlinarith [sq_nonneg (G.normalApprox i j).x, sq_nonneg (G.normalApprox i j).y, sq_nonneg (G.normalApprox i j).z]
    have hz : (G.normalApprox i j).z = 0 := by
      unfold V3.normSq at hcon
      nlinarith [sq_nonneg (G.normalApprox i j).x, sq_nonneg (G.normalApprox i j).y, sq_nonneg (G.normalApprox i j).z]
    rw [V3.dot, hx, hy, hz] at hN
    simp at hN
  have hU : V3.dot (G.unitnormalApprox i j) (revolve (2 * π * i / (nfp * nPhi)) q - G.gamma i j) < 0 := by
    have : V3.dot (G.unitnormalApprox i j) (revolve (2 * π * i / (nfp * nPhi)) q - G.gamma i j) =
        1 / (G.normalApprox i j).norm * V3.dot (G.normalApprox i j) (revolve (2 * π * i / (nfp * nPhi)) q - G.gamma i j) := by
      unfold PlasmaGrid.unitnormalApprox
      simp only [V3.dot, V3.smul_x, V3.smul_y, V3.smul_z]
      ring
    rw [this]
    exact mul_neg_of_pos_of_neg (by positivity) hN
  refine ⟨hU, ?_⟩
  have : V3.dot (G.offset d i j - G.gamma i j) (revolve (2 * π * i / (nfp * nPhi)) q - G.gamma i j) =
      d * V3.dot (G.unitnormalApprox i j) (revolve (2 * π * i / (nfp * nPhi)) q - G.gamma i j) := by
    unfold PlasmaGrid.offset
    simp only [V3.dot, V3.smul_x, V3.smul_y, V3.smul_z, V3.sub_x, V3.sub_y, V3.sub_z, V3.add_x, V3.add_y, V3.add_z]
    ring
  rw [this]
  exact mul_neg_of_pos_of_neg hd hU

/-- The circular torus with radii `R > r > 0`: the normal points away from the centre of the cross section. -/
theorem C98_circular_torus {nfp nPhi nTheta : ℕ} (h3 : 3 ≤ nfp * nPhi) (ht : 3 ≤ nTheta) {R r : ℝ} (hr : 0 < r) (hR : r < R)
    {i j : ℕ} (hi : i < nPhi) (hj : j < nTheta) {d : ℝ} (hd : 0 < d) :
    let G := revolutionGrid nfp nPhi nTheta fun j => (R + r * cos (2 * π * j / nTheta), r * sin (2 * π * j / nTheta))
    V3.dot (G.offset d i j - G.gamma i j) (revolve (2 * π * i / (nfp * nPhi)) (R, 0) - G.gamma i j) < 0 := by
  intro G
  have ht' : (3 : ℝ) ≤ nTheta := by exact_mod_cast ht
  have key : ∃ k : ℤ, (((j + nTheta - 1) % nTheta : ℕ) : ℝ) = (j : ℝ) - 1 + k * nTheta := by
    rcases Nat.eq_zero_or_pos j with rfl | h0
    · refine ⟨1, ?_⟩
      rw [Nat.mod_eq_of_lt (by omega), Nat.cast_sub (by omega)]
      push_cast; ring
    · refine ⟨0, ?_⟩
      have : (j + nTheta - 1) % nTheta = j - 1 := by
        rw [show j + nTheta - 1 = (j - 1) + nTheta by omega, Nat.add_mod_right, Nat.mod_eq_of_lt (by omega)]
      rw [this, Nat.cast_sub (by omega)]
      push_cast; ring
  obtain ⟨k, hk⟩ := key
  refine (C98_points_outwards h3 _ hi ?_ (R, 0) ?_ hd).2
  · have := neg_one_le_cos (2 * π * j / nTheta)
    simp only
    nlinarith
  · simp only [ccw]
    rw [hk]
    have hang : 2 * π * ((j : ℝ) - 1 + k * nTheta) / nTheta = 2 * π * j / nTheta - 2 * π / nTheta + k * (2 * π) := by
      have : (nTheta : ℝ) ≠ 0 := by linarith
      field_simp
    rw [hang, cos_add_int_mul_two_pi, sin_add_int_mul_two_pi, cos_sub, sin_sub]
    have hs : 0 < sin (2 * π / nTheta) := by
      apply sin_pos_of_pos_of_lt_pi
      · positivity
      · rw [div_lt_iff₀ (by linarith)]
        nlinarith [pi_pos]
    have hp := mul_pos (mul_pos hr hr) hs
    have hsc := sin_sq_add_cos_sq (2 * π * j / nTheta)
    generalize cos (2 * π * j / nTheta) = c at *
    generalize sin (2 * π * j / nTheta) = s at *
    generalize sin (2 * π / nTheta) = s' at *
    generalize cos (2 * π / nTheta) = c' at *
    have : (R + r * c - (R + r * (c * c' + s * s'))) * (0 - r * (s * c' - c * s')) -
        (R - (R + r * (c * c' + s * s'))) * (r * s - r * (s * c' - c * s')) = r * r * s' := by
      linear_combination (r * r * s') * hsc
    rw [this]
    exact hp

/-- Two grid points per turn are not enough: the normal vanishes. -/
theorem C98_two_points_degenerate (p : ℕ → ℝ × ℝ) (q : ℝ × ℝ) {nTheta j : ℕ} :
    V3.dot ((revolutionGrid 1 2 nTheta p).normalApprox 0 j) (revolve 0 q - (revolutionGrid 1 2 nTheta p).gamma 0 j) = 0 := by
  have h := C98_normal_formula (nfp := 1) (nPhi := 2) (nTheta := nTheta) (by omega) p (i := 0) (j := j) (by omega) q
  simp only [Nat.cast_zero, mul_zero, zero_div] at h
  rw [h]
  rw [show 2 * π / (((1 : ℕ) : ℝ) * ((2 : ℕ) : ℝ)) = π by push_cast; ring, sin_pi]
  ring

example : let G := revolutionGrid 2 8 8 fun j => (3 + 1 * cos (2 * π * j / (8 : ℕ)), 1 * sin (2 * π * j / (8 : ℕ)))
    V3.dot (G.offset (1 / 2) 7 3 - G.gamma 7 3) (revolve (2 * π * (7 : ℕ) / ((2 : ℕ) * (8 : ℕ))) (3, 0) - G.gamma 7 3) < 0 :=
  C98_circular_torus (by norm_num) (by norm_num) (by norm_num) (by norm_num) (by norm_num) (by norm_num) (by norm_num)

/-! ## C101 -/

/-- The toroidal angle (in turns) of row `i` of a plasma grid that covers one field period. -/
noncomputable def plasmaPhi (nfp nPhi i : ℕ) : ℝ := (i : ℝ) / (nfp * nPhi)

/-- C101: the angles are in `(0, 1]` and reproduce the direction from the centre to the vertex.
Missing: the centre is that of another cross section, see below. -/
theorem C101_angle_partial (p c : ℝ × ℝ) : 0 < thetaAtan p c ∧ thetaAtan p c ≤ 1 ∧
    ∃ s ≥ 0, p = (c.1 + s * cos (2 * π * thetaAtan p c), c.2 + s * sin (2 * π * thetaAtan p c)) := by
  have hlo := Complex.neg_pi_lt_arg ⟨p.1 - c.1, p.2 - c.2⟩
  have hhi := Complex.arg_le_pi ⟨p.1 - c.1, p.2 - c.2⟩
  have hre := Complex.norm_mul_cos_arg ⟨p.1 - c.1, p.2 - c.2⟩
  have him := Complex.norm_mul_sin_arg ⟨p.1 - c.1, p.2 - c.2⟩
  have hn := norm_nonneg (⟨p.1 - c.1, p.2 - c.2⟩ : ℂ)
  simp only at hre him
  unfold thetaAtan
  generalize Complex.arg ⟨p.1 - c.1, p.2 - c.2⟩ = a at *
  generalize ‖(⟨p.1 - c.1, p.2 - c.2⟩ : ℂ)‖ = s at *
  have hπ := pi_pos
  have ha : a / π / 2 = a / (2 * π) := by field_simp
  have h2 : 2 * π * (a / π / 2) = a := by field_simp
  simp only [gt_iff_lt]
  split_ifs with h
  · refine ⟨h, ?_, s, hn, ?_⟩
    · rw [ha, div_le_one (by positivity)]; linarith
    · rw [h2]
      ext
      · simp only; linarith
      · simp only; linarith
  · push Not at h
    refine ⟨?_, by linarith, s, hn, ?_⟩
    · have : -1 / 2 < a / π / 2 := by
        rw [ha, lt_div_iff₀ (by positivity)]; linarith
      linarith
    · rw [mul_add, h2, mul_one, cos_add_two_pi, sin_add_two_pi]
      ext
      · simp only; linarith
      · simp only; linarith

/-- C101 is false with stellarator symmetry and the default `tor_interp=2`: every row but the first is paired with the centre at
nearly twice its toroidal angle. -/
theorem C101_wrong_centre_violated_partial {nfp nPhi i : ℕ} (hf : 0 < nfp) (hn : 2 ≤ nPhi) (hi : 0 < i) :
    centreRow true nPhi 2 i = .ok i ∧ interpPhi nfp nPhi 2 i < plasmaPhi nfp nPhi i ∧
      plasmaPhi nfp nPhi i = (2 - 1 / nPhi) * interpPhi nfp nPhi 2 i := by
  have hrows : interpRows true nPhi 2 = nPhi := by simp [interpRows]
  have hc : centreRows true nPhi 2 = nPhi := by simp [centreRows]
  have hn' : (2 : ℝ) ≤ nPhi := by exact_mod_cast hn
  have hf' : (0 : ℝ) < nfp := by exact_mod_cast hf
  have hi'' : (0 : ℝ) < i := by exact_mod_cast hi
  have heq : plasmaPhi nfp nPhi i = (2 - 1 / nPhi) * interpPhi nfp nPhi 2 i := by
    unfold plasmaPhi interpPhi phiInterp
    push_cast
    have h1 : (nPhi : ℝ) * 2 - 1 ≠ 0 := by linarith
    have h2 : (nPhi : ℝ) ≠ 0 := by linarith
    field_simp
  refine ⟨?_, ?_, heq⟩
  · simp only [centreRow, hrows, hc]
    rw [if_neg (by omega)]
    simp
  · rw [heq]
    have hpos : 0 < interpPhi nfp nPhi 2 i := by
      unfold interpPhi phiInterp
      push_cast
      have : (0 : ℝ) < (nPhi : ℝ) * 2 - 1 := by linarith
      positivity
    have : 1 / (nPhi : ℝ) ≤ 1 / 2 := one_div_le_one_div_of_le (by norm_num) hn'
    nlinarith

/-- C101 is false without stellarator symmetry: the generator fails for every interpolation factor but 1. -/
theorem C101_not_symmetric_fails_violated_partial {nPhi torInterp i : ℕ} (hn : 2 ≤ nPhi) (ht : torInterp ≠ 1) :
    centreRow false nPhi torInterp i = .error .typeError := by
  have h : nPhi * torInterp ≠ nPhi := by
    intro h
    have : nPhi * torInterp = nPhi * 1 := by rw [h, mul_one]
    exact ht (Nat.eq_of_mul_eq_mul_left (by omega) this)
  simp only [centreRow, interpRows, centreRows, Bool.false_eq_true, if_false]
  rw [if_neg (by omega), if_neg h]

/-- Also without interpolation the rows do not match: the last plasma row is one grid step before the end of the period, the last
cross section at its end. -/
theorem C101_no_interpolation_violated_partial {nfp nPhi i : ℕ} (hf : 0 < nfp) (hn : 2 ≤ nPhi) (hi : 0 < i) :
    centreRow false nPhi 1 i = .ok i ∧ plasmaPhi nfp nPhi i < interpPhi nfp nPhi 1 i := by
  have hn' : (2 : ℝ) ≤ nPhi := by exact_mod_cast hn
  have hf' : (0 : ℝ) < nfp := by exact_mod_cast hf
  have hi'' : (0 : ℝ) < i := by exact_mod_cast hi
  constructor
  · simp only [centreRow, interpRows, centreRows, Bool.false_eq_true, if_false, mul_one, if_true]
    rw [if_neg (by omega)]
  · unfold plasmaPhi interpPhi phiInterp
    push_cast
    rw [mul_one, div_div, mul_one_div]
    exact div_lt_div_of_pos_left hi'' (by nlinarith) (by nlinarith)

/-- C101 is false for interpolation factors above 2, also with stellarator symmetry: there are more cross sections than centres and
the generator fails. -/
theorem C101_fine_interpolation_violated_partial {nPhi torInterp i : ℕ} (hn : 2 ≤ nPhi) (ht : 3 ≤ torInterp) :
    centreRow true nPhi torInterp i = .error .typeError := by
  have h : nPhi * 3 ≤ nPhi * torInterp := Nat.mul_le_mul_left _ ht
  simp only [centreRow, interpRows, centreRows, if_true]
  rw [if_neg (by omega), if_neg (by omega)]

example : centreRow true 16 3 0 = .error .typeError := C101_fine_interpolation_violated_partial (by norm_num) (by norm_num)

/-- With 16 rows the last row uses the centre at nearly twice its own angle. -/
example : centreRow true 16 2 15 = .ok 15 ∧ interpPhi 5 16 2 15 < plasmaPhi 5 16 15 :=
  let h := C101_wrong_centre_violated_partial (nfp := 5) (nPhi := 16) (i := 15) (by norm_num) (by norm_num) (by norm_num)
  ⟨h.1, h.2.1⟩

example : centreRow false 16 2 15 = .error .typeError := C101_not_symmetric_fails_violated_partial (by norm_num) (by norm_num)

/-- **C101 (rows).** The centre of a cross section is a row that exists, and the call fails unless there is one centre for each
cross section or a single centre, which then serves all of them. -/
theorem C101_centre_exists_partial {stellsym : Bool} {nPhi torInterp i c : ℕ} (hi : i < interpRows stellsym nPhi torInterp)
    (h : centreRow stellsym nPhi torInterp i = .ok c) : c < centreRows stellsym nPhi torInterp ∧
      (c = i ∧ centreRows stellsym nPhi torInterp = interpRows stellsym nPhi torInterp ∨ centreRows stellsym nPhi torInterp = 1) := by
  simp only [centreRow] at h
  split at h
  · next h1 =>
    obtain rfl := Except.ok.inj h
    exact ⟨by omega, .inr h1⟩
  · split at h
    · next h2 =>
      obtain rfl := Except.ok.inj h
      exact ⟨by omega, .inl ⟨rfl, h2.symm⟩⟩
    · cases h

/-- One plasma row and four cross sections. -/
example : 3 < interpRows false 1 4 ∧ centreRow false 1 4 3 = .ok 0 ∧ centreRows false 1 4 = 1 := by
  simp [interpRows, centreRow, centreRows]

end Verif
