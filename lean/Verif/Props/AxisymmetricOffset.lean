import Verif.Props.AxisymmetricArc
import Mathlib.LinearAlgebra.Matrix.Rank
import Mathlib.Analysis.SpecialFunctions.Trigonometric.ArctanDeriv
import Mathlib.LinearAlgebra.Matrix.DotProduct

/-!
# C147, third part: the offset generator with its own normals
-/

namespace Verif

open Real Filter Topology

/-! ## Solvability of the normal equations -/

open Matrix in
theorem normal_equations_solvable {m n : Type} [Fintype m] [Fintype n] (A : Matrix m n ℝ) (b : m → ℝ) :
    ∃ x : n → ℝ, (Aᵀ * A) *ᵥ x = Aᵀ *ᵥ b := by
  classical
  have hle : LinearMap.range (Aᵀ * A).mulVecLin ≤ LinearMap.range Aᵀ.mulVecLin := by
    rintro y ⟨x, rfl⟩
    exact ⟨A *ᵥ x, by simp⟩
  have hrank : Module.finrank ℝ (LinearMap.range (Aᵀ * A).mulVecLin) = Module.finrank ℝ (LinearMap.range Aᵀ.mulVecLin) := by
    have h1 := Matrix.rank_transpose_mul_self A
    have h2 := Matrix.rank_transpose A
    simp only [Matrix.rank] at h1 h2
    rw [h1, h2]
  have heq := Submodule.eq_of_le_of_finrank_eq hle hrank
  have hb : Aᵀ *ᵥ b ∈ LinearMap.range Aᵀ.mulVecLin := ⟨b, Matrix.mulVecLin_apply _ _⟩
  rw [← heq] at hb
  obtain ⟨x, hx⟩ := hb
  exact ⟨x, by rw [← Matrix.mulVecLin_apply]; exact hx⟩

/-- The fit without regularisation has a solution for all samples. -/
theorem fit_exists_unregularised (S : SurfaceShape) (pts : List FitPoint) : ∃ x, S.IsFit 0 pts x := by
  obtain ⟨x, hx⟩ := normal_equations_solvable (S.fitMatrix pts) (S.fitRhs pts)
  exact ⟨x, by rw [SurfaceShape.IsFit, SurfaceShape.fitReg, zero_smul, add_zero, hx]⟩

/-! ## Offset points of a torus -/

/-- The coordinates of an offset point of a torus in the frame of its toroidal angle: `t` is the tangent of half a toroidal step. -/
noncomputable def framePoint (R r d : ℝ) (n : ℕ) (j : ℕ) (t : ℝ) : V3 :=
  let C := cos (2 * π * j / n - π / n)
  let κ := sqrt (1 + t ^ 2 * C ^ 2)
  ⟨R + r * cos (2 * π * j / n) + d * C / κ, d * C * t / κ, r * sin (2 * π * j / n) + d * sin (2 * π * j / n - π / n) / κ⟩

theorem torus_normal_frame {nfp nPhi nTheta : ℕ} (hf : 0 < nfp) (R r : ℝ) {i j : ℕ} (hi : i < nPhi) (hj : j < nTheta)
    (hc : cos (π / (nfp * nPhi)) ≠ 0) :
    (torusGrid nfp nPhi nTheta R r).normalApprox i j =
      ((R + r * cos (2 * π * j / nTheta)) * sin (2 * π / (nfp * nPhi)) * (2 * r * sin (π / nTheta))) •
        rotMatrixApply (2 * π * i / (nfp * nPhi)) ⟨cos (2 * π * j / nTheta - π / nTheta),
          cos (2 * π * j / nTheta - π / nTheta) * tan (π / (nfp * nPhi)), sin (2 * π * j / nTheta - π / nTheta)⟩ := by
  have e1 : (torusGrid nfp nPhi nTheta R r).deltaPhi i j =
      revolve (2 * π * i / (nfp * nPhi) + 2 * π / (nfp * nPhi)) (R + r * cos (2 * π * j / nTheta), r * sin (2 * π * j / nTheta)) -
        revolve (2 * π * i / (nfp * nPhi)) (R + r * cos (2 * π * j / nTheta), r * sin (2 * π * j / nTheta)) :=
    revolution_deltaPhi hf hi
  have e2 : (torusGrid nfp nPhi nTheta R r).deltaTheta i j =
      revolve (2 * π * i / (nfp * nPhi)) (R + r * cos (2 * π * j / nTheta - 2 * π / nTheta), r * sin (2 * π * j / nTheta - 2 * π / nTheta)) -
        revolve (2 * π * i / (nfp * nPhi)) (R + r * cos (2 * π * j / nTheta), r * sin (2 * π * j / nTheta)) := by
    rw [← circle_previous hj R r]
    rfl
  rw [PlasmaGrid.normalApprox, e1, e2]
  rw [show 2 * π / ((nfp : ℝ) * nPhi) = 2 * (π / (nfp * nPhi)) by ring, show 2 * π / (nTheta : ℝ) = 2 * (π / nTheta) by ring]
  generalize 2 * π * (i : ℝ) / (nfp * nPhi) = φ
  generalize π / ((nfp : ℝ) * nPhi) = ε at *
  generalize 2 * π * (j : ℝ) / nTheta = θ
  generalize π / (nTheta : ℝ) = η
  have d1 : cos (θ - 2 * η) - cos θ = 2 * sin η * sin (θ - η) := by
    rw [cos_sub_cos, show (θ - 2 * η + θ) / 2 = θ - η by ring, show (θ - 2 * η - θ) / 2 = -η by ring, sin_neg]
    ring
  have d2 : sin (θ - 2 * η) - sin θ = -(2 * sin η * cos (θ - η)) := by
    rw [sin_sub_sin, show (θ - 2 * η + θ) / 2 = θ - η by ring, show (θ - 2 * η - θ) / 2 = -η by ring, sin_neg]
    ring
  have d3 : sin (2 * ε) * tan ε = 1 - cos (2 * ε) := by
    rw [sin_two_mul, cos_two_mul, tan_eq_sin_div_cos]
    field_simp
    linear_combination (2 : ℝ) * sin_sq_add_cos_sq ε
  have hφ := sin_sq_add_cos_sq φ
  rw [show R + r * cos (θ - 2 * η) = R + r * cos θ + r * (2 * sin η * sin (θ - η)) by linear_combination r * d1,
    show r * sin (θ - 2 * η) = r * sin θ + -(r * (2 * sin η * cos (θ - η))) by linear_combination r * d2]
  generalize R + r * cos θ = A
  generalize cos (θ - η) = C
  generalize sin (θ - η) = D
  simp only [revolve, rotMatrixApply, cos_add, sin_add]
  generalize cos (2 * ε) = c at *
  generalize sin (2 * ε) = s at *
  generalize tan ε = t at *
  obtain rfl : c = 1 - s * t := by linarith
  ext
  · simp only [V3.cross, V3.sub_x, V3.sub_y, V3.sub_z, V3.smul_x]
    ring
  · simp only [V3.cross, V3.sub_x, V3.sub_y, V3.sub_z, V3.smul_y]
    ring
  · simp only [V3.cross, V3.sub_x, V3.sub_y, V3.sub_z, V3.smul_z]
    linear_combination (2 * A * s * r * sin η * D) * hφ

theorem torus_offset_frame {nfp nPhi nTheta : ℕ} (hf : 0 < nfp) {R r : ℝ} (hr : 0 < r) (hR : r < R) (hN : 3 ≤ nPhi) (hn : 3 ≤ nTheta)
    (d : ℝ) {i j : ℕ} (hi : i < nPhi) (hj : j < nTheta) :
    (torusGrid nfp nPhi nTheta R r).offset d i j =
      rotMatrixApply (2 * π * i / (nfp * nPhi)) (framePoint R r d nTheta j (tan (π / (nfp * nPhi)))) := by
  have hf' : (1 : ℝ) ≤ nfp := by exact_mod_cast hf
  have hN' : (3 : ℝ) ≤ nPhi := by exact_mod_cast hN
  have hn' : (3 : ℝ) ≤ nTheta := by exact_mod_cast hn
  have h3 : (3 : ℝ) ≤ nfp * nPhi := by nlinarith
  have hε : 0 < π / (nfp * nPhi) ∧ π / (nfp * nPhi) < π / 2 := by
    refine ⟨by positivity, ?_⟩
    rw [div_lt_div_iff₀ (by linarith) (by norm_num)]
    nlinarith [pi_pos]
  have hc : 0 < cos (π / (nfp * nPhi)) := cos_pos_of_mem_Ioo ⟨by linarith [pi_pos, hε.1], hε.2⟩
  have hs : 0 < sin (2 * π / (nfp * nPhi)) := by
    apply sin_pos_of_pos_of_lt_pi
    · positivity
    · rw [div_lt_iff₀ (by linarith)]
      nlinarith [pi_pos]
  have hη : 0 < sin (π / nTheta) := sin_pos_of_pos_of_lt_pi (by positivity) (div_lt_self pi_pos (by linarith))
  have hA : 0 < R + r * cos (2 * π * j / nTheta) := by nlinarith [neg_one_le_cos (2 * π * j / nTheta)]
  have hnorm := torus_normal_frame (nTheta := nTheta) hf R r hi hj hc.ne'
  have hg : (torusGrid nfp nPhi nTheta R r).gamma i j =
      revolve (2 * π * i / (nfp * nPhi)) (R + r * cos (2 * π * j / nTheta), r * sin (2 * π * j / nTheta)) := rfl
  rw [PlasmaGrid.offset, PlasmaGrid.unitnormalApprox, hnorm, hg, framePoint]
  have hk : 0 < (R + r * cos (2 * π * j / nTheta)) * sin (2 * π / (nfp * nPhi)) * (2 * r * sin (π / nTheta)) := by positivity
  generalize (R + r * cos (2 * π * j / nTheta)) * sin (2 * π / (nfp * nPhi)) * (2 * r * sin (π / nTheta)) = k at *
  generalize 2 * π * (i : ℝ) / (nfp * nPhi) = φ
  generalize tan (π / ((nfp : ℝ) * nPhi)) = t
  have hCD := sin_sq_add_cos_sq (2 * π * (j : ℝ) / nTheta - π / nTheta)
  generalize cos (2 * π * (j : ℝ) / nTheta - π / nTheta) = C at *
  generalize sin (2 * π * (j : ℝ) / nTheta - π / nTheta) = D at *
  generalize R + r * cos (2 * π * j / nTheta) = A
  generalize r * sin (2 * π * j / nTheta) = B
  have hκ : 0 < sqrt (1 + t ^ 2 * C ^ 2) := sqrt_pos.2 (by positivity)
  have hn2 : (k • rotMatrixApply φ ⟨C, C * t, D⟩).norm = k * sqrt (1 + t ^ 2 * C ^ 2) := by
    rw [V3.norm, ← sqrt_sq hk.le, ← sqrt_mul (sq_nonneg _), sqrt_sq hk.le]
    congr 1
    simp only [V3.normSq, rotMatrixApply, V3.smul_x, V3.smul_y, V3.smul_z]
    linear_combination (k ^ 2 * (C ^ 2 + C ^ 2 * t ^ 2)) * sin_sq_add_cos_sq φ + k ^ 2 * hCD
  rw [hn2]
  generalize sqrt (1 + t ^ 2 * C ^ 2) = κ at *
  ext
  · simp only [revolve, rotMatrixApply, V3.add_x, V3.smul_x]
    field_simp
    ring
  · simp only [revolve, rotMatrixApply, V3.add_y, V3.smul_y]
    field_simp
    ring
  · simp only [revolve, rotMatrixApply, V3.add_z, V3.smul_z]
    field_simp

/-- The samples of the offset generator with its own normals, for a torus. -/
theorem torus_sample_approx {nfp nPhi nTheta : ℕ} (hf : 0 < nfp) {R r : ℝ} (hr : 0 < r) (hR : r < R) (hN : 3 ≤ nPhi) (hn : 3 ≤ nTheta)
    (d : ℝ) {i j : ℕ} (hi : i < nPhi) (hj : j < nTheta)
    (hX : 0 < (framePoint R r d nTheta j (tan (π / (nfp * nPhi)))).x) :
    let q := framePoint R r d nTheta j (tan (π / (nfp * nPhi)))
    let p := (torusGrid nfp nPhi nTheta R r).offsetSample none d i j
    (∃ k : ℤ, p.phi = (i : ℝ) / nPhi / nfp + Complex.arg ⟨q.x, q.y⟩ / (2 * π) + k) ∧ p.theta = (j : ℝ) / nTheta + (1 : ℤ) ∧
      p.r = sqrt (q.x ^ 2 + q.y ^ 2) ∧ p.z = q.z ∧ p.w = 1 := by
  intro q p
  have hq : (torusGrid nfp nPhi nTheta R r).offsetWith none d i j = rotMatrixApply (2 * π * i / (nfp * nPhi)) q :=
    torus_offset_frame hf hr hR hN hn d hi hj
  have hpos : 0 < ‖(⟨q.x, q.y⟩ : ℂ)‖ := by
    rw [norm_pos_iff]
    intro h
    have := congrArg Complex.re h
    simp only [Complex.zero_re] at this
    exact hX.ne' this
  have hx : q.x = ‖(⟨q.x, q.y⟩ : ℂ)‖ * cos (Complex.arg ⟨q.x, q.y⟩) := (Complex.norm_mul_cos_arg ⟨q.x, q.y⟩).symm
  have hy : q.y = ‖(⟨q.x, q.y⟩ : ℂ)‖ * sin (Complex.arg ⟨q.x, q.y⟩) := (Complex.norm_mul_sin_arg ⟨q.x, q.y⟩).symm
  have hf0 : (nfp : ℝ) ≠ 0 := by exact_mod_cast hf.ne'
  have hN0 : (nPhi : ℝ) ≠ 0 := by exact_mod_cast (by omega : nPhi ≠ 0)
  refine ⟨?_, ?_, ?_, ?_, rfl⟩
  · obtain ⟨k, hk⟩ := arg_turns (t := 2 * π * i / (nfp * nPhi) + Complex.arg ⟨q.x, q.y⟩) hpos
    refine ⟨k, ?_⟩
    simp only [p, PlasmaGrid.offsetSample, hq, rotMatrixApply]
    have ex : cos (2 * π * i / (nfp * nPhi)) * q.x - sin (2 * π * i / (nfp * nPhi)) * q.y =
        ‖(⟨q.x, q.y⟩ : ℂ)‖ * cos (2 * π * i / (nfp * nPhi) + Complex.arg ⟨q.x, q.y⟩) := by
      rw [cos_add]
      linear_combination cos (2 * π * i / (nfp * nPhi)) * hx - sin (2 * π * i / (nfp * nPhi)) * hy
    have ey : sin (2 * π * i / (nfp * nPhi)) * q.x + cos (2 * π * i / (nfp * nPhi)) * q.y =
        ‖(⟨q.x, q.y⟩ : ℂ)‖ * sin (2 * π * i / (nfp * nPhi) + Complex.arg ⟨q.x, q.y⟩) := by
      rw [sin_add]
      linear_combination sin (2 * π * i / (nfp * nPhi)) * hx + cos (2 * π * i / (nfp * nPhi)) * hy
    rw [ex, ey, hk]
    congr 1
    have := pi_ne_zero
    field_simp
  · change (j : ℝ) * (1 / nTheta) + 1 = _
    push_cast
    ring
  · simp only [p, PlasmaGrid.offsetSample, hq, rotMatrixApply]
    congr 1
    linear_combination (q.x ^ 2 + q.y ^ 2) * sin_sq_add_cos_sq (2 * π * i / (nfp * nPhi))
  · simp only [p, PlasmaGrid.offsetSample, hq, rotMatrixApply]

/-! ## Fits to drifted rows -/

/-- A sum over the circle of an even function times the sine vanishes. -/
theorem even_sin_sum {n : ℕ} (hn : n ≠ 0) (f : ℝ → ℝ) (hper : ∀ t, f (t + 1) = f t) (heven : ∀ t, f (-t) = f t) :
    ∑ j ∈ Finset.range n, f ((j : ℝ) / n) * sin (2 * π * j / n) = 0 := by
  obtain ⟨m, rfl⟩ : ∃ m, n = m + 1 := ⟨n - 1, by omega⟩
  have h0 : ((m + 1 : ℕ) : ℝ) ≠ 0 := by exact_mod_cast hn
  rw [Finset.sum_range_succ']
  simp only [Nat.cast_zero, mul_zero, zero_div, sin_zero, add_zero]
  have hr := Finset.sum_range_reflect (fun j => f (((j + 1 : ℕ) : ℝ) / (m + 1 : ℕ)) * sin (2 * π * ((j + 1 : ℕ) : ℝ) / (m + 1 : ℕ))) m
  have hneg : ∀ j ∈ Finset.range m, f (((m - 1 - j + 1 : ℕ) : ℝ) / (m + 1 : ℕ)) * sin (2 * π * ((m - 1 - j + 1 : ℕ) : ℝ) / (m + 1 : ℕ)) =
      -(f (((j + 1 : ℕ) : ℝ) / (m + 1 : ℕ)) * sin (2 * π * ((j + 1 : ℕ) : ℝ) / (m + 1 : ℕ))) := by
    intro j hj
    rw [Finset.mem_range] at hj
    have e : ((m - 1 - j + 1 : ℕ) : ℝ) = (m + 1 : ℕ) - (j + 1 : ℕ) := by
      rw [show m - 1 - j + 1 = (m + 1) - (j + 1) by omega, Nat.cast_sub (by omega)]
    rw [e, sub_div, div_self h0, show (1 : ℝ) - ((j + 1 : ℕ) : ℝ) / (m + 1 : ℕ) = -(((j + 1 : ℕ) : ℝ) / (m + 1 : ℕ)) + 1 by ring, hper, heven,
      show 2 * π * (((m + 1 : ℕ) : ℝ) - ((j + 1 : ℕ) : ℝ)) / (m + 1 : ℕ) = 2 * π - 2 * π * ((j + 1 : ℕ) : ℝ) / (m + 1 : ℕ) by
        field_simp, sin_two_pi_sub]
    ring
  rw [Finset.sum_congr rfl hneg, Finset.sum_neg_distrib] at hr
  linarith

theorem half_row_sum {L : ℕ} (hL : 1 ≤ L) (α : ℝ) :
    sin (π / (2 * L)) * ∑ i ∈ Finset.range L, sin (2 * (π / (2 * L)) * i + α) = cos (π / (2 * L) - α) := by
  have hL' : (L : ℝ) ≠ 0 := by exact_mod_cast (by omega : L ≠ 0)
  have hc := half_cos_sum (π / (2 * L)) L
  have hs := half_sin_sum (π / (2 * L)) L
  have e : (2 * (L : ℝ) - 1) * (π / (2 * L)) = π - π / (2 * L) := by
    field_simp
  rw [e, sin_pi_sub] at hc
  rw [e, cos_pi_sub] at hs
  simp only [sin_add, Finset.sum_add_distrib, ← Finset.sum_mul, cos_sub]
  linear_combination cos α / 2 * hs + sin α / 2 * hc

/-- Samples of half a field period in rows of `2 L` whose toroidal angle drifts with the column. -/
structure DriftSamples (nfp L cols : ℕ) (δ ρ ζ : ℕ → ℝ) (P : ℕ → ℕ → FitPoint) : Prop where
  phi : ∀ i < L, ∀ j < cols, ∃ k : ℤ, (P i j).phi = (i : ℝ) / (2 * L : ℕ) / nfp + δ j / (2 * π) + k
  theta : ∀ i < L, ∀ j < cols, ∃ l : ℤ, (P i j).theta = (j : ℝ) / cols + l
  r : ∀ i < L, ∀ j < cols, (P i j).r = ρ j
  z : ∀ i < L, ∀ j < cols, (P i j).z = ζ j
  w : ∀ i < L, ∀ j < cols, (P i j).w = 1

/-- If the fit to such samples is axisymmetric, the sine part of `ρ` is small. -/
theorem drift_fit_bound (S : SurfaceShape) (hs : S.stellsym = true) (hf : S.nfp ≠ 0) (hm : 1 ≤ S.mpol) (hn : 1 ≤ S.ntor) {L cols : ℕ}
    (hL : 1 ≤ L) (hc : cols ≠ 0) {δ ρ ζ : ℕ → ℝ} {P : ℕ → ℕ → FitPoint} (hP : DriftSamples S.nfp L cols δ ρ ζ P)
    {x : Fin S.fitSize → ℝ} (hx : S.IsFit 0 ((List.range L).flatMap fun i => (List.range cols).map fun j => P i j) x)
    (hax : IsAxisymmetric S x) :
    (∑ j ∈ Finset.range cols, ρ j * sin (2 * π * j / cols)) ^ 2 ≤
      (∑ j ∈ Finset.range cols, (ρ j ^ 2 + ζ j ^ 2)) * ∑ j ∈ Finset.range cols, (1 - cos (π / (2 * L) - S.nfp * δ j)) ^ 2 := by
  have hf' : (S.nfp : ℝ) ≠ 0 := by exact_mod_cast hf
  have hL' : (0 : ℝ) < L := by exact_mod_cast (by omega : 0 < L)
  have hmode : ∀ n : ℤ, |n| ≤ 1 → ((1 : ℤ), n) ∈ S.cosModes := fun n h => by
    rw [S.cosModes_eq]
    exact List.mem_cons_of_mem _ (S.mem_sinModes.2 (Or.inr ⟨by norm_num, by exact_mod_cast hm, h.trans (by exact_mod_cast hn)⟩))
  obtain ⟨k1, hk1⟩ := S.cos_column (hmode 1 (by norm_num))
  obtain ⟨k2, hk2⟩ := S.cos_column (hmode (-1) (by norm_num))
  set g : ℕ → ℝ := fun j => S.rDash (List.ofFn x) 0 0 0 ((j : ℝ) / cols) with hg
  set e : ℕ → ℝ := fun j => g j - ρ j with he
  have hR : ∀ i < L, ∀ j < cols, S.rDash (List.ofFn x) 0 0 (P i j).phi (P i j).theta = g j := by
    intro i hi j hj
    obtain ⟨l, hl⟩ := hP.theta i hi j hj
    rw [hl, S.rDash_shift_theta, hg]
    exact (hax _ _ _).1
  have hstat : ∀ v : Fin S.fitSize → ℝ, ∑ i ∈ Finset.range L, ∑ j ∈ Finset.range cols,
      (e j * S.rDash (List.ofFn v) 0 0 (P i j).phi (P i j).theta +
        (S.zDash (List.ofFn x) 0 0 (P i j).phi (P i j).theta - ζ j) * S.zDash (List.ofFn v) 0 0 (P i j).phi (P i j).theta) = 0 := by
    intro v
    have h := S.fit_stationary hx v
    rw [SurfaceShape.flatMap_sum] at h
    simp only [List.map_map] at h
    rw [SurfaceShape.list_range_sum] at h
    simp only [SurfaceShape.list_range_sum, Function.comp_apply, zero_mul, add_zero] at h
    rw [← h]
    refine Finset.sum_congr rfl fun i hi => Finset.sum_congr rfl fun j hj => ?_
    rw [Finset.mem_range] at hi hj
    rw [hR i hi j hj, hP.w i hi j hj, hP.r i hi j hj, hP.z i hi j hj, he]
    ring
  -- a direction odd in both angles
  have hodd : ∑ j ∈ Finset.range cols, e j * sin (2 * π * j / cols) * cos (π / (2 * L) - S.nfp * δ j) = 0 := by
    have h := hstat (Pi.single k1 1 - Pi.single k2 1)
    have hv : ∀ i ∈ Finset.range L, ∀ j ∈ Finset.range cols,
        e j * S.rDash (List.ofFn (Pi.single k1 1 - Pi.single k2 1 : Fin S.fitSize → ℝ)) 0 0 (P i j).phi (P i j).theta +
        (S.zDash (List.ofFn x) 0 0 (P i j).phi (P i j).theta - ζ j) *
          S.zDash (List.ofFn (Pi.single k1 1 - Pi.single k2 1 : Fin S.fitSize → ℝ)) 0 0 (P i j).phi (P i j).theta =
        2 * (e j * sin (2 * π * j / cols)) * sin (2 * (π / (2 * L)) * i + S.nfp * δ j) := by
      intro i hi j hj
      rw [Finset.mem_range] at hi hj
      rw [S.rDash_sub, S.rDash_single, S.rDash_single, S.zDash_sub, S.zDash_single, S.zDash_single, hk1, hk2]
      simp only [RowKind.entry, cEntry_zero]
      obtain ⟨k, hk⟩ := hP.phi i hi j hj
      obtain ⟨l, hl⟩ := hP.theta i hi j hj
      have e1 : sin (2 * π * (P i j).theta) = sin (2 * π * j / cols) := by
        rw [hl, show 2 * π * ((j : ℝ) / cols + l) = 2 * π * j / cols + l * (2 * π) by ring, sin_add_int_mul_two_pi]
      have e2 : sin (2 * π * (S.nfp * (P i j).phi)) = sin (2 * (π / (2 * L)) * i + S.nfp * δ j) := by
        rw [hk, show 2 * π * (S.nfp * ((i : ℝ) / (2 * L : ℕ) / S.nfp + δ j / (2 * π) + k)) =
            2 * (π / (2 * L)) * i + S.nfp * δ j + ((S.nfp * k : ℤ) : ℝ) * (2 * π) by
          push_cast
          have := pi_ne_zero
          field_simp, sin_add_int_mul_two_pi]
      rw [← e1, ← e2, show 2 * π * (((1 : ℤ) : ℝ) * (P i j).theta - ((1 : ℤ) : ℝ) * (S.nfp * (P i j).phi)) =
          2 * π * (P i j).theta - 2 * π * (S.nfp * (P i j).phi) by push_cast; ring,
        show 2 * π * (((1 : ℤ) : ℝ) * (P i j).theta - ((-1 : ℤ) : ℝ) * (S.nfp * (P i j).phi)) =
          2 * π * (P i j).theta + 2 * π * (S.nfp * (P i j).phi) by push_cast; ring, cos_sub, cos_add]
      ring
    rw [Finset.sum_congr rfl fun i hi => Finset.sum_congr rfl (hv i hi), Finset.sum_comm] at h
    have h2 : ∑ j ∈ Finset.range cols, 2 * (e j * sin (2 * π * j / cols) * cos (π / (2 * L) - S.nfp * δ j)) = 0 := by
      rw [← mul_zero (sin (π / (2 * L))), ← h, Finset.mul_sum]
      refine Finset.sum_congr rfl fun j _ => ?_
      rw [← half_row_sum hL, ← Finset.mul_sum]
      ring
    rw [← Finset.mul_sum] at h2
    linarith
  -- the misfit is at most the one of the zero vector
  have hmin : ∑ j ∈ Finset.range cols, e j ^ 2 ≤ ∑ j ∈ Finset.range cols, (ρ j ^ 2 + ζ j ^ 2) := by
    have h := hstat x
    have h3 : 0 ≤ ∑ i ∈ Finset.range L, ∑ j ∈ Finset.range cols, ((ρ j ^ 2 + ζ j ^ 2) - e j ^ 2) := by
      have : ∑ i ∈ Finset.range L, ∑ j ∈ Finset.range cols, ((ρ j ^ 2 + ζ j ^ 2) - e j ^ 2) =
          ∑ i ∈ Finset.range L, ∑ j ∈ Finset.range cols, (g j ^ 2 + S.zDash (List.ofFn x) 0 0 (P i j).phi (P i j).theta ^ 2 +
            (S.zDash (List.ofFn x) 0 0 (P i j).phi (P i j).theta - ζ j) ^ 2) := by
        have h' : ∑ i ∈ Finset.range L, ∑ j ∈ Finset.range cols, ((ρ j ^ 2 + ζ j ^ 2) - e j ^ 2) -
          ∑ i ∈ Finset.range L, ∑ j ∈ Finset.range cols, (g j ^ 2 + S.zDash (List.ofFn x) 0 0 (P i j).phi (P i j).theta ^ 2 +
            (S.zDash (List.ofFn x) 0 0 (P i j).phi (P i j).theta - ζ j) ^ 2) = 0 := by
          rw [← mul_zero (-2 : ℝ), ← h, ← Finset.sum_sub_distrib, Finset.mul_sum]
          refine Finset.sum_congr rfl fun i hi => ?_
          rw [← Finset.sum_sub_distrib, Finset.mul_sum]
          refine Finset.sum_congr rfl fun j hj => ?_
          rw [Finset.mem_range] at hi hj
          rw [hR i hi j hj, he]
          ring
        linarith
      rw [this]
      exact Finset.sum_nonneg fun i _ => Finset.sum_nonneg fun j _ => by positivity
    rw [Finset.sum_const, Finset.card_range, nsmul_eq_mul, Finset.sum_sub_distrib] at h3
    nlinarith [nonneg_of_mul_nonneg_right h3 hL']
  -- the sine part
  have heven : ∑ j ∈ Finset.range cols, g j * sin (2 * π * j / cols) = 0 := by
    refine even_sin_sum hc (fun t => S.rDash (List.ofFn x) 0 0 0 t) (fun t => ?_) (fun t => ?_)
    · simpa using S.rDash_shift_theta (List.ofFn x) 0 0 0 t 1
    · simpa using S.rDash_neg hs (List.ofFn x) 0 0 0 t
  have hsplit : ∑ j ∈ Finset.range cols, ρ j * sin (2 * π * j / cols) =
      -∑ j ∈ Finset.range cols, e j * (sin (2 * π * j / cols) * (1 - cos (π / (2 * L) - S.nfp * δ j))) := by
    have : ∑ j ∈ Finset.range cols, ρ j * sin (2 * π * j / cols) =
        ∑ j ∈ Finset.range cols, (g j * sin (2 * π * j / cols) - e j * sin (2 * π * j / cols) * cos (π / (2 * L) - S.nfp * δ j) -
          e j * (sin (2 * π * j / cols) * (1 - cos (π / (2 * L) - S.nfp * δ j)))) :=
      Finset.sum_congr rfl fun j _ => by rw [he]; ring
    rw [this, Finset.sum_sub_distrib, Finset.sum_sub_distrib, heven, hodd]
    ring
  rw [hsplit, neg_sq]
  refine (Finset.sum_mul_sq_le_sq_mul_sq _ _ _).trans (mul_le_mul hmin (Finset.sum_le_sum fun j _ => ?_)
    (Finset.sum_nonneg fun j _ => sq_nonneg _) (Finset.sum_nonneg fun j _ => by positivity))
  rw [mul_pow]
  exact mul_le_of_le_one_left (sq_nonneg _) (sin_sq_le_one _)

/-! ## Fine grids -/

theorem framePoint_zero (R r d : ℝ) (n j : ℕ) : framePoint R r d n j 0 =
    ⟨R + r * cos (2 * π * j / n) + d * cos (2 * π * j / n - π / n), 0, r * sin (2 * π * j / n) + d * sin (2 * π * j / n - π / n)⟩ := by
  simp [framePoint]

theorem framePoint_continuous (R r d : ℝ) (n j : ℕ) : Continuous (fun t => (framePoint R r d n j t).x) ∧
    Continuous (fun t => (framePoint R r d n j t).y) ∧ Continuous (fun t => (framePoint R r d n j t).z) := by
  have h : ∀ t : ℝ, sqrt (1 + t ^ 2 * cos (2 * π * j / n - π / n) ^ 2) ≠ 0 := fun t => (sqrt_pos.2 (by positivity)).ne'
  simp only [framePoint]
  have hk : Continuous fun t : ℝ => sqrt (1 + t ^ 2 * cos (2 * π * j / n - π / n) ^ 2) := by fun_prop
  exact ⟨continuous_const.add (continuous_const.div hk h), (continuous_const.mul continuous_id).div hk h,
    continuous_const.add (continuous_const.div hk h)⟩

/-- The sine part of the radii of the offset points: the normals of the code belong to points half a poloidal step away. -/
theorem torus_sine_part (R r d : ℝ) {n : ℕ} (hn : 3 ≤ n) :
    ∑ j ∈ Finset.range n, (R + r * cos (2 * π * j / n) + d * cos (2 * π * j / n - π / n)) * sin (2 * π * j / n) = d * sin (π / n) * n / 2 := by
  have h1 := sin_sum n (by omega) 1
  have h2 := sin_sum n (by omega) 2
  have h3 := cos_sum n (by omega) 2
  rw [if_neg (fun h => by have := Int.le_of_dvd (by norm_num) h; omega)] at h3
  have e : ∀ j ∈ Finset.range n, (R + r * cos (2 * π * j / n) + d * cos (2 * π * j / n - π / n)) * sin (2 * π * j / n) =
      R * sin (2 * π * j * (1 : ℤ) / n) + (r + d * cos (π / n)) / 2 * sin (2 * π * j * (2 : ℤ) / n) -
        d * sin (π / n) / 2 * cos (2 * π * j * (2 : ℤ) / n) + d * sin (π / n) / 2 := by
    intro j _
    rw [show 2 * π * (j : ℝ) * ((1 : ℤ) : ℝ) / n = 2 * π * j / n by push_cast; ring,
      show 2 * π * (j : ℝ) * ((2 : ℤ) : ℝ) / n = 2 * (2 * π * j / n) by push_cast; ring, sin_two_mul, cos_two_mul, cos_sub]
    linear_combination (d * sin (π / n)) * sin_sq_add_cos_sq (2 * π * (j : ℝ) / n)
  rw [Finset.sum_congr rfl e, Finset.sum_add_distrib, Finset.sum_sub_distrib, Finset.sum_add_distrib, ← Finset.mul_sum, ← Finset.mul_sum,
    ← Finset.mul_sum, h1, h2, h3, Finset.sum_const, Finset.card_range, nsmul_eq_mul]
  ring

/-- **C147, offset generator with its own normals.** On a circular torus, with stellarator symmetry and one poloidal and one toroidal
mode or more, the result of the default call is not axisymmetric on any grid with enough toroidal points. -/
theorem C147_offset_default_violated_partial {nfp nTheta mpol ntor : ℕ} (hf : nfp ≠ 0) {R r d : ℝ} (hr : 0 < r) (hd : 0 < d) (hR : r + d < R)
    (hn : 3 ≤ nTheta) (hm : 1 ≤ mpol) (hnt : 1 ≤ ntor) :
    ∃ L0, ∀ L, L0 ≤ L →
      (∃ x, IsOffsetResult (torusGrid nfp (2 * L) nTheta R r) none d true mpol ntor x) ∧
      ∀ x, IsOffsetResult (torusGrid nfp (2 * L) nTheta R r) none d true mpol ntor x →
        ¬ IsAxisymmetric (generatedShape (torusGrid nfp (2 * L) nTheta R r) true mpol ntor) x := by
  have hf' : (nfp : ℝ) ≠ 0 := by exact_mod_cast hf
  have hn' : (3 : ℝ) ≤ nTheta := by exact_mod_cast hn
  have hη : 0 < sin (π / nTheta) := sin_pos_of_pos_of_lt_pi (by positivity) (div_lt_self pi_pos (by linarith))
  set q : ℕ → ℝ → V3 := fun j h => framePoint R r d nTheta j (tan (h / nfp)) with hq
  set ρ : ℕ → ℝ → ℝ := fun j h => sqrt ((q j h).x ^ 2 + (q j h).y ^ 2) with hρ
  set δ : ℕ → ℝ → ℝ := fun j h => Complex.arg ⟨(q j h).x, (q j h).y⟩ with hδ
  have htan : ContinuousAt (fun h : ℝ => tan (h / nfp)) 0 := by
    have h1 : ContinuousAt tan ((0 : ℝ) / nfp) := Real.continuousAt_tan.2 (by simp)
    exact ContinuousAt.comp (f := fun h : ℝ => h / nfp) h1 (by fun_prop)
  have hq0 : ∀ j, q j 0 = ⟨R + r * cos (2 * π * j / nTheta) + d * cos (2 * π * j / nTheta - π / nTheta), 0,
      r * sin (2 * π * j / nTheta) + d * sin (2 * π * j / nTheta - π / nTheta)⟩ := fun j => by
    rw [hq]
    simp only [zero_div, tan_zero]
    exact framePoint_zero _ _ _ _ _
  have hx0 : ∀ j, 0 < (q j 0).x := fun j => by
    rw [hq0]
    nlinarith [neg_one_le_cos (2 * π * (j : ℝ) / nTheta), neg_one_le_cos (2 * π * (j : ℝ) / nTheta - π / nTheta)]
  have hcx : ∀ j, ContinuousAt (fun h => (q j h).x) 0 := fun j =>
    ContinuousAt.comp (f := fun h : ℝ => tan (h / nfp)) (framePoint_continuous R r d nTheta j).1.continuousAt htan
  have hcy : ∀ j, ContinuousAt (fun h => (q j h).y) 0 := fun j =>
    ContinuousAt.comp (f := fun h : ℝ => tan (h / nfp)) (framePoint_continuous R r d nTheta j).2.1.continuousAt htan
  have hcz : ∀ j, ContinuousAt (fun h => (q j h).z) 0 := fun j =>
    ContinuousAt.comp (f := fun h : ℝ => tan (h / nfp)) (framePoint_continuous R r d nTheta j).2.2.continuousAt htan
  have hcρ : ∀ j, ContinuousAt (fun h => ρ j h) 0 := fun j => (((hcx j).pow 2).add ((hcy j).pow 2)).sqrt
  have hcδ : ∀ j, ContinuousAt (fun h => δ j h) 0 := fun j => by
    have hc : ContinuousAt (fun h => (⟨(q j h).x, (q j h).y⟩ : ℂ)) 0 := by
      have e : (fun h => (⟨(q j h).x, (q j h).y⟩ : ℂ)) = fun h => ((q j h).x : ℂ) + ((q j h).y : ℂ) * Complex.I := by
        funext h
        apply Complex.ext <;> simp
      rw [e]
      exact ((Complex.continuous_ofReal.continuousAt.comp (hcx j))).add
        ((Complex.continuous_ofReal.continuousAt.comp (hcy j)).mul continuousAt_const)
    exact ContinuousAt.comp (g := Complex.arg) (Complex.continuousAt_arg (Or.inl (hx0 j))) hc
  have hδ0 : ∀ j, δ j 0 = 0 := fun j => by
    rw [hδ]
    simp only
    have : (⟨(q j 0).x, (q j 0).y⟩ : ℂ) = (((q j 0).x : ℝ) : ℂ) := by
      have hy : (q j 0).y = 0 := by rw [hq0]
      exact Complex.ext (Complex.ofReal_re _).symm (hy.trans (Complex.ofReal_im _).symm)
    rw [this, Complex.arg_ofReal_of_nonneg (hx0 j).le]
  have hρ0 : ∀ j, ρ j 0 = (q j 0).x := fun j => by
    have hy : (q j 0).y = 0 := by rw [hq0]
    rw [hρ]
    simp only [hy]
    rw [zero_pow (by norm_num), add_zero, sqrt_sq (hx0 j).le]
  set G : ℝ → ℝ := fun h => (∑ j ∈ Finset.range nTheta, ρ j h * sin (2 * π * j / nTheta)) ^ 2 -
    (∑ j ∈ Finset.range nTheta, (ρ j h ^ 2 + (q j h).z ^ 2)) * ∑ j ∈ Finset.range nTheta, (1 - cos (h - nfp * δ j h)) ^ 2 with hG
  have hGc : ContinuousAt G 0 := by
    have c1 : ContinuousAt (fun h => ∑ j ∈ Finset.range nTheta, ρ j h * sin (2 * π * j / nTheta)) 0 :=
      tendsto_finsetSum _ fun j _ => (hcρ j).mul continuousAt_const
    have c2 : ContinuousAt (fun h => ∑ j ∈ Finset.range nTheta, (ρ j h ^ 2 + (q j h).z ^ 2)) 0 :=
      tendsto_finsetSum _ fun j _ => ((hcρ j).pow 2).add ((hcz j).pow 2)
    have c3 : ContinuousAt (fun h => ∑ j ∈ Finset.range nTheta, (1 - cos (h - nfp * δ j h)) ^ 2) 0 :=
      tendsto_finsetSum _ fun j _ => (continuousAt_const.sub
        (continuous_cos.continuousAt.comp (continuousAt_id.sub (continuousAt_const.mul (hcδ j))))).pow 2
    exact (c1.pow 2).sub (c2.mul c3)
  have hG0 : 0 < G 0 := by
    rw [hG]
    simp only [hδ0, hρ0, mul_zero, sub_zero, cos_zero, sub_self, ne_eq, OfNat.ofNat_ne_zero, not_false_eq_true, zero_pow,
      Finset.sum_const_zero]
    have e : ∑ j ∈ Finset.range nTheta, (q j 0).x * sin (2 * π * j / nTheta) = d * sin (π / nTheta) * nTheta / 2 := by
      rw [← torus_sine_part R r d hn]
      exact Finset.sum_congr rfl fun j _ => by rw [hq0]
    rw [e]
    positivity
  have hev : ∀ᶠ h in 𝓝 (0 : ℝ), 0 < G h ∧ ∀ j ∈ Finset.range nTheta, 0 < (q j h).x :=
    (hGc.eventually (lt_mem_nhds hG0)).and ((Finset.eventually_all _).2 fun j _ => (hcx j).eventually (lt_mem_nhds (hx0 j)))
  have hlim : Tendsto (fun L : ℕ => π / (2 * (L : ℝ))) atTop (𝓝 0) :=
    tendsto_const_nhds.div_atTop (tendsto_natCast_atTop_atTop.const_mul_atTop (by norm_num))
  obtain ⟨L1, hL1⟩ := eventually_atTop.1 (hlim.eventually hev)
  refine ⟨max L1 2, fun L hL => ⟨fit_exists_unregularised _ _, fun x hx hax => ?_⟩⟩
  have hL2 : 2 ≤ L := (le_max_right _ _).trans hL
  obtain ⟨hpos, hxp⟩ := hL1 L ((le_max_left _ _).trans hL)
  have harg : π / ((nfp : ℝ) * (2 * L : ℕ)) = π / (2 * (L : ℝ)) / nfp := by
    push_cast
    rw [div_div]
    congr 1
    ring
  have hP : DriftSamples nfp L nTheta (fun j => δ j (π / (2 * L))) (fun j => ρ j (π / (2 * L))) (fun j => (q j (π / (2 * L))).z)
      (fun i j => (torusGrid nfp (2 * L) nTheta R r).offsetSample none d i j) := by
    have key : ∀ i < L, ∀ j < nTheta, _ := fun i hi j hj =>
      torus_sample_approx (nPhi := 2 * L) (Nat.pos_of_ne_zero hf) hr (by linarith : r < R) (by omega) hn d (i := i) (by omega) hj
        (by rw [harg]; exact hxp j (Finset.mem_range.2 hj))
    simp only [harg] at key
    exact ⟨fun i hi j hj => (key i hi j hj).1, fun i hi j hj => ⟨1, (key i hi j hj).2.1⟩, fun i hi j hj => (key i hi j hj).2.2.1,
      fun i hi j hj => (key i hi j hj).2.2.2.1, fun i hi j hj => (key i hi j hj).2.2.2.2⟩
  have hrows : (torusGrid nfp (2 * L) nTheta R r).offsetRows true = L := by
    change (2 * L) / 2 = L
    omega
  rw [IsOffsetResult, PlasmaGrid.offsetSamples, hrows] at hx
  have := drift_fit_bound _ rfl hf hm hnt (by omega : 1 ≤ L) (by omega : nTheta ≠ 0) hP hx hax
  rw [hG] at hpos
  simp only at hpos
  exact absurd this (not_le.2 (sub_pos.1 hpos))

/-- A torus with three field periods. -/
example : ∃ L0, ∀ L, L0 ≤ L →
    (∃ x, IsOffsetResult (torusGrid 3 (2 * L) 32 5 1) none (1 / 2) true 6 6 x) ∧
    ∀ x, IsOffsetResult (torusGrid 3 (2 * L) 32 5 1) none (1 / 2) true 6 6 x →
      ¬ IsAxisymmetric (generatedShape (torusGrid 3 (2 * L) 32 5 1) true 6 6) x :=
  C147_offset_default_violated_partial (by norm_num) (by norm_num) (by norm_num) (by norm_num) (by norm_num) (by norm_num) (by norm_num)

end Verif
