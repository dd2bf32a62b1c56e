import Verif.Props.FitModes
import Verif.Props.OffsetLimit
import Verif.Model.Generate

/-!
# C147: the winding surface of an axisymmetric plasma
-/

namespace Verif

open Real

/-! ## Angles -/

theorem entry_shift (r : RowKind) (nfp : ℕ) (phi theta : ℝ) (k l : ℤ) :
    r.entry nfp 0 0 (phi + k) (theta + l) = r.entry nfp 0 0 phi theta := by
  have e : ∀ m n : ℤ, 2 * π * (m * (theta + l) - n * (nfp * (phi + k))) =
      2 * π * (m * theta - n * (nfp * phi)) + ((m * l - n * (nfp * k) : ℤ) : ℝ) * (2 * π) := by
    intro m n
    push_cast
    ring
  cases r with
  | zero => rfl
  | cosine m n => rw [RowKind.entry, RowKind.entry, cEntry_zero, cEntry_zero, e, cos_add_int_mul_two_pi]
  | sine m n => rw [RowKind.entry, RowKind.entry, sEntry_zero, sEntry_zero, e, sin_add_int_mul_two_pi]

theorem SurfaceShape.rDash_shift (S : SurfaceShape) (x : Fin S.fitSize → ℝ) (phi theta : ℝ) (k l : ℤ) :
    S.rDash (List.ofFn x) 0 0 (phi + k) (theta + l) = S.rDash (List.ofFn x) 0 0 phi theta := by
  simp only [S.rDash_columns, entry_shift]

theorem SurfaceShape.zDash_shift (S : SurfaceShape) (x : Fin S.fitSize → ℝ) (phi theta : ℝ) (k l : ℤ) :
    S.zDash (List.ofFn x) 0 0 (phi + k) (theta + l) = S.zDash (List.ofFn x) 0 0 phi theta := by
  simp only [S.zDash_columns, entry_shift]

/-- The toroidal angle of a point, in turns, up to full turns. -/
theorem arg_turns {r t : ℝ} (hr : 0 < r) : ∃ k : ℤ, Complex.arg ⟨r * cos t, r * sin t⟩ / π / 2 = t / (2 * π) + k := by
  have h : (⟨r * cos t, r * sin t⟩ : ℂ) = (r : ℂ) * (Complex.cos t + Complex.sin t * Complex.I) := by
    apply Complex.ext <;> simp [Complex.cos_ofReal_re, Complex.sin_ofReal_re, Complex.cos_ofReal_im, Complex.sin_ofReal_im]
  have h2 := Complex.arg_mul_cos_add_sin_mul_I_coe_angle hr (t : Real.Angle)
  rw [Real.Angle.cos_coe, Real.Angle.sin_coe] at h2
  have h3 : ((Complex.arg ⟨r * cos t, r * sin t⟩ : ℝ) : Real.Angle) = t := by
    rw [h, ← h2]
    push_cast
    rfl
  obtain ⟨k, hk⟩ := Real.Angle.angle_eq_iff_two_pi_dvd_sub.1 h3
  refine ⟨k, ?_⟩
  have hp := pi_ne_zero
  field_simp
  linear_combination hk

/-! ## Functions that vanish on the grid -/

/-- The grid of the offset generator resolves the modes of the fit. -/
def Resolves (stellsym : Bool) (nPhi nTheta mpol ntor : ℕ) : Prop :=
  2 * mpol < nTheta ∧ if stellsym then ntor < nPhi / 2 else 2 * ntor < nPhi

/-- A function that vanishes on the samples of the offset generator vanishes if the grid resolves its modes. -/
theorem vanish_of_grid {stellsym : Bool} {nfp nPhi nTheta mpol ntor : ℕ} (hf : nfp ≠ 0) (hr : Resolves stellsym nPhi nTheta mpol ntor)
    (f : ℝ → ℝ → ℝ) (h1 : ∀ phi, IsTrig mpol (f phi)) (h2 : ∀ theta, IsTrig ntor fun t => f (t / nfp) theta) (σ : ℝ)
    (hsym : stellsym = true → ∀ phi theta, f (-phi) (-theta) = σ * f phi theta)
    (hz : ∀ i < (if stellsym then nPhi / 2 else nPhi), ∀ j < nTheta, f ((i : ℝ) / nPhi / nfp) ((j : ℝ) / nTheta) = 0) (phi theta : ℝ) :
    f phi theta = 0 := by
  have hf' : (nfp : ℝ) ≠ 0 := by exact_mod_cast hf
  obtain ⟨hm, hn⟩ := hr
  have hT : (0 : ℝ) < nTheta := by exact_mod_cast (by omega : 0 < nTheta)
  have row : ∀ i < (if stellsym then nPhi / 2 else nPhi), ∀ t, f ((i : ℝ) / nPhi / nfp) t = 0 := by
    intro i hi t
    refine (h1 _).eq_zero ((Finset.range nTheta).image fun j : ℕ => (j : ℝ) / nTheta) ?_ ?_ ?_ t
    · rw [Finset.card_image_of_injective, Finset.card_range]
      · exact hm
      · intro a b hab
        rw [div_left_inj' hT.ne'] at hab
        exact_mod_cast hab
    · intro a ha b hb
      obtain ⟨a, ha2, rfl⟩ := Finset.mem_image.1 ha
      obtain ⟨b, hb2, rfl⟩ := Finset.mem_image.1 hb
      have ha' : (a : ℝ) < nTheta := by exact_mod_cast Finset.mem_range.1 ha2
      have hb' : (b : ℝ) < nTheta := by exact_mod_cast Finset.mem_range.1 hb2
      rw [← sub_div, abs_div, abs_of_pos hT, div_lt_one hT, abs_lt]
      constructor <;> linarith [(Nat.cast_nonneg a : (0 : ℝ) ≤ a), (Nat.cast_nonneg b : (0 : ℝ) ≤ b)]
    · intro a ha
      obtain ⟨a, ha2, rfl⟩ := Finset.mem_image.1 ha
      exact hz i hi a (Finset.mem_range.1 ha2)
  have key : (fun t => f (t / nfp) theta) (phi * nfp) = 0 := by
    by_cases hs : stellsym = true
    · rw [if_pos hs] at hn
      simp only [if_pos hs] at row
      have hP : (0 : ℝ) < nPhi := by exact_mod_cast (by omega : 0 < nPhi)
      refine (h2 theta).eq_zero ((Finset.Ioo (-((nPhi / 2 : ℕ) : ℤ)) ((nPhi / 2 : ℕ) : ℤ)).image fun i : ℤ => (i : ℝ) / nPhi) ?_ ?_ ?_ _
      · rw [Finset.card_image_of_injective, Int.card_Ioo]
        · omega
        · intro a b hab
          rw [div_left_inj' hP.ne'] at hab
          exact_mod_cast hab
      · intro a ha b hb
        obtain ⟨a, ha2, rfl⟩ := Finset.mem_image.1 ha
        obtain ⟨b, hb2, rfl⟩ := Finset.mem_image.1 hb
        rw [Finset.mem_Ioo] at ha2 hb2
        have hab : |a - b| < (nPhi : ℤ) := by
          rw [abs_lt]
          omega
        rw [← sub_div, abs_div, abs_of_pos hP, div_lt_one hP]
        exact_mod_cast hab
      · intro a ha
        obtain ⟨a, ha2, rfl⟩ := Finset.mem_image.1 ha
        rw [Finset.mem_Ioo] at ha2
        obtain ⟨i, rfl | rfl⟩ := a.eq_nat_or_neg
        · have := row i (by omega) theta
          simpa using this
        · have h := hsym hs ((i : ℝ) / nPhi / nfp) (-theta)
          rw [row i (by omega), mul_zero, neg_neg] at h
          simpa [neg_div] using h
    · rw [if_neg hs] at hn
      simp only [if_neg hs] at row
      have hP : (0 : ℝ) < nPhi := by exact_mod_cast (by omega : 0 < nPhi)
      refine (h2 theta).eq_zero ((Finset.range nPhi).image fun i : ℕ => (i : ℝ) / nPhi) ?_ ?_ ?_ _
      · rw [Finset.card_image_of_injective, Finset.card_range]
        · omega
        · intro a b hab
          rw [div_left_inj' hP.ne'] at hab
          exact_mod_cast hab
      · intro a ha b hb
        obtain ⟨a, ha2, rfl⟩ := Finset.mem_image.1 ha
        obtain ⟨b, hb2, rfl⟩ := Finset.mem_image.1 hb
        have ha' : (a : ℝ) < nPhi := by exact_mod_cast Finset.mem_range.1 ha2
        have hb' : (b : ℝ) < nPhi := by exact_mod_cast Finset.mem_range.1 hb2
        rw [← sub_div, abs_div, abs_of_pos hP, div_lt_one hP, abs_lt]
        constructor <;> linarith [(Nat.cast_nonneg a : (0 : ℝ) ≤ a), (Nat.cast_nonneg b : (0 : ℝ) ≤ b)]
      · intro a ha
        obtain ⟨a, ha2, rfl⟩ := Finset.mem_image.1 ha
        exact row a (Finset.mem_range.1 ha2) theta
  simpa [mul_div_cancel_right₀ _ hf'] using key

/-! ## Exact normals -/

/-- The unit normals of a torus at its samples. -/
noncomputable def torusNormals (nfp nPhi nTheta : ℕ) (i j : ℕ) : V3 :=
  revolve (2 * π * i / (nfp * nPhi)) (cos (2 * π * j / nTheta), sin (2 * π * j / nTheta))

/-- The surface with coefficients `x` is the circular torus with radii `R` and `ρ`. -/
def IsTorus (S : SurfaceShape) (x : Fin S.fitSize → ℝ) (R ρ : ℝ) : Prop :=
  ∀ phi theta, S.rDash (List.ofFn x) 0 0 phi theta = R + ρ * cos (2 * π * theta) ∧
    S.zDash (List.ofFn x) 0 0 phi theta = ρ * sin (2 * π * theta)

theorem torus_exists (S : SurfaceShape) (hm : 1 ≤ S.mpol) (R ρ : ℝ) : ∃ x, IsTorus S x R ρ := by
  have h10 : ((1 : ℤ), (0 : ℤ)) ∈ S.sinModes := S.mem_sinModes.2 (Or.inr ⟨by norm_num, by exact_mod_cast hm, by simp⟩)
  obtain ⟨k0, h0⟩ := S.cos_column (m := 0) (n := 0) (by rw [S.cosModes_eq]; exact List.mem_cons_self)
  obtain ⟨k1, h1⟩ := S.cos_column (m := 1) (n := 0) (by rw [S.cosModes_eq]; exact List.mem_cons_of_mem _ h10)
  obtain ⟨k2, h2⟩ := S.sin_column h10
  refine ⟨Pi.single k0 R + Pi.single k1 ρ + Pi.single k2 ρ, fun phi theta => ⟨?_, ?_⟩⟩
  · rw [S.rDash_add, S.rDash_add, S.rDash_single, S.rDash_single, S.rDash_single, h0, h1, h2]
    simp [RowKind.entry, cEntry_zero]
  · rw [S.zDash_add, S.zDash_add, S.zDash_single, S.zDash_single, S.zDash_single, h0, h1, h2]
    simp [RowKind.entry, sEntry_zero]

/-- The samples of the offset generator with the exact normals of a torus. -/
theorem torus_sample {nfp nPhi nTheta : ℕ} {R r d : ℝ} (hR : |r + d| < R) (i j : ℕ) :
    let p := (torusGrid nfp nPhi nTheta R r).offsetSample (some (torusNormals nfp nPhi nTheta)) d i j
    (∃ k : ℤ, p.phi = (i : ℝ) / nPhi / nfp + k) ∧ p.theta = (j : ℝ) / nTheta + (1 : ℤ) ∧
      p.r = R + (r + d) * cos (2 * π * (j / nTheta)) ∧ p.z = (r + d) * sin (2 * π * (j / nTheta)) := by
  have hq : (torusGrid nfp nPhi nTheta R r).offsetWith (some (torusNormals nfp nPhi nTheta)) d i j =
      revolve (2 * π * i / (nfp * nPhi)) (R + (r + d) * cos (2 * π * (j / nTheta)), (r + d) * sin (2 * π * (j / nTheta))) := by
    simp only [PlasmaGrid.offsetWith, torusGrid, revolutionGrid, torusNormals, revolve, mul_div_assoc]
    ext <;> simp only [V3.add_x, V3.add_y, V3.add_z, V3.smul_x, V3.smul_y, V3.smul_z] <;> ring
  have hpos : 0 < R + (r + d) * cos (2 * π * (j / nTheta)) := by
    have h1 := abs_cos_le_one (2 * π * (j / nTheta))
    have h2 : |(r + d) * cos (2 * π * (j / nTheta))| ≤ |r + d| := by
      rw [abs_mul]
      exact mul_le_of_le_one_right (abs_nonneg _) h1
    have h3 := neg_abs_le ((r + d) * cos (2 * π * (j / nTheta)))
    linarith
  simp only [PlasmaGrid.offsetSample, hq, revolve]
  obtain ⟨k, hk⟩ := arg_turns (t := 2 * π * i / (nfp * nPhi)) hpos
  refine ⟨⟨k, ?_⟩, ?_, ?_, trivial⟩
  · rw [hk]
    congr 1
    have := pi_ne_zero
    rw [mul_div_assoc, mul_div_cancel_left₀ _ (by positivity), div_div, mul_comm (nfp : ℝ)]
  · change (j : ℝ) * (1 / nTheta) + 1 = _
    push_cast
    ring
  · rw [show ∀ a s c : ℝ, (a * s) ^ 2 + (a * c) ^ 2 = a ^ 2 * (s ^ 2 + c ^ 2) by intros; ring, sin_sq_add_cos_sq, mul_one]
    exact sqrt_sq hpos.le

/-- **C147, uniform offset.** With the exact unit normals of a circular torus, the offset generator returns the concentric torus at the
requested distance, and nothing else, if the grid resolves the modes of the winding surface. -/
theorem C147_offset_exact_normals {nfp nPhi nTheta mpol ntor : ℕ} (hf : nfp ≠ 0) {R r d : ℝ} (hR : |r + d| < R) (stellsym : Bool)
    (hm : 1 ≤ mpol) (hres : Resolves stellsym nPhi nTheta mpol ntor) :
    (∃ x, IsOffsetResult (torusGrid nfp nPhi nTheta R r) (some (torusNormals nfp nPhi nTheta)) d stellsym mpol ntor x) ∧
    ∀ x, IsOffsetResult (torusGrid nfp nPhi nTheta R r) (some (torusNormals nfp nPhi nTheta)) d stellsym mpol ntor x →
      IsTorus (generatedShape (torusGrid nfp nPhi nTheta R r) stellsym mpol ntor) x R (r + d) := by
  set S := generatedShape (torusGrid nfp nPhi nTheta R r) stellsym mpol ntor with hS
  obtain ⟨c, hc⟩ := torus_exists S hm R (r + d)
  have hdata : ∀ p ∈ (torusGrid nfp nPhi nTheta R r).offsetSamples (some (torusNormals nfp nPhi nTheta)) d stellsym,
      p.r = S.rDash (List.ofFn c) 0 0 p.phi p.theta ∧ p.z = S.zDash (List.ofFn c) 0 0 p.phi p.theta := by
    intro p hp
    obtain ⟨i, -, hp⟩ := List.mem_flatMap.1 hp
    obtain ⟨j, -, rfl⟩ := List.mem_map.1 hp
    obtain ⟨⟨k, h1⟩, h2, h3, h4⟩ := torus_sample (nfp := nfp) (nPhi := nPhi) (nTheta := nTheta) hR i j
    rw [h1, h2, S.rDash_shift, S.zDash_shift, (hc _ _).1, (hc _ _).2, h3, h4]
    exact ⟨rfl, rfl⟩
  obtain ⟨hfit, huniq⟩ := C52_exact_data S _ c hdata
  refine ⟨⟨c, hfit⟩, fun x hx => ?_⟩
  have hx' := huniq x hx
  have hnode : ∀ i < (if stellsym then nPhi / 2 else nPhi), ∀ j < nTheta,
      S.rDash (List.ofFn (x - c)) 0 0 ((i : ℝ) / nPhi / nfp) ((j : ℝ) / nTheta) = 0 ∧
      S.zDash (List.ofFn (x - c)) 0 0 ((i : ℝ) / nPhi / nfp) ((j : ℝ) / nTheta) = 0 := by
    intro i hi j hj
    have hmem : (torusGrid nfp nPhi nTheta R r).offsetSample (some (torusNormals nfp nPhi nTheta)) d i j ∈
        (torusGrid nfp nPhi nTheta R r).offsetSamples (some (torusNormals nfp nPhi nTheta)) d stellsym :=
      List.mem_flatMap.2 ⟨i, List.mem_range.2 (by simpa [PlasmaGrid.offsetRows, torusGrid, revolutionGrid] using hi),
        List.mem_map.2 ⟨j, List.mem_range.2 hj, rfl⟩⟩
    have hq := hx' _ hmem (by norm_num [PlasmaGrid.offsetSample])
    have hq2 := hdata _ hmem
    obtain ⟨⟨k, h1⟩, h2, -, -⟩ := torus_sample (nfp := nfp) (nPhi := nPhi) (nTheta := nTheta) hR i j
    rw [hq2.1, hq2.2, h1, h2] at hq
    simp only [S.rDash_shift, S.zDash_shift] at hq
    rw [S.rDash_sub, S.zDash_sub, hq.1, hq.2, sub_self, sub_self]
    exact ⟨rfl, rfl⟩
  intro phi theta
  have hfr := vanish_of_grid hf hres (fun p t => S.rDash (List.ofFn (x - c)) 0 0 p t) (fun p => S.rDash_trig_theta _ p)
    (fun t => S.rDash_trig_phi hf _ t) 1 (fun hs p t => by simpa using S.rDash_neg hs (List.ofFn (x - c)) 0 0 p t)
    (fun i hi j hj => (hnode i hi j hj).1) phi theta
  have hfz := vanish_of_grid hf hres (fun p t => S.zDash (List.ofFn (x - c)) 0 0 p t) (fun p => S.zDash_trig_theta _ p)
    (fun t => S.zDash_trig_phi hf _ t) (-1) (fun hs p t => by simpa using S.zDash_neg hs (List.ofFn (x - c)) 0 0 p t)
    (fun i hi j hj => (hnode i hi j hj).2) phi theta
  simp only [S.rDash_sub, S.zDash_sub, sub_eq_zero] at hfr hfz
  rw [hfr, hfz]
  exact hc phi theta

end Verif
