import Verif.Model.Dipole
import Verif.Model.Wrapper
import Verif.Lemmas.Lse
import Verif.Spec.ToyQp
import Mathlib.Analysis.InnerProductSpace.PiL2

/-!
# Properties C70, C71, C72, C74: automatic units of objectives, Huber loss, L1 norms of vector fields
-/

namespace Verif

set_option linter.unusedSectionVars false

variable {P : Type} [HasQp P]

/-! ## C70 -/

theorem rowDot_zero (row : List ℝ) (n : ℕ) : rowDot row (List.replicate n 0) = 0 := by
  unfold rowDot
  apply List.sum_eq_zero
  intro x hx
  rw [List.mem_iff_getElem] at hx
  obtain ⟨i, hi, rfl⟩ := hx
  simp

theorem phiField_zero (trig : P → List (List ℝ)) (qp : P) (n : ℕ) :
    phiField trig qp (phiOnly (Val.array (List.replicate n 0))) = Val.array ((trig qp).map fun _ => 0) := by
  simp [phiField, phiOnly, Val.entries, rowDot_zero]

theorem zipWith_mul_zero_sum (l m : List ℝ) (h : ∀ x ∈ m, x = 0) : (List.zipWith (· * ·) l m).sum = 0 := by
  apply List.sum_eq_zero
  intro x hx
  obtain ⟨i, hi, rfl⟩ := List.mem_iff_getElem.1 hx
  simp only [List.length_zipWith] at hi
  simp [h m[i] (List.getElem_mem _)]

theorem zipWith_zero_mul_sum (l m : List ℝ) (h : ∀ x ∈ l, x = 0) : (List.zipWith (· * ·) l m).sum = 0 := by
  apply List.sum_eq_zero
  intro x hx
  obtain ⟨i, hi, rfl⟩ := List.mem_iff_getElem.1 hx
  simp only [List.length_zipWith] at hi
  simp [h l[i] (List.getElem_mem _)]

/-- **C70, false of the code.** For each of the five current potential objectives, on every non-empty grid and for every
net current, the automatic unit is exactly zero, so the scaled objective is `0/0` at the start. -/
theorem C70_dipole_auto_unit_zero_violated_partial (trig : P → List (List ℝ)) (qp : P) (hgrid : trig qp ≠ [])
    (name : String) (q : Quantity P) (hq : (name, q) ∈ dipoleObjectives trig) :
    "f" ∈ q.compatibility ∧ ∃ u, unitCallable q .none = .ok u ∧ u qp = .scalar 0 := by
  have hmax : ∀ f : ℝ → ℝ, f 0 = 0 → jmax (((trig qp).map fun _ => (0 : ℝ)).map f) = 0 := by
    intro f hf
    apply jmax_eq
    · obtain ⟨a, l, h⟩ := List.exists_cons_of_ne_nil hgrid
      simp [h, hf]
    · intro x hx
      simp [hf] at hx
      simp [hx.2]
  simp only [dipoleObjectives, List.mem_cons, Prod.mk.injEq, List.not_mem_nil, or_false] at hq
  rcases hq with ⟨-, rfl⟩ | ⟨-, rfl⟩ | ⟨-, rfl⟩ | ⟨-, rfl⟩ | ⟨-, rfl⟩
  · refine ⟨by simp [Quantity.generateLinf], _, rfl, ?_⟩
    simp only [Quantity.call, Quantity.generateLinf, phiOnly, if_true]
    rw [phiField_zero]
    simp only [Bool.false_eq_true, if_false, Quantity.maxAbs, Val.entries]
    rw [hmax _ (by simp)]
  · refine ⟨by simp [Quantity.generateLinf], _, rfl, ?_⟩
    simp only [Quantity.call, Quantity.generateLinf, phiOnly, if_true]
    rw [phiField_zero]
    simp only [Quantity.maxAbs, Val.entries]
    rw [hmax _ (by simp)]
    simp
  · refine ⟨by simp [Quantity.generateLinf4], _, rfl, ?_⟩
    simp only [Quantity.call, Quantity.generateLinf4, phiOnly, if_true]
    rw [phiField_zero]
    simp only [Val.entries]
    rw [hmax _ (by simp)]
  · refine ⟨by simp [Quantity.generateL1], _, rfl, ?_⟩
    simp only [Quantity.call, Quantity.generateL1, phiOnly, if_true, Quantity.l1Integral]
    rw [phiField_zero]
    rw [zipWith_mul_zero_sum _ _ (by simp +contextual [Val.entries])]
    simp
  · refine ⟨by simp [Quantity.generateC2], _, rfl, ?_⟩
    simp only [Quantity.call, Quantity.generateC2, phiOnly, if_true, fPhi, fPhi.l1Integral']
    rw [phiField_zero]
    rw [zipWith_zero_mul_sum _ _ (by simp +contextual [Val.entries])]
    simp

example : (fun (_ : ToyQp) => [[(1 : ℝ), 2], [3, 4]]) ⟨5⟩ ≠ [] := by simp

/-! ## Huber loss -/

open Quantity in
theorem vecNorm_nonneg (v : List ℝ) : 0 ≤ vecNorm v := Real.sqrt_nonneg _

open Quantity in
theorem vecNorm_eq_norm (v : List ℝ) :
    vecNorm v = ‖(WithLp.toLp 2 (fun i : Fin v.length => v[i]) : EuclideanSpace ℝ (Fin v.length))‖ := by
  rw [EuclideanSpace.norm_eq, vecNorm]
  congr 1
  simp only [Real.norm_eq_abs, sq_abs]
  rw [← Fin.sum_univ_getElem]
  simp only [List.getElem_map]
  exact Fintype.sum_equiv (finCongr (by simp)) _ _ (fun i => by simp)

/-- Adding the constant `s` to every component and scaling changes the norm by at most `sqrt d * |s|`. -/
theorem vecNorm_shift (v : List ℝ) (u s : ℝ) :
    abs (Quantity.vecNorm (v.map fun x => x / u + s) - Quantity.vecNorm v / |u|) ≤ Real.sqrt v.length * |s| := by
  have h1 : Quantity.vecNorm (v.map fun x => x / u + s) =
      ‖(WithLp.toLp 2 (fun i : Fin v.length => v[i] / u + s) : EuclideanSpace ℝ (Fin v.length))‖ := by
    rw [EuclideanSpace.norm_eq, Quantity.vecNorm]
    congr 1
    simp only [Real.norm_eq_abs, sq_abs, List.map_map]
    rw [← Fin.sum_univ_getElem]
    simp
    exact Fintype.sum_equiv (finCongr (by simp)) _ _ (fun i => by simp)
  have h2 : Quantity.vecNorm v / |u| =
      ‖(WithLp.toLp 2 (fun i : Fin v.length => v[i] / u) : EuclideanSpace ℝ (Fin v.length))‖ := by
    rw [vecNorm_eq_norm]
    rw [show (WithLp.toLp 2 (fun i : Fin v.length => v[i] / u) : EuclideanSpace ℝ (Fin v.length)) =
      u⁻¹ • WithLp.toLp 2 (fun i : Fin v.length => v[i]) from by
        ext i
        simp [div_eq_inv_mul]]
    rw [norm_smul]
    simp [div_eq_inv_mul]
  have h3 : Real.sqrt v.length * |s| =
      ‖(WithLp.toLp 2 (fun _ : Fin v.length => s) : EuclideanSpace ℝ (Fin v.length))‖ := by
    rw [EuclideanSpace.norm_eq]
    simp [Real.sqrt_sq_eq_abs]
  rw [h1, h2, h3]
  refine (abs_norm_sub_norm_le _ _).trans (le_of_eq ?_)
  congr 1
  ext i
  simp

/-- The sum of the area elements of the grid points used. -/
noncomputable def gridArea (qp : P) : ℝ := (HasQp.da qp).sum * HasQp.nfp qp

theorem zipWith_sum_sub (da : List ℝ) (hda : ∀ a ∈ da, 0 ≤ a) (vs : List (List ℝ)) (f g : List ℝ → ℝ) (B : ℝ)
    (hlen : da.length = vs.length) (h : ∀ v ∈ vs, |f v - g v| ≤ B) :
    |(List.zipWith (· * ·) da (vs.map f)).sum - (List.zipWith (· * ·) da (vs.map g)).sum| ≤ da.sum * B := by
  induction da generalizing vs with
  | nil => simp
  | cons a da ih =>
    cases vs with
    | nil => simp at hlen
    | cons v vs =>
      have := ih (fun a ha => hda a (List.mem_cons_of_mem _ ha)) vs (by simpa using hlen)
        (fun v hv => h v (List.mem_cons_of_mem _ hv))
      have h1 := h v (List.mem_cons_self ..)
      have ha := hda a (List.mem_cons_self ..)
      simp only [List.map_cons, List.zipWith_cons_cons, List.sum_cons]
      calc _ = |a * (f v - g v) + ((List.zipWith (· * ·) da (vs.map f)).sum -
              (List.zipWith (· * ·) da (vs.map g)).sum)| := by ring_nf
        _ ≤ |a * (f v - g v)| + _ := abs_add_le _ _
        _ ≤ a * B + da.sum * B := by
          rw [abs_mul, abs_of_nonneg ha]
          exact add_le_add (mul_le_mul_of_nonneg_left h1 ha) this
        _ = _ := by ring

/-- **C71.** In approx mode the Huber objective of a field with `d` components differs from `quantity / |unit|` by at most
`area * (sqrt d * eps^2 + eps)`, so it converges to it as `eps -> 0`. -/
theorem C71_huber_error_bound (func : P → Dofs → List (List ℝ)) (qp : P) (dofs : Dofs) (u : ℝ) (sp : SmoothingParams)
    (he : 0 ≤ sp.lseEpsilon) (d : ℕ) (hd : ∀ v ∈ func qp dofs, v.length = d)
    (hda : ∀ a ∈ HasQp.da qp, 0 ≤ a) (hnfp : 0 ≤ HasQp.nfp qp) (hlen : (HasQp.da qp).length = (func qp dofs).length)
    (_hu : u ≠ 0) :
    ∃ smooth raw, (Quantity.generateHuber func).approxF qp dofs (.scalar |u|) sp = .scalar smooth ∧
      (Quantity.generateHuber func).rawF qp dofs = .scalar raw ∧
      abs (smooth - raw / |u|) ≤ gridArea qp * (Real.sqrt d * sp.lseEpsilon ^ 2 + sp.lseEpsilon) := by
  refine ⟨_, _, rfl, rfl, ?_⟩
  simp only [Quantity.generateHuber.huberSmooth, Quantity.l1Integral, Val.entries, List.headD_cons]
  have key := zipWith_sum_sub (HasQp.da qp) hda (func qp dofs)
    (fun v => Quantity.vecNorm (v.map fun x => x / |u| + sp.lseEpsilon ^ 2) - sp.lseEpsilon)
    (fun v => Quantity.vecNorm v / |u|) (Real.sqrt d * sp.lseEpsilon ^ 2 + sp.lseEpsilon) hlen (by
      intro v hv
      have := vecNorm_shift v |u| (sp.lseEpsilon ^ 2)
      rw [hd v hv, abs_abs, abs_of_nonneg (sq_nonneg sp.lseEpsilon)] at this
      rw [abs_le] at this ⊢
      constructor <;> linarith [this.1, this.2])
  have hraw : (List.zipWith (· * ·) (HasQp.da qp) ((func qp dofs).map fun v => Quantity.vecNorm v / |u|)).sum =
      (List.zipWith (· * ·) (HasQp.da qp) ((func qp dofs).map Quantity.vecNorm)).sum / |u| := by
    generalize func qp dofs = vs
    generalize HasQp.da qp = da
    induction da generalizing vs with
    | nil => simp
    | cons a da ih =>
      cases vs with
      | nil => simp
      | cons v vs =>
        simp only [List.map_cons, List.zipWith_cons_cons, List.sum_cons, ih]
        ring
  rw [hraw] at key
  rw [show ∀ a b n c : ℝ, a * n - b * n / c = (a - b / c) * n from fun a b n c => by ring, abs_mul, abs_of_nonneg hnfp]
  calc _ ≤ _ := mul_le_mul_of_nonneg_right key hnfp
    _ = _ := by rw [gridArea]; ring

/-- **C72, false of the code.** The smoothed Huber loss of a vanishing field with `d` components is negative for every
`0 < eps < 1 / sqrt d`. -/
theorem C72_huber_negative_violated_partial (func : P → Dofs → List (List ℝ)) (qp : P) (dofs : Dofs) (u : ℝ)
    (sp : SmoothingParams) (d : ℕ) (he : 0 < sp.lseEpsilon) (hed : Real.sqrt d * sp.lseEpsilon < 1)
    (hzero : ∀ v ∈ func qp dofs, v = List.replicate d 0) (harea : 0 < gridArea qp)
    (hlen : (HasQp.da qp).length = (func qp dofs).length) :
    ∃ smooth, (Quantity.generateHuber func).approxF qp dofs (.scalar u) sp = .scalar smooth ∧ smooth < 0 := by
  refine ⟨_, rfl, ?_⟩
  simp only [Quantity.generateHuber.huberSmooth, Quantity.l1Integral, Val.entries, List.headD_cons]
  have hv : ∀ v ∈ func qp dofs, Quantity.vecNorm (v.map fun x => x / u + sp.lseEpsilon ^ 2) - sp.lseEpsilon =
      sp.lseEpsilon * (Real.sqrt d * sp.lseEpsilon - 1) := by
    intro v hv
    rw [hzero v hv]
    simp only [List.map_replicate, zero_div, zero_add, Quantity.vecNorm, List.sum_replicate, nsmul_eq_mul]
    rw [Real.sqrt_mul (by positivity), Real.sqrt_sq (by positivity)]
    ring
  rw [List.map_congr_left hv]
  have hsum : ∀ (da : List ℝ) (vs : List (List ℝ)) (c : ℝ), da.length = vs.length →
      (List.zipWith (· * ·) da (vs.map fun _ => c)).sum = da.sum * c := by
    intro da
    induction da with
    | nil => simp
    | cons a da ih =>
      intro vs c h
      cases vs with
      | nil => simp at h
      | cons v vs =>
        simp only [List.map_cons, List.zipWith_cons_cons, List.sum_cons]
        rw [ih vs c (by simpa using h)]
        ring
  rw [hsum _ _ _ hlen]
  have : (HasQp.da qp).sum * (sp.lseEpsilon * (Real.sqrt d * sp.lseEpsilon - 1)) * HasQp.nfp qp =
      -(gridArea qp * (sp.lseEpsilon * (1 - Real.sqrt d * sp.lseEpsilon))) := by
    rw [gridArea]
    ring
  rw [this, neg_lt_zero]
  have : 0 < 1 - Real.sqrt d * sp.lseEpsilon := by linarith
  positivity

/-- The integrand of the smoothed Huber loss is not even: reversing the field changes it. -/
theorem C72_huber_not_even_violated_partial (eps : ℝ) (he : 0 < eps) (he1 : eps < 1) :
    Quantity.vecNorm ([-1, 0, 0].map fun x => x / 1 + eps ^ 2) - eps <
      Quantity.vecNorm ([1, 0, 0].map fun x => x / 1 + eps ^ 2) - eps := by
  have : eps ^ 2 < 1 := by nlinarith
  simp only [Quantity.vecNorm, List.map_cons, List.map_nil, List.sum_cons, List.sum_nil]
  apply sub_lt_sub_right
  apply Real.sqrt_lt_sqrt
  · positivity
  · nlinarith [sq_nonneg eps, pow_pos he 2]

example : Real.sqrt (3 : ℕ) * (1 / 1000) < 1 := by
  have : Real.sqrt (3 : ℕ) ≤ 2 := by
    rw [Real.sqrt_le_left (by norm_num)]
    norm_num
  have h : Real.sqrt (3 : ℕ) * (1 / 1000) ≤ 2 * (1 / 1000) := mul_le_mul_of_nonneg_right this (by norm_num)
  linarith

/-! ## C74 -/

/-- **C74, false of the code.** In slack mode the L1 objective of a three-component field can be evaluated only if the grid
has 1 or 3 poloidal points and 1 or as many toroidal points as poloidal ones. -/
theorem C74_slack_l1_vector_fails_violated_partial (nPhi nTheta : ℕ) :
    slackL1Evaluable nPhi nTheta [3] = true ↔ (nTheta = 1 ∨ nTheta = 3) ∧ (nPhi = 1 ∨ nPhi = nTheta) := by
  simp [slackL1Evaluable, canBroadcast]

/-- In particular it fails on the default grid (32 toroidal by 34 poloidal points). -/
theorem C74_default_grid_violated_partial : slackL1Evaluable 32 34 [3] = false := by
  simp [slackL1Evaluable, canBroadcast]

theorem canBroadcast_refl (l : List ℕ) : canBroadcast l l = true := by
  induction l with
  | nil => rfl
  | cons a l ih => simp [canBroadcast, ih]

/-- **C74, true part.** In approx mode it can be evaluated for all grids and all trailing shapes, and in slack mode for
all scalar fields. -/
theorem C74_approx_l1_evaluable_partial (nPhi nTheta : ℕ) (trailing : List ℕ) :
    approxL1Evaluable nPhi nTheta trailing = true ∧ slackL1Evaluable nPhi nTheta [] = true := by
  refine ⟨?_, canBroadcast_refl _⟩
  unfold approxL1Evaluable
  have : ∀ (t r : List ℕ), t.length = r.length →
      canBroadcast (t.map (fun _ => 1) ++ [nTheta, nPhi]) (r ++ [nTheta, nPhi]) = true := by
    intro t
    induction t with
    | nil =>
      intro r hr
      rw [List.length_eq_zero_iff.1 hr.symm]
      exact canBroadcast_refl _
    | cons a t ih =>
      intro r hr
      cases r with
      | nil => simp at hr
      | cons b r => simpa [canBroadcast] using ih r (by simpa using hr)
  exact this trailing trailing.reverse (by simp)

end Verif
