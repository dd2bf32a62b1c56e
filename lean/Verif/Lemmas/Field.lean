import Verif.Model.Field
import Verif.Props.Current

/-! # Lemmas about grids, rotations and sums -/

namespace Verif

open Real

theorem gridPoints_sum (phis thetas : List ℝ) (f : ℝ × ℝ → ℝ) :
    ((gridPoints phis thetas).map f).sum = (phis.map fun p => (thetas.map fun t => f (p, t)).sum).sum := by
  induction phis with
  | nil => simp [gridPoints]
  | cons p phis ih =>
    simp only [gridPoints, List.flatMap_cons, List.map_append, List.sum_append, List.map_cons, List.sum_cons,
      List.map_map] at ih ⊢
    rw [ih]
    rfl

theorem gridPoints_length (phis thetas : List ℝ) : (gridPoints phis thetas).length = phis.length * thetas.length := by
  induction phis with
  | nil => simp [gridPoints]
  | cons p phis ih =>
    simp only [gridPoints, List.flatMap_cons, List.length_append, List.length_map, List.length_cons] at ih ⊢
    rw [ih]
    ring

theorem linspace0_sum (stop : ℝ) (n : ℕ) (g : ℝ → ℝ) :
    ((linspace0 stop n).map g).sum = ∑ j ∈ Finset.range n, g (j * (stop / n)) := by
  rw [linspace0, List.map_map]
  exact SurfaceShape.list_range_sum (fun j => g (j * (stop / n))) n

theorem linspace0_length (stop : ℝ) (n : ℕ) : (linspace0 stop n).length = n := by simp [linspace0]

/-- Shifting a periodic sum. -/
theorem periodic_sum_shift (h : ℕ → ℝ) (n : ℕ) (hp : ∀ j, h (j + n) = h j) (s : ℕ) :
    ∑ j ∈ Finset.range n, h (j + s) = ∑ j ∈ Finset.range n, h j := by
  induction s with
  | zero => rfl
  | succ s ih =>
    rw [← ih]
    have h1 := Finset.sum_range_succ (fun j => h (j + s)) n
    have h2 := Finset.sum_range_succ' (fun j => h (j + s)) n
    have h3 : h (n + s) = h (0 + s) := by rw [Nat.add_comm n s, hp, Nat.zero_add]
    have h4 : ∑ j ∈ Finset.range n, h (j + (s + 1)) = ∑ j ∈ Finset.range n, h (j + 1 + s) :=
      Finset.sum_congr rfl fun j _ => by rw [show j + (s + 1) = j + 1 + s by ring]
    rw [h4]
    linarith

/-- Over a uniform grid of the circle, the sum of a periodic function is invariant under shifts by grid spacings. -/
theorem circle_sum_shift (g : ℝ → ℝ) (hg : ∀ x, g (x + 1) = g x) (n : ℕ) (s : ℕ) :
    ((linspace0 1 n).map fun x => g (x + s / n)).sum = ((linspace0 1 n).map g).sum := by
  rcases Nat.eq_zero_or_pos n with rfl | hn
  · simp [linspace0]
  have hn' : (n : ℝ) ≠ 0 := by positivity
  rw [linspace0_sum, linspace0_sum]
  rw [← periodic_sum_shift (fun j : ℕ => g (j * (1 / n))) n (fun j => by
    rw [← hg (j * (1 / n))]
    congr 1
    push_cast
    field_simp) s]
  refine Finset.sum_congr rfl fun j _ => ?_
  congr 1
  push_cast
  field_simp

/-- Over a uniform grid of the circle, the sum of a periodic function is invariant under reflection. -/
theorem circle_sum_neg (g : ℝ → ℝ) (hg : ∀ x, g (x + 1) = g x) (n : ℕ) :
    ((linspace0 1 n).map fun x => g (-x)).sum = ((linspace0 1 n).map g).sum := by
  rcases Nat.eq_zero_or_pos n with rfl | hn
  · simp [linspace0]
  have hn' : (n : ℝ) ≠ 0 := by positivity
  rw [linspace0_sum, ← Finset.sum_range_reflect, ← circle_sum_shift g hg n 1, linspace0_sum]
  refine Finset.sum_congr rfl fun j hj => ?_
  have hj' : j + 1 ≤ n := Finset.mem_range.1 hj
  rw [← hg]
  congr 1
  have : ((n - 1 - j : ℕ) : ℝ) = n - 1 - j := by
    rw [Nat.sub_sub, Nat.cast_sub (by omega)]
    push_cast
    ring
  rw [this]
  push_cast
  field_simp
  ring

/-! ## Rotations -/

theorem cos_sin_one (t : ℝ) : sin t ^ 2 + cos t ^ 2 = 1 := Real.sin_sq_add_cos_sq t

theorem rotZ_cross (t : ℝ) (a b : V3) : V3.cross (rotZ t a) (rotZ t b) = rotZ t (V3.cross a b) := by
  have h := cos_sin_one t
  ext
  · simp only [V3.cross, rotZ]; ring
  · simp only [V3.cross, rotZ]; ring
  · simp only [V3.cross, rotZ]
    linear_combination (a.x * b.y - a.y * b.x) * h

theorem rotZ_dot (t : ℝ) (a b : V3) : V3.dot (rotZ t a) (rotZ t b) = V3.dot a b := by
  have h := cos_sin_one t
  simp only [V3.dot, rotZ]
  linear_combination (a.x * b.x + a.y * b.y) * h

theorem rotZ_normSq (t : ℝ) (a : V3) : (rotZ t a).normSq = a.normSq := by
  have h := cos_sin_one t
  simp only [V3.normSq, rotZ]
  linear_combination (a.x ^ 2 + a.y ^ 2) * h

theorem rotZ_norm (t : ℝ) (a : V3) : (rotZ t a).norm = a.norm := by rw [V3.norm, V3.norm, rotZ_normSq]

theorem rotZ_sub (t : ℝ) (a b : V3) : rotZ t (a - b) = rotZ t a - rotZ t b := by
  ext <;> simp only [rotZ, V3.sub_x, V3.sub_y, V3.sub_z] <;> ring

theorem rotZ_smul (t s : ℝ) (a : V3) : rotZ t (s • a) = s • rotZ t a := by
  ext <;> simp only [rotZ, V3.smul_x, V3.smul_y, V3.smul_z] <;> ring

theorem sum_map_lin {β : Type} (l : List β) (f g : β → ℝ) (a b : ℝ) :
    (l.map fun x => a * f x + b * g x).sum = a * (l.map f).sum + b * (l.map g).sum := by
  induction l with
  | nil => simp
  | cons x l ih => simp only [List.map_cons, List.sum_cons, ih]; ring

theorem rotZ_vsum (t : ℝ) {β : Type} (l : List β) (f : β → V3) :
    vsum (l.map fun x => rotZ t (f x)) = rotZ t (vsum (l.map f)) := by
  ext
  · simp only [vsum, rotZ, List.map_map, Function.comp_def]
    rw [sub_eq_add_neg, ← neg_mul, ← sum_map_lin]
    congr 1
    exact List.map_congr_left fun x _ => by ring
  · simp only [vsum, rotZ, List.map_map, Function.comp_def]
    rw [← sum_map_lin]
  · simp only [vsum, rotZ, List.map_map, Function.comp_def]

theorem rotZ_two_pi_int (j : ℤ) (a : V3) : rotZ (2 * π * j) a = a := by
  have hc : cos (2 * π * j) = 1 := by rw [mul_comm]; exact Real.cos_int_mul_two_pi j
  have hs : sin (2 * π * j) = 0 := by
    have := Real.sin_add_int_mul_two_pi 0 j
    simpa [mul_comm] using this
  ext <;> simp [rotZ, hc, hs]

namespace CpParams

variable (P : CpParams)

/-- The operator rows are periodic over a field period. -/
theorem rows_field_period (hn : P.surf.nfp ≠ 0) (phi theta : ℝ) (j : ℤ) :
    P.opPhi (phi + j / P.surf.nfp) theta = P.opPhi phi theta ∧ P.opTheta (phi + j / P.surf.nfp) theta = P.opTheta phi theta := by
  have hn' : (P.surf.nfp : ℝ) ≠ 0 := by exact_mod_cast hn
  have h : ∀ r : ℤ × ℤ × ℤ, P.angle (phi + j / P.surf.nfp) theta r = P.angle phi theta r + ((-r.2.1 * j : ℤ) : ℝ) * (2 * π) := by
    intro r
    simp only [angle, nfp]
    push_cast
    field_simp
    ring
  rw [opPhi_eq, opPhi_eq, opTheta_eq, opTheta_eq]
  constructor
  · exact List.map_congr_left fun r _ => by simp only [rPhi, h, sinOrCos_periodic]
  · exact List.map_congr_left fun r _ => by simp only [rTheta, h, sinOrCos_periodic]

theorem N_field_period (hn : P.surf.nfp ≠ 0) (phi theta : ℝ) (j : ℤ) :
    P.N (phi + j / P.surf.nfp) theta = rotZ (2 * π * j / P.surf.nfp) (P.N phi theta) := by
  rw [N, dg1, dg2, C39_field_period _ hn, C39_field_period _ hn, rotZ_cross]
  rfl

/-- `K` rotates with the field periods. -/
theorem K_field_period (hn : P.surf.nfp ≠ 0) (c : List ℝ) (phi theta : ℝ) (j : ℤ) :
    P.K c (phi + j / P.surf.nfp) theta = rotZ (2 * π * j / P.surf.nfp) (P.K c phi theta) := by
  obtain ⟨h1, h2⟩ := P.rows_field_period hn phi theta j
  rw [K_eq, K_eq, h1, h2, invN, N_field_period _ hn, rotZ_norm, dg1, dg2, C39_field_period _ hn, C39_field_period _ hn,
    rotZ_smul, rotZ_sub, rotZ_smul, rotZ_smul]
  rfl

/-- `K` is linear in coefficients and net currents together. -/
theorem K_linear (c d : List ℝ) (h : c.length = d.length) (s t G1 G2 I1 I2 : ℝ) (phi theta : ℝ) :
    ({ P with G := s * G1 + t * G2, I := s * I1 + t * I2 } : CpParams).K (List.zipWith (fun x y => s * x + t * y) c d) phi theta =
      s • ({ P with G := G1, I := I1 } : CpParams).K c phi theta + t • ({ P with G := G2, I := I2 } : CpParams).K d phi theta := by
  rw [K_eq, K_eq, K_eq, app_comb _ _ _ _ _ h, app_comb _ _ _ _ _ h]
  have e1 : ∀ G I : ℝ, ({ P with G := G, I := I } : CpParams).opPhi phi theta = P.opPhi phi theta := fun _ _ => rfl
  have e2 : ∀ G I : ℝ, ({ P with G := G, I := I } : CpParams).opTheta phi theta = P.opTheta phi theta := fun _ _ => rfl
  have e3 : ∀ G I : ℝ, ({ P with G := G, I := I } : CpParams).invN phi theta = P.invN phi theta := fun _ _ => rfl
  have e4 : ∀ G I : ℝ, ({ P with G := G, I := I } : CpParams).dg1 phi theta = P.dg1 phi theta := fun _ _ => rfl
  have e5 : ∀ G I : ℝ, ({ P with G := G, I := I } : CpParams).dg2 phi theta = P.dg2 phi theta := fun _ _ => rfl
  simp only [e1, e2, e3, e4, e5]
  ext <;> simp only [V3.add_x, V3.add_y, V3.add_z, V3.smul_x, V3.smul_y, V3.smul_z, V3.sub_x, V3.sub_y, V3.sub_z] <;> ring

end CpParams

end Verif
