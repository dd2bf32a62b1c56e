import Verif.Props.NormInequalities
import Verif.Props.Unique
import Mathlib.Algebra.QuadraticDiscriminant
import Mathlib.Analysis.Real.Pi.Bounds

/-!
# C184: the net currents bound the current density from below
-/

namespace Verif

open Real

/-- The length of the toroidal loop at the poloidal angle `t`, as a mean over the toroidal angles of the evaluation grid. -/
noncomputable def toroidalLoop (Q : FieldProblem) (t : ℝ) : ℝ := (Q.ePhis.map fun p => (Q.cp.dg1 p t).norm).sum / Q.ePhis.length

/-- The length of the poloidal loop at the toroidal angle `p`, as a mean over the poloidal angles of the evaluation grid. -/
noncomputable def poloidalLoop (Q : FieldProblem) (p : ℝ) : ℝ := (Q.eThetas.map fun t => (Q.cp.dg2 p t).norm).sum / Q.eThetas.length

/-- The mean of a function over the evaluation grid. -/
noncomputable def evalMean (Q : FieldProblem) (f : ℝ × ℝ → ℝ) : ℝ := (Q.evalGrid.map f).sum / Q.evalGrid.length

/-! ## The derivatives of the potential have no mean -/

theorem app_sum_rows {β : Type} (L : List ℝ) (R : List β) (f : ℝ → β → ℝ) (c : List ℝ) :
    (L.map fun p => CpParams.app (R.map (f p)) c).sum = CpParams.app (R.map fun r => (L.map fun p => f p r).sum) c := by
  induction R generalizing c with
  | nil => simp [CpParams.app]
  | cons r R ih =>
    cases c with
    | nil => simp [CpParams.app]
    | cons b c =>
      have := ih c
      simp only [CpParams.app, List.map_cons, List.zipWith_cons_cons, List.sum_cons] at this ⊢
      rw [List.sum_map_add, this, List.sum_map_mul_right]

theorem app_of_zero {β : Type} (R : List β) (f : β → ℝ) (hf : ∀ r ∈ R, f r = 0) (c : List ℝ) : CpParams.app (R.map f) c = 0 := by
  induction R generalizing c with
  | nil => simp [CpParams.app]
  | cons r R ih =>
    cases c with
    | nil => simp [CpParams.app]
    | cons b c =>
      have := ih (fun x hx => hf x (List.mem_cons_of_mem _ hx)) c
      simp only [CpParams.app, List.map_cons, List.zipWith_cons_cons, List.sum_cons] at this ⊢
      rw [this, hf r List.mem_cons_self]
      ring

/-- The sum of a wave over a uniform grid vanishes unless the grid cannot see it. -/
theorem wave_sum (N : ℕ) (hN : N ≠ 0) (m : ℤ) (hm : ¬(N : ℤ) ∣ m) (x : ℝ) (mode : ℤ) :
    ∑ j ∈ Finset.range N, sinOrCos (x + 2 * π * j * m / N) mode = 0 ∧ ∑ j ∈ Finset.range N, sinOrCos (x - 2 * π * j * m / N) mode = 0 := by
  have h1 := cos_sum N hN m
  rw [if_neg hm] at h1
  have h2 := sin_sum N hN m
  simp only [sinOrCos]
  split_ifs
  · simp only [sin_add, sin_sub, Finset.sum_add_distrib, Finset.sum_sub_distrib, ← Finset.mul_sum, h1, h2]
    simp
  · simp only [cos_add, cos_sub, Finset.sum_add_distrib, Finset.sum_sub_distrib, ← Finset.mul_sum, h1, h2]
    simp

theorem not_dvd_small {N : ℕ} {m : ℤ} (h0 : m ≠ 0) (h : |m| < N) : ¬(N : ℤ) ∣ m := by
  intro hd
  have := Int.le_of_dvd (abs_pos.2 h0) ((dvd_abs _ _).2 hd)
  omega

theorem toroidal_mean (P : CpParams) (hn : P.surf.nfp ≠ 0) (A : ℕ) (hA : P.ntor < A) (c : List ℝ) (t : ℝ) :
    ((linspace0 (1 / P.surf.nfp) A).map fun p => CpParams.app (P.opPhi p t) c).sum = 0 := by
  have hn' : (P.surf.nfp : ℝ) ≠ 0 := by exact_mod_cast hn
  have hA' : (A : ℝ) ≠ 0 := by exact_mod_cast (by omega : A ≠ 0)
  simp only [CpParams.opPhi_eq]
  rw [app_sum_rows]
  refine app_of_zero _ _ (fun r hr => ?_) c
  rw [linspace0_sum]
  by_cases h0 : r.2.1 = 0
  · simp [CpParams.rPhi, h0]
  · have hb : |r.2.1| < A := by
      rcases (mem_rows P r hr).2 with h | ⟨-, h⟩
      · simp only [IsMode] at h
        rw [abs_lt]
        omega
      · rw [h] at h0
        simp at h0
    simp only [CpParams.rPhi, ← Finset.sum_mul]
    have e : ∀ j : ℕ, P.angle (j * (1 / P.surf.nfp / A)) t r = (r.1 : ℝ) * (π * 2 * t) - 2 * π * j * r.2.1 / A := by
      intro j
      have : (P.nfp : ℝ) = P.surf.nfp := rfl
      rw [CpParams.angle, this]
      field_simp
    simp only [e, (wave_sum A (by omega) r.2.1 (not_dvd_small h0 hb) _ _).2, zero_mul]

theorem poloidal_mean (P : CpParams) (B : ℕ) (hB : P.mpol < B) (c : List ℝ) (p : ℝ) :
    ((linspace0 1 B).map fun t => CpParams.app (P.opTheta p t) c).sum = 0 := by
  have hB' : (B : ℝ) ≠ 0 := by exact_mod_cast (by omega : B ≠ 0)
  simp only [CpParams.opTheta_eq]
  rw [app_sum_rows _ _ fun t => P.rTheta p t]
  refine app_of_zero _ _ (fun r hr => ?_) c
  rw [linspace0_sum]
  by_cases h0 : r.1 = 0
  · simp [CpParams.rTheta, h0]
  · have hb : |r.1| < B := by
      rcases (mem_rows P r hr).2 with h | ⟨-, h⟩
      · simp only [IsMode] at h
        rw [abs_lt]
        omega
      · rw [h] at h0
        simp at h0
    simp only [CpParams.rTheta, ← Finset.sum_mul]
    have e : ∀ j : ℕ, P.angle p (j * (1 / B)) r = -((r.2.1 : ℝ) * P.nfp * (π * 2 * p)) + 2 * π * j * r.1 / B := by
      intro j
      rw [CpParams.angle]
      field_simp
      ring
    simp only [e, (wave_sum B (by omega) r.1 (not_dvd_small h0 hb) _ _).1, zero_mul]

/-! ## The current through a loop -/

theorem current_components (P : CpParams) (c : List ℝ) (p t : ℝ) (hN : P.N p t ≠ 0) :
    |CpParams.app (P.opPhi p t) c + P.G| ≤ (P.K c p t).norm * (P.dg1 p t).norm ∧
      |CpParams.app (P.opTheta p t) c + P.I| ≤ (P.K c p t).norm * (P.dg2 p t).norm := by
  have nn : ∀ w : V3, 0 ≤ w.normSq := fun w => by simp only [V3.normSq]; positivity
  have hNp : 0 < (P.N p t).norm := (V3.norm_pos_iff _).2 hN
  have hNs : (P.N p t).normSq = (P.N p t).norm ^ 2 := by rw [V3.norm, Real.sq_sqrt (nn _)]
  have key : ∀ (a : ℝ) (w : V3), V3.cross (P.K c p t) w = (-(a * P.invN p t)) • P.N p t → |a| ≤ (P.K c p t).norm * w.norm := by
    intro a w e
    have h := cross_normSq_le (P.K c p t) w
    rw [e, V3.normSq_smul, hNs, CpParams.invN] at h
    have : (-(a * (1 / (P.N p t).norm))) ^ 2 * (P.N p t).norm ^ 2 = a ^ 2 := by field_simp
    rw [this] at h
    rw [V3.norm, V3.norm, ← Real.sqrt_mul (nn _), ← Real.sqrt_sq_eq_abs]
    exact Real.sqrt_le_sqrt h
  constructor
  · refine key _ _ ?_
    rw [CpParams.K_eq, CpParams.N]
    ext <;> simp only [V3.cross, V3.smul_x, V3.smul_y, V3.smul_z, V3.sub_x, V3.sub_y, V3.sub_z] <;> ring
  · refine key _ _ ?_
    rw [CpParams.K_eq, CpParams.N]
    ext <;> simp only [V3.cross, V3.smul_x, V3.smul_y, V3.smul_z, V3.sub_x, V3.sub_y, V3.sub_z] <;> ring

theorem norm3_nonneg (v : V3) : 0 ≤ v.norm := Real.sqrt_nonneg _

theorem sum_add_const (l : List ℝ) (f : ℝ → ℝ) (a : ℝ) : (l.map fun x => f x + a).sum = (l.map f).sum + l.length * a := by
  rw [List.sum_map_add]
  simp

theorem max_K_bound (others : List String) (Q : FieldProblem) (d : Dofs) {q : ℝ × ℝ} (hq : q ∈ Q.evalGrid) :
    (Q.cp.K (coefs d) q.1 q.2).norm ≤ √(quantityNumber others Q d "f_max_K2") := by
  have e2 : quantityNumber others Q d "f_max_K2" = Quantity.maxAbs (.array (Q.evalGrid.map fun q => Q.cp.K2 (coefs d) q.1 q.2)) := rfl
  refine Real.le_sqrt_of_sq_le ?_
  rw [← K2_norm, e2]
  exact (le_abs_self _).trans (le_maxAbs (.array _) (List.mem_map.2 ⟨q, hq, rfl⟩))

theorem mem_evalGrid {Q : FieldProblem} {p t : ℝ} (hp : p ∈ Q.ePhis) (ht : t ∈ Q.eThetas) : (p, t) ∈ Q.evalGrid :=
  List.mem_flatMap.2 ⟨p, hp, List.mem_map.2 ⟨t, ht, rfl⟩⟩

theorem loop_G (Q : FieldProblem) (c : List ℝ) (hn : Q.cp.surf.nfp ≠ 0) (A : ℕ) (hA : Q.cp.ntor < A)
    (he : Q.ePhis = linspace0 (1 / Q.cp.surf.nfp) A) (hN : ∀ q ∈ Q.evalGrid, Q.cp.N q.1 q.2 ≠ 0) (M : ℝ)
    (hM : ∀ q ∈ Q.evalGrid, (Q.cp.K c q.1 q.2).norm ≤ M) (t : ℝ) (ht : t ∈ Q.eThetas) : |Q.cp.G| ≤ M * toroidalLoop Q t := by
  have h0 := toroidal_mean Q.cp hn A hA c t
  rw [← he] at h0
  have hl : (0 : ℝ) < Q.ePhis.length := by
    rw [he, linspace0_length]
    exact_mod_cast (by omega : 0 < A)
  have h1 := sum_add_const Q.ePhis (fun p => CpParams.app (Q.cp.opPhi p t) c) Q.cp.G
  rw [h0, zero_add] at h1
  have h2 := abs_sum_map_le Q.ePhis (fun p => CpParams.app (Q.cp.opPhi p t) c + Q.cp.G) (fun p => M * (Q.cp.dg1 p t).norm) (fun p hp =>
      (current_components Q.cp c p t (hN (p, t) (mem_evalGrid hp ht))).1.trans
        (mul_le_mul_of_nonneg_right (hM (p, t) (mem_evalGrid hp ht)) (norm3_nonneg _)))
  rw [h1, List.sum_map_mul_left, abs_mul, abs_of_pos hl] at h2
  rw [toroidalLoop, ← mul_div_assoc, le_div_iff₀ hl, mul_comm |Q.cp.G|]
  exact h2

theorem loop_I (Q : FieldProblem) (c : List ℝ) (B : ℕ) (hB : Q.cp.mpol < B) (he : Q.eThetas = linspace0 1 B)
    (hN : ∀ q ∈ Q.evalGrid, Q.cp.N q.1 q.2 ≠ 0) (M : ℝ) (hM : ∀ q ∈ Q.evalGrid, (Q.cp.K c q.1 q.2).norm ≤ M) (p : ℝ)
    (hp : p ∈ Q.ePhis) : |Q.cp.I| ≤ M * poloidalLoop Q p := by
  have h0 := poloidal_mean Q.cp B hB c p
  rw [← he] at h0
  have hl : (0 : ℝ) < Q.eThetas.length := by
    rw [he, linspace0_length]
    exact_mod_cast (by omega : 0 < B)
  have h1 := sum_add_const Q.eThetas (fun t => CpParams.app (Q.cp.opTheta p t) c) Q.cp.I
  rw [h0, zero_add] at h1
  have h2 := abs_sum_map_le Q.eThetas (fun t => CpParams.app (Q.cp.opTheta p t) c + Q.cp.I) (fun t => M * (Q.cp.dg2 p t).norm) (fun t ht =>
      (current_components Q.cp c p t (hN (p, t) (mem_evalGrid hp ht))).2.trans
        (mul_le_mul_of_nonneg_right (hM (p, t) (mem_evalGrid hp ht)) (norm3_nonneg _)))
  rw [h1, List.sum_map_mul_left, abs_mul, abs_of_pos hl] at h2
  rw [poloidalLoop, ← mul_div_assoc, le_div_iff₀ hl, mul_comm |Q.cp.I|]
  exact h2

/-- **C184 (the net poloidal current).** Through every toroidal loop of the grid flows the net poloidal current, so that the largest current density
is at least this current over the length of the loop. -/
theorem C184_max_G (others : List String) (Q : FieldProblem) (d : Dofs) (hn : Q.cp.surf.nfp ≠ 0) (A : ℕ) (hA : Q.cp.ntor < A)
    (he : Q.ePhis = linspace0 (1 / Q.cp.surf.nfp) A) (hN : ∀ q ∈ Q.evalGrid, Q.cp.N q.1 q.2 ≠ 0) :
    ∀ t ∈ Q.eThetas, |Q.cp.G| ≤ √(quantityNumber others Q d "f_max_K2") * toroidalLoop Q t :=
  loop_G Q (coefs d) hn A hA he hN _ fun _ hq => max_K_bound others Q d hq

/-- **C184 (the net toroidal current).** The same for the poloidal loops. -/
theorem C184_max_I (others : List String) (Q : FieldProblem) (d : Dofs) (B : ℕ) (hB : Q.cp.mpol < B)
    (he : Q.eThetas = linspace0 1 B) (hN : ∀ q ∈ Q.evalGrid, Q.cp.N q.1 q.2 ≠ 0) :
    ∀ p ∈ Q.ePhis, |Q.cp.I| ≤ √(quantityNumber others Q d "f_max_K2") * poloidalLoop Q p :=
  loop_I Q (coefs d) B hB he hN _ fun _ hq => max_K_bound others Q d hq

/-- **C184 (limits on the current density).** A limit `h` on `K2` that is smaller than `(G / length)^2` for some toroidal loop of the grid, or
`(I / length)^2` for some poloidal one, cannot be met by any potential. -/
theorem C184_limit (others : List String) (Q : FieldProblem) (d : Dofs) (hn : Q.cp.surf.nfp ≠ 0) (A B : ℕ) (hA : Q.cp.ntor < A)
    (hB : Q.cp.mpol < B) (hep : Q.ePhis = linspace0 (1 / Q.cp.surf.nfp) A) (het : Q.eThetas = linspace0 1 B)
    (hN : ∀ q ∈ Q.evalGrid, Q.cp.N q.1 q.2 ≠ 0) (rs : List Request) (u : UnitArg) (h : ℝ) (hr : ⟨"K2", "<=", u, h⟩ ∈ rs)
    (hf : UserFeasible (shippedRegistry FieldProblem.fns others) rs Q d) :
    (∀ t ∈ Q.eThetas, |Q.cp.G| ≤ √h * toroidalLoop Q t) ∧ ∀ p ∈ Q.ePhis, |Q.cp.I| ≤ √h * poloidalLoop Q p := by
  have e : rawOf (shippedRegistry FieldProblem.fns others) "K2" Q d = .array (Q.evalGrid.map fun q => Q.cp.K2 (coefs d) q.1 q.2) := rfl
  have hM : ∀ q ∈ Q.evalGrid, (Q.cp.K (coefs d) q.1 q.2).norm ≤ √h := by
    intro q hq
    have := (hf _ hr).1 rfl
    rw [e] at this
    refine Real.le_sqrt_of_sq_le ?_
    rw [← K2_norm]
    exact this _ (List.mem_map.2 ⟨q, hq, rfl⟩)
  exact ⟨loop_G Q (coefs d) hn A hA hep hN _ hM, loop_I Q (coefs d) B hB het hN _ hM⟩

/-! ## The integral of the squared current density -/

theorem list_cauchy_schwarz {β : Type} (l : List β) (x y : β → ℝ) :
    (l.map fun q => x q * y q).sum ^ 2 ≤ (l.map fun q => x q ^ 2).sum * (l.map fun q => y q ^ 2).sum := by
  have h := discrim_le_zero (a := (l.map fun q => y q ^ 2).sum) (b := 2 * (l.map fun q => x q * y q).sum) (c := (l.map fun q => x q ^ 2).sum)
    (fun s => by
      have e : (l.map fun q => y q ^ 2).sum * (s * s) + 2 * (l.map fun q => x q * y q).sum * s + (l.map fun q => x q ^ 2).sum =
          (l.map fun q => (x q + s * y q) ^ 2).sum := by
        induction l with
        | nil => simp
        | cons a l ih =>
          simp only [List.map_cons, List.sum_cons, ← ih]
          ring
      rw [e]
      refine List.sum_nonneg fun z hz => ?_
      obtain ⟨q, -, rfl⟩ := List.mem_map.1 hz
      positivity)
  rw [discrim] at h
  nlinarith

theorem grid_sum_swap (ps ts : List ℝ) (f : ℝ × ℝ → ℝ) :
    ((gridPoints ps ts).map f).sum = (ts.map fun t => (ps.map fun p => f (p, t)).sum).sum := by
  induction ps with
  | nil => simp [gridPoints]
  | cons p ps ih =>
    have e : gridPoints (p :: ps) ts = (ts.map fun t => (p, t)) ++ gridPoints ps ts := rfl
    rw [e, List.map_append, List.sum_append, ih, List.map_map]
    simp only [List.map_cons, List.sum_cons, List.sum_map_add]
    rfl

theorem grid_sum_rows (ps ts : List ℝ) (f : ℝ × ℝ → ℝ) :
    ((gridPoints ps ts).map f).sum = (ps.map fun p => (ts.map fun t => f (p, t)).sum).sum := by
  induction ps with
  | nil => simp [gridPoints]
  | cons p ps ih =>
    have e : gridPoints (p :: ps) ts = (ts.map fun t => (p, t)) ++ gridPoints ps ts := rfl
    rw [e, List.map_append, List.sum_append, ih, List.map_map]
    rfl

/-- A mean that is bounded pointwise by `|K| |v|`. -/
theorem mean_bound (Q : FieldProblem) (c : List ℝ) (hN : ∀ q ∈ Q.evalGrid, Q.cp.N q.1 q.2 ≠ 0) (f : ℝ × ℝ → ℝ) (v : ℝ × ℝ → V3)
    (hf : ∀ q ∈ Q.evalGrid, |f q| ≤ (Q.cp.K c q.1 q.2).norm * (v q).norm) :
    evalMean Q f ^ 2 ≤ evalMean Q (fun q => (Q.cp.K c q.1 q.2).norm ^ 2 * (Q.cp.N q.1 q.2).norm) *
      evalMean Q (fun q => (v q).norm ^ 2 / (Q.cp.N q.1 q.2).norm) := by
  have h1 := abs_sum_map_le _ _ _ hf
  have h2 := list_cauchy_schwarz Q.evalGrid (fun q => (Q.cp.K c q.1 q.2).norm * √(Q.cp.N q.1 q.2).norm)
    (fun q => (v q).norm / √(Q.cp.N q.1 q.2).norm)
  have hs : ∀ q ∈ Q.evalGrid, 0 < (Q.cp.N q.1 q.2).norm := fun q hq => (V3.norm_pos_iff _).2 (hN q hq)
  have e1 : (Q.evalGrid.map fun q => (Q.cp.K c q.1 q.2).norm * √(Q.cp.N q.1 q.2).norm * ((v q).norm / √(Q.cp.N q.1 q.2).norm)) =
      Q.evalGrid.map fun q => (Q.cp.K c q.1 q.2).norm * (v q).norm := by
    refine List.map_congr_left fun q hq => ?_
    have := Real.sqrt_pos.2 (hs q hq)
    field_simp
  have e2 : (Q.evalGrid.map fun q => ((Q.cp.K c q.1 q.2).norm * √(Q.cp.N q.1 q.2).norm) ^ 2) =
      Q.evalGrid.map fun q => (Q.cp.K c q.1 q.2).norm ^ 2 * (Q.cp.N q.1 q.2).norm :=
    List.map_congr_left fun q hq => by rw [mul_pow, Real.sq_sqrt (hs q hq).le]
  have e3 : (Q.evalGrid.map fun q => ((v q).norm / √(Q.cp.N q.1 q.2).norm) ^ 2) =
      Q.evalGrid.map fun q => (v q).norm ^ 2 / (Q.cp.N q.1 q.2).norm :=
    List.map_congr_left fun q hq => by rw [div_pow, Real.sq_sqrt (hs q hq).le]
  rw [e1, e2, e3] at h2
  have h3 : (Q.evalGrid.map f).sum ^ 2 ≤ _ := (sq_abs (Q.evalGrid.map f).sum ▸ pow_le_pow_left₀ (abs_nonneg _) h1 2).trans h2
  simp only [evalMean]
  rw [div_pow, div_mul_div_comm, ← sq]
  exact div_le_div_of_nonneg_right h3 (sq_nonneg _)

/-- **C184 (the integral).** `2 f_K` is at least `G^2` over the mean of `|dgamma/dphi|^2 / |N|`, and the same for `I` and the poloidal
derivative, whatever the potential. -/
theorem C184_f_K (others : List String) (Q : FieldProblem) (d : Dofs) (hn : Q.cp.surf.nfp ≠ 0) (A B : ℕ) (hA : Q.cp.ntor < A)
    (hB : Q.cp.mpol < B) (hA2 : 2 ≤ A) (hB2 : 2 ≤ B) (hep : Q.ePhis = linspace0 (1 / Q.cp.surf.nfp) A)
    (het : Q.eThetas = linspace0 1 B) (hN : ∀ q ∈ Q.evalGrid, Q.cp.N q.1 q.2 ≠ 0) :
    Q.cp.G ^ 2 ≤ 2 * quantityNumber others Q d "f_K" * evalMean Q (fun q => (Q.cp.dg1 q.1 q.2).norm ^ 2 / (Q.cp.N q.1 q.2).norm) ∧
      Q.cp.I ^ 2 ≤ 2 * quantityNumber others Q d "f_K" * evalMean Q (fun q => (Q.cp.dg2 q.1 q.2).norm ^ 2 / (Q.cp.N q.1 q.2).norm) := by
  have hn' : (Q.cp.surf.nfp : ℝ) ≠ 0 := by exact_mod_cast hn
  have hA' : (A : ℝ) ≠ 0 := by exact_mod_cast (by omega : A ≠ 0)
  have hB' : (B : ℝ) ≠ 0 := by exact_mod_cast (by omega : B ≠ 0)
  have hlen : (Q.evalGrid.length : ℝ) = A * B := by
    rw [FieldProblem.evalGrid, gridPoints_length, hep, het, linspace0_length, linspace0_length]
    push_cast
    ring
  have eK : 2 * quantityNumber others Q d "f_K" = evalMean Q (fun q => (Q.cp.K (coefs d) q.1 q.2).norm ^ 2 * (Q.cp.N q.1 q.2).norm) := by
    have : quantityNumber others Q d "f_K" = Q.evalSurface.integrate (Q.evalGrid.map fun q => Q.cp.K2 (coefs d) q.1 q.2 / 2) * Q.cp.nfp := rfl
    have hnfp : (Q.cp.nfp : ℝ) = Q.cp.surf.nfp := rfl
    rw [this, integrate_grid, evalMean, hlen, hep, het, gridStep_linspace0 _ _ hA2, gridStep_linspace0 _ _ hB2, hnfp]
    have := sum_map_scale Q.evalGrid (fun q => Q.cp.K2 (coefs d) q.1 q.2 / 2 *
        (1 / Q.cp.surf.nfp / A * (1 / B) * (Q.cp.surf.normal Q.cp.wdofs q.1 q.2).norm))
      (fun q => (Q.cp.K (coefs d) q.1 q.2).norm ^ 2 * (Q.cp.N q.1 q.2).norm) (1 / 2 * (1 / Q.cp.surf.nfp / A * (1 / B))) (fun q _ => by
        have : Q.cp.surf.normal Q.cp.wdofs q.1 q.2 = Q.cp.N q.1 q.2 := rfl
        rw [K2_norm, this]
        ring)
    rw [this]
    field_simp
  rw [eK]
  have hG : evalMean Q (fun q => CpParams.app (Q.cp.opPhi q.1 q.2) (coefs d) + Q.cp.G) = Q.cp.G := by
    rw [evalMean, FieldProblem.evalGrid, grid_sum_swap, ← FieldProblem.evalGrid, hlen]
    have : ∀ t ∈ Q.eThetas, (Q.ePhis.map fun p => CpParams.app (Q.cp.opPhi p t) (coefs d) + Q.cp.G).sum = A * Q.cp.G := by
      intro t _
      rw [sum_add_const, hep, toroidal_mean Q.cp hn A hA, linspace0_length, zero_add]
    rw [List.map_congr_left this, List.map_const', List.sum_replicate, het, linspace0_length, nsmul_eq_mul]
    field_simp
  have hI : evalMean Q (fun q => CpParams.app (Q.cp.opTheta q.1 q.2) (coefs d) + Q.cp.I) = Q.cp.I := by
    rw [evalMean, FieldProblem.evalGrid, grid_sum_rows, ← FieldProblem.evalGrid, hlen]
    have : ∀ p ∈ Q.ePhis, (Q.eThetas.map fun t => CpParams.app (Q.cp.opTheta p t) (coefs d) + Q.cp.I).sum = B * Q.cp.I := by
      intro p _
      rw [sum_add_const, het, poloidal_mean Q.cp B hB, linspace0_length, zero_add]
    rw [List.map_congr_left this, List.map_const', List.sum_replicate, hep, linspace0_length, nsmul_eq_mul]
    field_simp
  have h1 := mean_bound Q (coefs d) hN (fun q => CpParams.app (Q.cp.opPhi q.1 q.2) (coefs d) + Q.cp.G) (fun q => Q.cp.dg1 q.1 q.2)
    fun q hq => (current_components Q.cp (coefs d) q.1 q.2 (hN q hq)).1
  have h2 := mean_bound Q (coefs d) hN (fun q => CpParams.app (Q.cp.opTheta q.1 q.2) (coefs d) + Q.cp.I) (fun q => Q.cp.dg2 q.1 q.2)
    fun q hq => (current_components Q.cp (coefs d) q.1 q.2 (hN q hq)).2
  rw [hG] at h1
  rw [hI] at h2
  exact ⟨h1, h2⟩

/-! ## A torus with major radius 2 and minor radius 1 -/

theorem torusProblem_period : torusProblem.ePhis = linspace0 (1 / torusProblem.cp.surf.nfp) 2 := by
  simp [torusProblem, circularTorus]

theorem torusProblem_normal : ∀ q ∈ torusProblem.evalGrid, torusProblem.cp.N q.1 q.2 ≠ 0 :=
  fun q _ => (circularTorus_regular q.1 q.2).1

theorem torus_dg1_norm (p t : ℝ) : (circularTorus.dg1 p t).norm = 2 * π * (2 + cos (2 * π * t)) := by
  have h : 0 ≤ 2 * π * (2 + cos (2 * π * t)) := mul_nonneg (by positivity) (by linarith [neg_one_le_cos (2 * π * t)])
  refine (congrArg Real.sqrt ?_).trans (Real.sqrt_sq h)
  rw [(circularTorus_tangents p t).1]
  simp only [V3.normSq]
  linear_combination (2 * π * (2 + cos (2 * π * t))) ^ 2 * sin_sq_add_cos_sq (2 * π * p)

theorem torus_dg2_norm (p t : ℝ) : (circularTorus.dg2 p t).norm = 2 * π := by
  refine (congrArg Real.sqrt ?_).trans (Real.sqrt_sq (by positivity : 0 ≤ 2 * π))
  rw [(circularTorus_tangents p t).2]
  simp only [V3.normSq]
  linear_combination (2 * π * sin (2 * π * t)) ^ 2 * sin_sq_add_cos_sq (2 * π * p) + (2 * π) ^ 2 * sin_sq_add_cos_sq (2 * π * t)

theorem torus_loops : toroidalLoop torusProblem (1 / 2) = 2 * π ∧ poloidalLoop torusProblem 0 = 2 * π := by
  have e1 : ∀ p, (torusProblem.cp.dg1 p (1 / 2)).norm = 2 * π := by
    intro p
    have : 2 * π * (1 / 2) = π := by ring
    rw [show torusProblem.cp = circularTorus from rfl, torus_dg1_norm, this, cos_pi]
    ring
  have e2 : ∀ t, (torusProblem.cp.dg2 0 t).norm = 2 * π := fun t => torus_dg2_norm 0 t
  rw [toroidalLoop, poloidalLoop]
  simp only [e1, e2]
  rw [show torusProblem.ePhis = linspace0 1 2 from rfl, show torusProblem.eThetas = linspace0 1 2 from rfl]
  constructor <;> simp [linspace0_length]

/-- The net poloidal current 5 flows through the inner toroidal loop of length `2 pi`, the net toroidal current 7 through a poloidal loop of the
same length: no potential brings the largest current density below these numbers. -/
example (d : Dofs) : 5 ≤ √(quantityNumber [] torusProblem d "f_max_K2") * (2 * π) ∧
    7 ≤ √(quantityNumber [] torusProblem d "f_max_K2") * (2 * π) := by
  have h1 := C184_max_G [] torusProblem d torusProblem_grids.1 2 (by decide) torusProblem_period torusProblem_normal (1 / 2)
    (by simp [torusProblem, linspace0, List.range_succ])
  have h2 := C184_max_I [] torusProblem d 2 (by decide) rfl torusProblem_normal 0
    (by simp [torusProblem, linspace0, List.range_succ])
  rw [torus_loops.1] at h1
  rw [torus_loops.2] at h2
  have g : torusProblem.cp.G = 5 := rfl
  have i : torusProblem.cp.I = 7 := rfl
  rw [g, abs_of_pos (by norm_num)] at h1
  rw [i, abs_of_pos (by norm_num)] at h2
  exact ⟨h1, h2⟩

example (d : Dofs) : (7 : ℝ) ^ 2 ≤ 2 * quantityNumber [] torusProblem d "f_K" *
    evalMean torusProblem (fun q => (torusProblem.cp.dg2 q.1 q.2).norm ^ 2 / (torusProblem.cp.N q.1 q.2).norm) :=
  (C184_f_K [] torusProblem d torusProblem_grids.1 2 2 (by decide) (by decide) le_rfl le_rfl torusProblem_period rfl torusProblem_normal).2

/-- The limit 1 on `K2` cannot be met, since `7 > 2 pi`. -/
example (d : Dofs) : ¬UserFeasible (shippedRegistry FieldProblem.fns []) [⟨"K2", "<=", .none, 1⟩] torusProblem d := by
  intro h
  have h2 := (C184_limit [] torusProblem d torusProblem_grids.1 2 2 (by decide) (by decide) torusProblem_period rfl torusProblem_normal _ .none 1
    (by simp) h).2 0 (by simp [torusProblem, linspace0, List.range_succ])
  rw [torus_loops.2] at h2
  have i : torusProblem.cp.I = 7 := rfl
  rw [i, abs_of_pos (by norm_num), Real.sqrt_one] at h2
  linarith [Real.pi_lt_d2]

end Verif
