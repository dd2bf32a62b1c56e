import Verif.Lemmas.Field
import Verif.Spec.Convex

/-!
# Properties C46, C47, C48, C77, C78: grids, magnetic field and field objectives
-/

namespace Verif

open Real

open CpParams

/-! ## Linearity of the field -/

namespace FieldProblem

variable (Q : FieldProblem)

/-- The same geometry with other net currents and plasma field. -/
def withSources (G I : ℝ) (b : List ℝ) : FieldProblem := { Q with cp := { Q.cp with G := G, I := I }, bPlasma := b }

theorem vsum_lin {β : Type} (l : List β) (f g h : β → V3) (s t : ℝ) (hf : ∀ x, f x = s • g x + t • h x) :
    vsum (l.map f) = s • vsum (l.map g) + t • vsum (l.map h) := by
  have e : l.map f = l.map fun x => s • g x + t • h x := List.map_congr_left fun x _ => hf x
  rw [e]
  ext
  · simp only [vsum, List.map_map, Function.comp_def, V3.add_x, V3.smul_x]
    rw [← sum_map_lin]
  · simp only [vsum, List.map_map, Function.comp_def, V3.add_y, V3.smul_y]
    rw [← sum_map_lin]
  · simp only [vsum, List.map_map, Function.comp_def, V3.add_z, V3.smul_z]
    rw [← sum_map_lin]

end FieldProblem

/-- **C47.** The field of the winding surface is jointly linear in the coefficients and the two net currents. -/
theorem C47_field_linear (Q : FieldProblem) (c d : List ℝ) (h : c.length = d.length) (s t G1 G2 I1 I2 : ℝ) (b : List ℝ)
    (x : V3) :
    (Q.withSources (s * G1 + t * G2) (s * I1 + t * I2) b).windingB (comb s t c d) x =
      s • (Q.withSources G1 I1 b).windingB c x + t • (Q.withSources G2 I2 b).windingB d x := by
  have hB : (Q.withSources (s * G1 + t * G2) (s * I1 + t * I2) b).computeB (comb s t c d) x =
      s • (Q.withSources G1 I1 b).computeB c x + t • (Q.withSources G2 I2 b).computeB d x := by
    refine FieldProblem.vsum_lin _ _ _ _ s t fun q => ?_
    have hK := Q.cp.K_linear c d h s t G1 G2 I1 I2 q.1 q.2
    simp only [FieldProblem.bTerm, FieldProblem.withSources, comb]
    rw [hK]
    ext <;> simp only [V3.cross, V3.add_x, V3.add_y, V3.add_z, V3.smul_x, V3.smul_y, V3.smul_z] <;> ring
  have e : ∀ G I : ℝ, (Q.withSources G I b).wPhis = Q.wPhis ∧ (Q.withSources G I b).wThetas = Q.wThetas := fun _ _ => ⟨rfl, rfl⟩
  simp only [FieldProblem.windingB, hB, e]
  ext <;> simp only [V3.add_x, V3.add_y, V3.add_z, V3.smul_x, V3.smul_y, V3.smul_z] <;> ring

/-- **C47.** For fixed currents the field is affine in the coefficients. -/
theorem C47_field_affine (Q : FieldProblem) (c d : List ℝ) (h : c.length = d.length) (a : ℝ) (x : V3) :
    Q.windingB (comb a (1 - a) c d) x = a • Q.windingB c x + (1 - a) • Q.windingB d x := by
  have := C47_field_linear Q c d h a (1 - a) Q.cp.G Q.cp.G Q.cp.I Q.cp.I Q.bPlasma x
  rwa [show a * Q.cp.G + (1 - a) * Q.cp.G = Q.cp.G by ring, show a * Q.cp.I + (1 - a) * Q.cp.I = Q.cp.I by ring] at this

theorem bnWinding_affine (Q : FieldProblem) (c d : List ℝ) (h : c.length = d.length) (a : ℝ) (q : ℝ × ℝ) :
    Q.bnWinding (comb a (1 - a) c d) q = a * Q.bnWinding c q + (1 - a) * Q.bnWinding d q := by
  simp only [FieldProblem.bnWinding, C47_field_affine Q c d h]
  simp only [V3.dot, V3.add_x, V3.add_y, V3.add_z, V3.smul_x, V3.smul_y, V3.smul_z]
  ring

/-! ## The objectives -/

theorem wsum_nonneg {β : Type} (L : List β) (F : β → ℝ) (D : List ℝ) (hD : ∀ x ∈ D, 0 ≤ x) (hF : ∀ x, 0 ≤ F x) :
    0 ≤ (List.zipWith (· * ·) (L.map F) D).sum := by
  refine List.sum_nonneg fun x hx => ?_
  obtain ⟨i, hi, rfl⟩ := List.mem_iff_getElem.1 hx
  simp only [List.getElem_zipWith, List.getElem_map]
  exact mul_nonneg (hF _) (hD _ (List.getElem_mem _))

theorem wsum_convex {β : Type} (L : List β) (F F1 F2 : β → ℝ) (a : ℝ) (D : List ℝ) (hD : ∀ x ∈ D, 0 ≤ x)
    (hF : ∀ x, F x ≤ a * F1 x + (1 - a) * F2 x) :
    (List.zipWith (· * ·) (L.map F) D).sum ≤
      a * (List.zipWith (· * ·) (L.map F1) D).sum + (1 - a) * (List.zipWith (· * ·) (L.map F2) D).sum := by
  induction L generalizing D with
  | nil => simp
  | cons y L ih =>
    cases D with
    | nil => simp
    | cons w D =>
      have h1 := ih D fun x hx => hD x (List.mem_cons_of_mem _ hx)
      have h2 := mul_le_mul_of_nonneg_right (hF y) (hD w (List.mem_cons_self ..))
      simp only [List.map_cons, List.zipWith_cons_cons, List.sum_cons]
      nlinarith

theorem wsum_smul {β : Type} (L : List β) (F F1 : β → ℝ) (s : ℝ) (D : List ℝ) (hF : ∀ x, F x = s * F1 x) :
    (List.zipWith (· * ·) (L.map F) D).sum = s * (List.zipWith (· * ·) (L.map F1) D).sum := by
  induction L generalizing D with
  | nil => simp
  | cons y L ih =>
    cases D with
    | nil => simp
    | cons w D =>
      simp only [List.map_cons, List.zipWith_cons_cons, List.sum_cons, ih, hF]
      ring

theorem da_nonneg (S : GridSurface) (h : 0 ≤ gridStep S.phis * gridStep S.thetas) : ∀ x ∈ S.da, 0 ≤ x := by
  intro x hx
  simp only [GridSurface.da, List.mem_map] at hx
  obtain ⟨q, _, rfl⟩ := hx
  exact mul_nonneg h (Real.sqrt_nonneg _)

theorem sq_convex (x y a : ℝ) (h0 : 0 ≤ a) (h1 : a ≤ 1) : (a * x + (1 - a) * y) ^ 2 ≤ a * x ^ 2 + (1 - a) * y ^ 2 := by
  nlinarith [mul_nonneg (mul_nonneg h0 (sub_nonneg.2 h1)) (sq_nonneg (x - y))]

theorem fB_eq (Q : FieldProblem) (c : List ℝ) :
    Q.fB c = (List.zipWith (· * ·) (((gridPoints Q.plasma.phis Q.plasma.thetas).zip Q.bPlasma).map
      fun q => (Q.bnWinding c q.1 + q.2) ^ 2 / 2) Q.plasma.da).sum * Q.cp.nfp := by
  rw [FieldProblem.fB, GridSurface.integrate, FieldProblem.bnormal, List.map_map]
  rfl

theorem fK_eq (Q : FieldProblem) (c : List ℝ) :
    Q.fK c = (List.zipWith (· * ·) ((gridPoints Q.ePhis Q.eThetas).map
      fun q => Q.cp.K2 c q.1 q.2 / 2) Q.evalSurface.da).sum * Q.cp.nfp := rfl

/-- **C47.** `f_B` and `f_K` are never negative (on grids in increasing order). -/
theorem C47_objectives_nonneg (Q : FieldProblem) (hp : 0 ≤ gridStep Q.plasma.phis * gridStep Q.plasma.thetas)
    (he : 0 ≤ gridStep Q.ePhis * gridStep Q.eThetas) (c : List ℝ) : 0 ≤ Q.fB c ∧ 0 ≤ Q.fK c := by
  rw [fB_eq, fK_eq]
  exact ⟨mul_nonneg (wsum_nonneg _ _ _ (da_nonneg _ hp) fun x => by positivity) (Nat.cast_nonneg _),
    mul_nonneg (wsum_nonneg _ _ _ (da_nonneg Q.evalSurface he) fun x => div_nonneg (V3.normSq_nonneg _) (by norm_num)) (Nat.cast_nonneg _)⟩

/-- **C47.** `f_B` and `f_K` are convex functions of the coefficients. -/
theorem C47_objectives_convex (Q : FieldProblem) (hp : 0 ≤ gridStep Q.plasma.phis * gridStep Q.plasma.thetas)
    (he : 0 ≤ gridStep Q.ePhis * gridStep Q.eThetas) (n : ℕ) : ConvexOnVectors n Q.fB ∧ ConvexOnVectors n Q.fK := by
  constructor
  · intro c d hc hd a h0 h1
    rw [fB_eq, fB_eq, fB_eq]
    have := wsum_convex ((gridPoints Q.plasma.phis Q.plasma.thetas).zip Q.bPlasma)
      (fun q => (Q.bnWinding (comb a (1 - a) c d) q.1 + q.2) ^ 2 / 2) (fun q => (Q.bnWinding c q.1 + q.2) ^ 2 / 2)
      (fun q => (Q.bnWinding d q.1 + q.2) ^ 2 / 2) a _ (da_nonneg _ hp) (fun q => by
        rw [bnWinding_affine Q c d (hc.trans hd.symm)]
        have := sq_convex (Q.bnWinding c q.1 + q.2) (Q.bnWinding d q.1 + q.2) a h0 h1
        rw [show a * Q.bnWinding c q.1 + (1 - a) * Q.bnWinding d q.1 + q.2 =
          a * (Q.bnWinding c q.1 + q.2) + (1 - a) * (Q.bnWinding d q.1 + q.2) by ring]
        linarith)
    have hn : (0 : ℝ) ≤ Q.cp.nfp := Nat.cast_nonneg _
    nlinarith [mul_le_mul_of_nonneg_right this hn]
  · intro c d hc hd a h0 h1
    rw [fK_eq, fK_eq, fK_eq]
    have := wsum_convex (gridPoints Q.ePhis Q.eThetas)
      (fun q => Q.cp.K2 (comb a (1 - a) c d) q.1 q.2 / 2) (fun q => Q.cp.K2 c q.1 q.2 / 2)
      (fun q => Q.cp.K2 d q.1 q.2 / 2) a _ (da_nonneg Q.evalSurface he) (fun q => by
        simp only [K2, comb]
        rw [C41_affine Q.cp c d (hc.trans hd.symm)]
        simp only [V3.normSq, V3.add_x, V3.add_y, V3.add_z, V3.smul_x, V3.smul_y, V3.smul_z]
        have hx := sq_convex (Q.cp.K c q.1 q.2).x (Q.cp.K d q.1 q.2).x a h0 h1
        have hy := sq_convex (Q.cp.K c q.1 q.2).y (Q.cp.K d q.1 q.2).y a h0 h1
        have hz := sq_convex (Q.cp.K c q.1 q.2).z (Q.cp.K d q.1 q.2).z a h0 h1
        linarith)
    have hn : (0 : ℝ) ≤ Q.cp.nfp := Nat.cast_nonneg _
    nlinarith [mul_le_mul_of_nonneg_right this hn]

theorem zipWith_self_smul (s : ℝ) (c : List ℝ) : comb s 0 c c = c.map (s * ·) := by
  simp [comb, List.zipWith_self]

/-- Multiplying all sources by `s` multiplies the normal field of the winding surface by `s`. -/
theorem bnWinding_scale (Q : FieldProblem) (s : ℝ) (c : List ℝ) (b : List ℝ) (q : ℝ × ℝ) :
    (Q.withSources (s * Q.cp.G) (s * Q.cp.I) b).bnWinding (c.map (s * ·)) q = s * Q.bnWinding c q := by
  have h := C47_field_linear Q c c rfl s 0 Q.cp.G Q.cp.G Q.cp.I Q.cp.I b (Q.plasma.shape.gamma Q.plasma.dofs q.1 q.2)
  simp only [zero_mul, add_zero, zipWith_self_smul] at h
  have e : (Q.withSources (s * Q.cp.G) (s * Q.cp.I) b).plasma = Q.plasma := rfl
  have e2 : (Q.withSources Q.cp.G Q.cp.I b).windingB c = Q.windingB c := rfl
  simp only [FieldProblem.bnWinding, e, h, e2, V3.dot, V3.add_x, V3.add_y, V3.add_z, V3.smul_x, V3.smul_y, V3.smul_z]
  ring

/-- **C47.** Scaling all currents and the plasma field by `s` scales `f_B` and `f_K` by `s^2`. -/
theorem C47_objectives_quadratic (Q : FieldProblem) (s : ℝ) (c : List ℝ) :
    (Q.withSources (s * Q.cp.G) (s * Q.cp.I) (Q.bPlasma.map (s * ·))).fB (c.map (s * ·)) = s ^ 2 * Q.fB c ∧
    (Q.withSources (s * Q.cp.G) (s * Q.cp.I) (Q.bPlasma.map (s * ·))).fK (c.map (s * ·)) = s ^ 2 * Q.fK c := by
  constructor
  · rw [fB_eq, fB_eq]
    have e : (Q.withSources (s * Q.cp.G) (s * Q.cp.I) (Q.bPlasma.map (s * ·))).plasma = Q.plasma := rfl
    have e2 : (Q.withSources (s * Q.cp.G) (s * Q.cp.I) (Q.bPlasma.map (s * ·))).cp.nfp = Q.cp.nfp := rfl
    have e3 : (Q.withSources (s * Q.cp.G) (s * Q.cp.I) (Q.bPlasma.map (s * ·))).bPlasma = Q.bPlasma.map (s * ·) := rfl
    rw [e, e2, e3, List.zip_map_right, List.map_map,
      wsum_smul _ _ (fun q : (ℝ × ℝ) × ℝ => (Q.bnWinding c q.1 + q.2) ^ 2 / 2) (s ^ 2) _ (fun q => by
        simp only [Function.comp, Prod.map, id, bnWinding_scale]
        ring)]
    ring
  · rw [fK_eq, fK_eq]
    have e2 : (Q.withSources (s * Q.cp.G) (s * Q.cp.I) (Q.bPlasma.map (s * ·))).cp.nfp = Q.cp.nfp := rfl
    have e3 : (Q.withSources (s * Q.cp.G) (s * Q.cp.I) (Q.bPlasma.map (s * ·))).evalSurface = Q.evalSurface := rfl
    have e4 : (Q.withSources (s * Q.cp.G) (s * Q.cp.I) (Q.bPlasma.map (s * ·))).ePhis = Q.ePhis := rfl
    have e5 : (Q.withSources (s * Q.cp.G) (s * Q.cp.I) (Q.bPlasma.map (s * ·))).eThetas = Q.eThetas := rfl
    rw [e2, e3, e4, e5, wsum_smul _ _ (fun q : ℝ × ℝ => Q.cp.K2 c q.1 q.2 / 2) (s ^ 2) _ (fun q => by
        have h := Q.cp.K_linear c c rfl s 0 Q.cp.G Q.cp.G Q.cp.I Q.cp.I q.1 q.2
        have h0 := zipWith_self_smul s c
        simp only [comb] at h0
        rw [h0] at h
        simp only [zero_mul, add_zero] at h
        simp only [FieldProblem.withSources, K2]
        rw [h]
        simp only [V3.normSq, V3.add_x, V3.add_y, V3.add_z, V3.smul_x, V3.smul_y, V3.smul_z]
        ring)]
    ring

/-- **C47.** The normalised objective is 1 at zero coefficients and orders coefficient vectors like `f_B`. -/
theorem C47_normalised (Q : FieldProblem)
    (h : 0 < Q.fB (List.replicate (cpNdofs Q.cp.stellsym Q.cp.mpol Q.cp.ntor).1 0)) (c d : List ℝ) :
    Q.fBnormalized (List.replicate (cpNdofs Q.cp.stellsym Q.cp.mpol Q.cp.ntor).1 0) = 1 ∧
    (Q.fBnormalized c ≤ Q.fBnormalized d ↔ Q.fB c ≤ Q.fB d) := by
  refine ⟨div_self h.ne', ?_⟩
  simp only [FieldProblem.fBnormalized]
  exact div_le_div_iff_of_pos_right h

/-- A problem on a 2 by 2 grid. The plasma is a thin torus inside the circular torus. -/
noncomputable def torusProblem : FieldProblem where
  cp := circularTorus
  wPhis := linspace0 1 2
  wThetas := linspace0 1 2
  ePhis := linspace0 1 2
  eThetas := linspace0 1 2
  plasma := ⟨circularTorus.surf, [2, 1 / 2, 1 / 2], linspace0 1 2, linspace0 1 2⟩
  bPlasma := [0, 0, 0, 1]

theorem gridStep_linspace0 (stop : ℝ) (n : ℕ) (h : 2 ≤ n) : gridStep (linspace0 stop n) = stop / n := by
  obtain ⟨m, rfl⟩ : ∃ m, n = m + 2 := ⟨n - 2, by omega⟩
  rw [gridStep, linspace0, List.range_succ_eq_map, List.range_succ_eq_map]
  simp

/-- The grid hypotheses of the theorems hold for this problem. -/
example : 0 ≤ gridStep torusProblem.plasma.phis * gridStep torusProblem.plasma.thetas ∧
    0 ≤ gridStep torusProblem.ePhis * gridStep torusProblem.eThetas := by
  simp only [torusProblem, gridStep_linspace0 _ _ (le_refl 2)]
  norm_num

/-! ## C46 -/

/-- The integral of a function of the angles over a surface. -/
theorem integrate_eq (S : GridSurface) (f : ℝ → ℝ → ℝ) :
    S.integrate ((gridPoints S.phis S.thetas).map fun q => f q.1 q.2) =
      gridStep S.phis * gridStep S.thetas *
        (S.phis.map fun p => (S.thetas.map fun t => f p t * (S.shape.normal S.dofs p t).norm).sum).sum := by
  have h := gridPoints_sum S.phis S.thetas fun q => f q.1 q.2 * (S.shape.normal S.dofs q.1 q.2).norm
  have h2 := sum_map_lin (gridPoints S.phis S.thetas) (fun q => f q.1 q.2 * (S.shape.normal S.dofs q.1 q.2).norm)
    (fun _ => 0) (gridStep S.phis * gridStep S.thetas) 0
  rw [GridSurface.integrate, GridSurface.da, List.zipWith_map, List.zipWith_self, ← h]
  simp only [zero_mul, add_zero] at h2
  rw [← h2]
  congr 1
  exact List.map_congr_left fun q _ => by ring

theorem linspace0_take (n k : ℕ) (hn : n ≠ 0) : (linspace0 1 (n * k)).take k = linspace0 (1 / n) k := by
  have hk : k ≤ n * k := Nat.le_mul_of_pos_left k (Nat.pos_of_ne_zero hn)
  rw [linspace0, linspace0, ← List.map_take, List.take_range, min_eq_left hk]
  refine List.map_congr_left fun j _ => ?_
  push_cast
  rw [div_div]

theorem sum_periods (h : ℕ → ℝ) (k : ℕ) (hp : ∀ j, h (j + k) = h j) (n : ℕ) :
    ∑ j ∈ Finset.range (n * k), h j = n * ∑ j ∈ Finset.range k, h j := by
  induction n with
  | zero => simp
  | succ n ih =>
    have hp2 : ∀ m j, h (m * k + j) = h j := by
      intro m
      induction m with
      | zero => simp
      | succ m ih2 =>
        intro j
        rw [show (m + 1) * k + j = m * k + j + k by ring, hp, ih2]
    rw [show (n + 1) * k = n * k + k by ring, Finset.sum_range_add, ih]
    simp only [hp2]
    push_cast
    ring

/-- **C46.** For a function with field period symmetry, the integral over the first field period of a uniform grid of the
torus, times `nfp`, equals the integral over the whole grid. -/
theorem C46_one_period_times_nfp (S : SurfaceShape) (dofs : List ℝ) (hn : S.nfp ≠ 0) (k : ℕ) (hk : 2 ≤ k) (thetas : List ℝ)
    (f : ℝ → ℝ → ℝ) (hf : ∀ p t, f (p + 1 / S.nfp) t = f p t) :
    let grid := linspace0 1 (S.nfp * k)
    let one : GridSurface := ⟨S, dofs, grid.take (grid.length / S.nfp), thetas⟩
    let all : GridSurface := ⟨S, dofs, grid, thetas⟩
    one.integrate ((gridPoints one.phis one.thetas).map fun q => f q.1 q.2) * S.nfp =
      all.integrate ((gridPoints all.phis all.thetas).map fun q => f q.1 q.2) := by
  intro grid one all
  have hn' : (S.nfp : ℝ) ≠ 0 := by exact_mod_cast hn
  have hk' : (k : ℝ) ≠ 0 := by have : 0 < k := by omega
                               positivity
  have hlen : grid.length / S.nfp = k := by
    rw [linspace0_length, Nat.mul_div_cancel_left _ (Nat.pos_of_ne_zero hn)]
  have hone : one = ⟨S, dofs, linspace0 (1 / S.nfp) k, thetas⟩ := by
    simp only [one, hlen, grid, linspace0_take _ _ hn]
  rw [integrate_eq, integrate_eq, hone]
  simp only [all, grid]
  have h2 : 2 ≤ S.nfp * k := le_trans hk (Nat.le_mul_of_pos_left k (Nat.pos_of_ne_zero hn))
  rw [gridStep_linspace0 _ _ hk, gridStep_linspace0 _ _ h2, linspace0_sum, linspace0_sum]
  have hper : ∀ p t, f (p + 1 / S.nfp) t * (S.normal dofs (p + 1 / S.nfp) t).norm = f p t * (S.normal dofs p t).norm := by
    intro p t
    have h1 := C39_field_period S hn dofs 1 0 p t 1
    have h2 := C39_field_period S hn dofs 0 1 p t 1
    rw [Int.cast_one] at h1 h2
    rw [hf, SurfaceShape.normal, h1, h2, rotZ_cross, rotZ_norm]
    rfl
  rw [sum_periods (fun j => (thetas.map fun t => f (j * (1 / ((S.nfp * k : ℕ) : ℝ))) t *
    (S.normal dofs (j * (1 / ((S.nfp * k : ℕ) : ℝ))) t).norm).sum) k (fun j => by
      have e : ((j + k : ℕ) : ℝ) * (1 / ((S.nfp * k : ℕ) : ℝ)) = j * (1 / ((S.nfp * k : ℕ) : ℝ)) + 1 / S.nfp := by
        push_cast
        field_simp
      simp only [e, hper])]
  have e1 : (1 : ℝ) / S.nfp / k = 1 / ((S.nfp * k : ℕ) : ℝ) := by
    push_cast
    rw [div_div]
  rw [e1]
  ring

/-- **C46.** The default evaluation grid is exactly the first field period of the default winding grid, and the same as the
default plasma grid. -/
theorem C46_default_grid (nfp : ℕ) (hn : nfp ≠ 0) :
    defaultEvalPhi nfp (defaultWindingPhi nfp) = linspace0 (1 / nfp) 32 ∧
    defaultEvalPhi nfp (defaultWindingPhi nfp) = defaultPlasmaPhi nfp ∧
    (∀ x ∈ defaultEvalPhi nfp (defaultWindingPhi nfp), 0 ≤ x ∧ x < 1 / nfp) := by
  have hn' : (0 : ℝ) < nfp := by positivity
  have h : defaultEvalPhi nfp (defaultWindingPhi nfp) = linspace0 (1 / nfp) 32 := by
    rw [defaultEvalPhi, defaultWindingPhi, linspace0_length, Nat.mul_div_cancel _ (Nat.pos_of_ne_zero hn), mul_comm,
      linspace0_take _ _ hn]
  refine ⟨h, h, ?_⟩
  rw [h]
  intro x hx
  simp only [linspace0, List.mem_map, List.mem_range] at hx
  obtain ⟨j, hj, rfl⟩ := hx
  refine ⟨by positivity, ?_⟩
  have : (j : ℝ) < 32 := by exact_mod_cast hj
  rw [mul_div_assoc', div_lt_iff₀ (by norm_num)]
  have h1 : 0 < 1 / (nfp : ℝ) := by positivity
  push_cast
  nlinarith

theorem K2_field_period (P : CpParams) (hn : P.surf.nfp ≠ 0) (c : List ℝ) (phi theta : ℝ) :
    P.K2 c (phi + 1 / P.surf.nfp) theta = P.K2 c phi theta := by
  have := P.K_field_period hn c phi theta 1
  rw [Int.cast_one] at this
  rw [K2, this, rotZ_normSq]
  rfl

/-- **C46.** The default poloidal grid covers one turn evenly: different angles in [0, 1), whose step times their number is a
full turn. -/
theorem C46_default_theta : gridStep defaultTheta * defaultTheta.length = 1 ∧ (∀ x ∈ defaultTheta, 0 ≤ x ∧ x < 1) ∧
    defaultTheta.Pairwise fun x y => x + gridStep defaultTheta ≤ y := by
  have hs : gridStep defaultTheta = 1 / 34 := by rw [defaultTheta, gridStep_linspace0 _ _ (by norm_num)]; norm_num
  refine ⟨by rw [hs, defaultTheta, linspace0_length]; norm_num, ?_, ?_⟩
  · intro x hx
    simp only [defaultTheta, linspace0, List.mem_map, List.mem_range] at hx
    obtain ⟨j, hj, rfl⟩ := hx
    have : (j : ℝ) < 34 := by exact_mod_cast hj
    constructor
    · positivity
    · push_cast
      linarith
  · rw [hs, defaultTheta, linspace0, List.pairwise_map]
    refine List.pairwise_lt_range.imp fun {i j} h => ?_
    have : (i : ℝ) + 1 ≤ j := by exact_mod_cast h
    push_cast
    linarith

/-- **C46 (for `f_K`).** With a uniform winding grid and the default evaluation grid, `f_K` is the integral of `K^2/2` over the
whole winding surface. -/
theorem C46_f_K_is_full_torus (Q : FieldProblem) (hn : Q.cp.surf.nfp ≠ 0) (k : ℕ) (hk : 2 ≤ k)
    (hw : Q.wPhis = linspace0 1 (Q.cp.surf.nfp * k)) (he : Q.ePhis = defaultEvalPhi Q.cp.surf.nfp Q.wPhis)
    (ht : Q.eThetas = Q.wThetas) (c : List ℝ) :
    Q.fK c = Q.winding.integrate ((gridPoints Q.wPhis Q.wThetas).map fun q => Q.cp.K2 c q.1 q.2 / 2) := by
  have h := C46_one_period_times_nfp Q.cp.surf Q.cp.wdofs hn k hk Q.wThetas (fun p t => Q.cp.K2 c p t / 2)
    (fun p t => by rw [K2_field_period _ hn])
  rw [FieldProblem.fK, FieldProblem.evalSurface, FieldProblem.winding, he, ht, defaultEvalPhi, hw]
  exact h

example : torusProblem.cp.surf.nfp ≠ 0 ∧ torusProblem.wPhis = linspace0 1 (torusProblem.cp.surf.nfp * 2) ∧
    torusProblem.ePhis = defaultEvalPhi torusProblem.cp.surf.nfp torusProblem.wPhis ∧
    torusProblem.eThetas = torusProblem.wThetas := by
  refine ⟨by simp [torusProblem, circularTorus], by simp [torusProblem, circularTorus], ?_, rfl⟩
  simp only [torusProblem, circularTorus, defaultEvalPhi, Nat.div_one, List.take_length]

/-- **C78.** False of the code for one toroidal point: every integral is 0, in particular the area. -/
theorem C78_single_point_integral_zero_violated_partial (S : GridSurface) (p : ℝ) (h : S.phis = [p]) (f : List ℝ) :
    S.integrate f = 0 := by
  have h0 : gridStep S.phis = 0 := by simp [gridStep, h]
  have : ∀ x ∈ List.zipWith (· * ·) f S.da, x = 0 := by
    intro x hx
    obtain ⟨i, hi, rfl⟩ := List.mem_iff_getElem.1 hx
    simp [GridSurface.da, h0]
  exact List.sum_eq_zero this

/-- **C78 (witness).** The circular torus has positive area on a grid with 2 toroidal points and area 0 with one. -/
theorem C78_witness_violated_partial :
    (GridSurface.mk circularTorus.surf circularTorus.wdofs (linspace0 1 1) (linspace0 1 2)).area = 0 ∧
    0 < (GridSurface.mk circularTorus.surf circularTorus.wdofs (linspace0 1 2) (linspace0 1 2)).area := by
  have harea : ∀ S : GridSurface, S.area = S.integrate ((gridPoints S.phis S.thetas).map fun _ => 1) := by
    intro S
    rw [GridSurface.area, GridSurface.integrate, GridSurface.da, List.zipWith_map, List.zipWith_self]
    simp
  constructor
  · rw [harea]
    exact C78_single_point_integral_zero_violated_partial _ 0 (by simp [linspace0]) _
  · have h0 : 0 < (circularTorus.N 0 0).norm := (V3.norm_pos_iff _).2 circularTorus_N_ne
    have e : linspace0 1 2 = [0, 1 / 2] := by simp [linspace0, List.range_succ]
    have hs : gridStep [(0 : ℝ), 1 / 2] = 1 / 2 := by simp [gridStep]
    rw [GridSurface.area, GridSurface.da, e]
    simp only [gridPoints, List.flatMap_cons, List.flatMap_nil, List.map_cons, List.map_nil, List.append_nil, List.cons_append,
      List.nil_append, List.sum_cons, List.sum_nil, hs]
    have hN : (circularTorus.surf.normal circularTorus.wdofs 0 0).norm = (circularTorus.N 0 0).norm := rfl
    have p1 : 0 ≤ (circularTorus.surf.normal circularTorus.wdofs 0 (1 / 2)).norm := Real.sqrt_nonneg _
    have p2 : 0 ≤ (circularTorus.surf.normal circularTorus.wdofs (1 / 2) 0).norm := Real.sqrt_nonneg _
    have p3 : 0 ≤ (circularTorus.surf.normal circularTorus.wdofs (1 / 2) (1 / 2)).norm := Real.sqrt_nonneg _
    rw [hN]
    linarith

/-! ## C48 -/

theorem vsum_grid (phis thetas : List ℝ) (F : ℝ × ℝ → V3) :
    vsum ((gridPoints phis thetas).map F) =
      ⟨(phis.map fun p => (thetas.map fun t => (F (p, t)).x).sum).sum,
       (phis.map fun p => (thetas.map fun t => (F (p, t)).y).sum).sum,
       (phis.map fun p => (thetas.map fun t => (F (p, t)).z).sum).sum⟩ := by
  simp only [vsum, List.map_map, Function.comp_def]
  rw [gridPoints_sum _ _ fun q => (F q).x, gridPoints_sum _ _ fun q => (F q).y, gridPoints_sum _ _ fun q => (F q).z]

/-- Over a uniform toroidal grid, a periodic summand may be shifted by grid spacings. -/
theorem vsum_grid_shift (n s : ℕ) (thetas : List ℝ) (F : ℝ × ℝ → V3) (hF : ∀ p t, F (p + 1, t) = F (p, t)) :
    vsum ((gridPoints (linspace0 1 n) thetas).map fun q => F (q.1 + s / n, q.2)) =
      vsum ((gridPoints (linspace0 1 n) thetas).map F) := by
  rw [vsum_grid, vsum_grid]
  ext
  · exact circle_sum_shift (fun p => (thetas.map fun t => (F (p, t)).x).sum) (fun p => by simp only [hF]) n s
  · exact circle_sum_shift (fun p => (thetas.map fun t => (F (p, t)).y).sum) (fun p => by simp only [hF]) n s
  · exact circle_sum_shift (fun p => (thetas.map fun t => (F (p, t)).z).sum) (fun p => by simp only [hF]) n s

theorem bTerm_rot (Q : FieldProblem) (hn : Q.cp.surf.nfp ≠ 0) (c : List ℝ) (x : V3) (p t : ℝ) (j : ℤ) :
    Q.bTerm c (rotZ (2 * π * j / Q.cp.surf.nfp) x) (p + j / Q.cp.surf.nfp, t) =
      rotZ (2 * π * j / Q.cp.surf.nfp) (Q.bTerm c x (p, t)) := by
  have hN := Q.cp.N_field_period hn p t j
  simp only [CpParams.N, CpParams.dg1, CpParams.dg2] at hN
  simp only [FieldProblem.bTerm, SurfaceShape.gamma, SurfaceShape.normal]
  rw [C39_field_period _ hn, hN, Q.cp.K_field_period hn, ← rotZ_sub, rotZ_normSq, rotZ_norm, rotZ_cross, rotZ_smul, rotZ_smul]

theorem rotZ_full (S : SurfaceShape) (hn : S.nfp ≠ 0) (a : V3) : rotZ (2 * π * ((S.nfp : ℤ) : ℝ) / S.nfp) a = a := by
  have hn' : (S.nfp : ℝ) ≠ 0 := by exact_mod_cast hn
  have := rotZ_two_pi_int 1 a
  rw [show 2 * π * ((S.nfp : ℤ) : ℝ) / S.nfp = 2 * π * ((1 : ℤ) : ℝ) by push_cast; field_simp]
  exact this

/-- **C48.** With a uniform winding grid covering the whole torus, the field at a point rotated by one field period is the
rotated field. -/
theorem C48_field_rotates (Q : FieldProblem) (hn : Q.cp.surf.nfp ≠ 0) (k : ℕ)
    (hw : Q.wPhis = linspace0 1 (Q.cp.surf.nfp * k)) (c : List ℝ) (x : V3) :
    Q.windingB c (rotZ (2 * π / Q.cp.surf.nfp) x) = rotZ (2 * π / Q.cp.surf.nfp) (Q.windingB c x) := by
  have hn' : (Q.cp.surf.nfp : ℝ) ≠ 0 := by exact_mod_cast hn
  rcases Nat.eq_zero_or_pos k with rfl | hk
  · have e : Q.wPhis = [] := by rw [hw]; simp [linspace0]
    simp only [FieldProblem.windingB, FieldProblem.computeB, e, gridPoints, List.flatMap_nil, List.map_nil]
    ext <;> simp [vsum, rotZ]
  have hk' : (k : ℝ) ≠ 0 := by positivity
  have h1 : ∀ p t, Q.bTerm c (rotZ (2 * π / Q.cp.surf.nfp) x) (p + 1 / Q.cp.surf.nfp, t) =
      rotZ (2 * π / Q.cp.surf.nfp) (Q.bTerm c x (p, t)) := by
    intro p t
    have := bTerm_rot Q hn c x p t 1
    simpa using this
  have hper : ∀ y p t, Q.bTerm c y (p + 1, t) = Q.bTerm c y (p, t) := by
    intro y p t
    have := bTerm_rot Q hn c y p t (Q.cp.surf.nfp : ℤ)
    rw [rotZ_full _ hn, rotZ_full _ hn] at this
    rw [← this]
    congr 2
    push_cast
    field_simp
  rw [FieldProblem.windingB, FieldProblem.windingB, rotZ_smul]
  congr 1
  rw [FieldProblem.computeB, FieldProblem.computeB, hw, ← rotZ_vsum,
    ← vsum_grid_shift (Q.cp.surf.nfp * k) k Q.wThetas _ (hper _)]
  congr 1
  refine List.map_congr_left fun q _ => ?_
  rw [← h1]
  congr 2
  push_cast
  field_simp

/-- **C48.** The normal component on a plasma surface with the same number of field periods is the same in every field
period. -/
theorem C48_normal_field_periodic (Q : FieldProblem) (hn : Q.cp.surf.nfp ≠ 0) (hp : Q.plasma.shape.nfp = Q.cp.surf.nfp) (k : ℕ)
    (hw : Q.wPhis = linspace0 1 (Q.cp.surf.nfp * k)) (c : List ℝ) (p t : ℝ) :
    Q.bnWinding c (p + 1 / Q.cp.surf.nfp, t) = Q.bnWinding c (p, t) := by
  have hn2 : Q.plasma.shape.nfp ≠ 0 := by rw [hp]; exact hn
  have g := fun a b => C39_field_period Q.plasma.shape hn2 Q.plasma.dofs a b p t 1
  simp only [Int.cast_one, mul_one, hp] at g
  simp only [FieldProblem.bnWinding, SurfaceShape.gamma, SurfaceShape.unitnormal, SurfaceShape.normal]
  rw [g 0 0, g 1 0, g 0 1, rotZ_cross, rotZ_norm, C48_field_rotates Q hn k hw, ← rotZ_smul, rotZ_dot]

example : torusProblem.cp.surf.nfp ≠ 0 ∧ torusProblem.plasma.shape.nfp = torusProblem.cp.surf.nfp ∧
    torusProblem.wPhis = linspace0 1 (torusProblem.cp.surf.nfp * 2) := by
  simp [torusProblem, circularTorus]

/-! ## C77: stellarator symmetry -/

/-- Rotation by 180 degrees about the x axis. -/
def flipX (v : V3) : V3 := ⟨v.x, -v.y, -v.z⟩

theorem dg_flip (S : SurfaceShape) (hs : S.stellsym = true) (dofs : List ℝ) (p t : ℝ) :
    S.gammadash dofs 0 0 (-p) (-t) = flipX (S.gammadash dofs 0 0 p t) ∧
    S.gammadash dofs 1 0 (-p) (-t) = -flipX (S.gammadash dofs 1 0 p t) ∧
    S.gammadash dofs 0 1 (-p) (-t) = -flipX (S.gammadash dofs 0 1 p t) := by
  refine ⟨?_, ?_, ?_⟩ <;>
  · rw [C39_stellarator_symmetry S hs]
    ext <;> simp [flipX]

theorem flipX_cross (a b : V3) : V3.cross (-flipX a) (-flipX b) = flipX (V3.cross a b) := by
  ext <;> simp only [V3.cross, flipX, V3.neg_x, V3.neg_y, V3.neg_z] <;> ring

theorem flipX_normSq (a : V3) : (flipX a).normSq = a.normSq := by simp [V3.normSq, flipX]

theorem flipX_norm (a : V3) : (flipX a).norm = a.norm := by rw [V3.norm, V3.norm, flipX_normSq]

theorem normal_flip (S : SurfaceShape) (hs : S.stellsym = true) (dofs : List ℝ) (p t : ℝ) :
    S.normal dofs (-p) (-t) = flipX (S.normal dofs p t) := by
  obtain ⟨_, h1, h2⟩ := dg_flip S hs dofs p t
  rw [SurfaceShape.normal, h1, h2, flipX_cross]
  rfl

theorem rows_flip (P : CpParams) (hc : P.stellsym = true) (p t : ℝ) :
    P.opPhi (-p) (-t) = P.opPhi p t ∧ P.opTheta (-p) (-t) = P.opTheta p t := by
  have h : ∀ r : ℤ × ℤ × ℤ, P.angle (-p) (-t) r = -P.angle p t r := by
    intro r
    simp only [angle]
    ring
  have hr : ∀ r ∈ P.rows, r.2.2 = 1 := by
    intro r hr
    rw [rows_stellsym P hc, List.mem_map] at hr
    obtain ⟨q, _, rfl⟩ := hr
    rfl
  rw [opPhi_eq, opPhi_eq, opTheta_eq, opTheta_eq]
  constructor
  · exact List.map_congr_left fun r h0 => by simp [rPhi, h, hr r h0, sinOrCos]
  · exact List.map_congr_left fun r h0 => by simp [rTheta, h, hr r h0, sinOrCos]

/-- The current of a stellarator symmetric problem: `K(-phi, -theta)` is minus the flipped `K(phi, theta)`. -/
theorem K_flip (P : CpParams) (hs : P.surf.stellsym = true) (hc : P.stellsym = true) (c : List ℝ) (p t : ℝ) :
    P.K c (-p) (-t) = -flipX (P.K c p t) := by
  obtain ⟨h1, h2⟩ := rows_flip P hc p t
  obtain ⟨_, g1, g2⟩ := dg_flip P.surf hs P.wdofs p t
  have hN : P.N (-p) (-t) = flipX (P.N p t) := normal_flip P.surf hs P.wdofs p t
  rw [K_eq, K_eq, h1, h2, invN, hN, flipX_norm, dg1, dg2, g1, g2]
  ext <;> simp only [flipX, invN, dg1, dg2, V3.neg_x, V3.neg_y, V3.neg_z, V3.smul_x, V3.smul_y, V3.smul_z, V3.sub_x, V3.sub_y,
    V3.sub_z] <;> ring

theorem linspace_neg_grid (nphi ntheta : ℕ) (F : ℝ × ℝ → ℝ) (hp : ∀ p t, F (p + 1, t) = F (p, t))
    (ht : ∀ p t, F (p, t + 1) = F (p, t)) :
    ((linspace0 1 nphi).map fun p => ((linspace0 1 ntheta).map fun t => F (-p, -t)).sum).sum =
      ((linspace0 1 nphi).map fun p => ((linspace0 1 ntheta).map fun t => F (p, t)).sum).sum := by
  have h1 : ∀ p, ((linspace0 1 ntheta).map fun t => F (p, -t)).sum = ((linspace0 1 ntheta).map fun t => F (p, t)).sum :=
    fun p => circle_sum_neg (fun t => F (p, t)) (fun t => ht p t) ntheta
  simp only [h1]
  exact circle_sum_neg (fun p => ((linspace0 1 ntheta).map fun t => F (p, t)).sum) (fun p => by simp only [hp]) nphi

theorem sum_map_neg {β : Type} (l : List β) (f : β → ℝ) : (l.map fun x => -f x).sum = -(l.map f).sum := by
  have := sum_map_lin l f (fun _ => 0) (-1) 0
  simpa using this

theorem bTerm_flip (Q : FieldProblem) (hs : Q.cp.surf.stellsym = true) (hc : Q.cp.stellsym = true) (c : List ℝ) (x : V3)
    (p t : ℝ) : Q.bTerm c (flipX x) (-p, -t) = -flipX (Q.bTerm c x (p, t)) := by
  have hr : flipX x - flipX (Q.cp.surf.gammadash Q.cp.wdofs 0 0 p t) = flipX (x - Q.cp.surf.gammadash Q.cp.wdofs 0 0 p t) := by
    ext <;> simp only [flipX, V3.sub_x, V3.sub_y, V3.sub_z] <;> ring
  simp only [FieldProblem.bTerm, SurfaceShape.gamma]
  rw [(dg_flip _ hs _ p t).1, normal_flip _ hs, K_flip _ hs hc, hr, flipX_normSq, flipX_norm]
  ext <;> simp only [flipX, V3.cross, V3.neg_x, V3.neg_y, V3.neg_z, V3.smul_x, V3.smul_y, V3.smul_z, V3.sub_x, V3.sub_y,
    V3.sub_z] <;> ring

/-- **C77.** In a stellarator symmetric problem with uniform winding grids, the field at the flipped point is minus the
flipped field. -/
theorem C77_field_flips (Q : FieldProblem) (hn : Q.cp.surf.nfp ≠ 0) (hs : Q.cp.surf.stellsym = true)
    (hc : Q.cp.stellsym = true) (k l : ℕ) (hw : Q.wPhis = linspace0 1 k) (ht : Q.wThetas = linspace0 1 l) (c : List ℝ) (x : V3) :
    Q.windingB c ⟨x.x, -x.y, -x.z⟩ =
      ⟨-(Q.windingB c x).x, (Q.windingB c x).y, (Q.windingB c x).z⟩ := by
  have hn' : (Q.cp.surf.nfp : ℝ) ≠ 0 := by exact_mod_cast hn
  have hper : ∀ y p t, Q.bTerm c y (p + 1, t) = Q.bTerm c y (p, t) := by
    intro y p t
    have := bTerm_rot Q hn c y p t (Q.cp.surf.nfp : ℤ)
    rw [rotZ_full _ hn, rotZ_full _ hn] at this
    rw [← this]
    congr 2
    push_cast
    field_simp
  have hpert : ∀ y p t, Q.bTerm c y (p, t + 1) = Q.bTerm c y (p, t) := by
    intro y p t
    have g := fun a b => C39_theta_periodic Q.cp.surf Q.cp.wdofs a b p t 1
    simp only [Int.cast_one] at g
    have hrow : Q.cp.opPhi p (t + 1) = Q.cp.opPhi p t ∧ Q.cp.opTheta p (t + 1) = Q.cp.opTheta p t := by
      have h : ∀ r : ℤ × ℤ × ℤ, Q.cp.angle p (t + 1) r = Q.cp.angle p t r + ((r.1 : ℤ) : ℝ) * (2 * π) := by
        intro r
        simp only [angle]
        ring
      rw [opPhi_eq, opPhi_eq, opTheta_eq, opTheta_eq]
      exact ⟨List.map_congr_left fun r _ => by simp only [rPhi, h, sinOrCos_periodic],
        List.map_congr_left fun r _ => by simp only [rTheta, h, sinOrCos_periodic]⟩
    have hK : Q.cp.K c p (t + 1) = Q.cp.K c p t := by
      rw [K_eq, K_eq, hrow.1, hrow.2, invN, N, dg1, dg2, g, g]
      rfl
    simp only [FieldProblem.bTerm, SurfaceShape.gamma, SurfaceShape.normal, g, hK]
  have hB : Q.computeB c (flipX x) = -flipX (Q.computeB c x) := by
    rw [FieldProblem.computeB, FieldProblem.computeB, vsum_grid, vsum_grid, hw, ht]
    ext
    · simp only [V3.neg_x, flipX]
      rw [← linspace_neg_grid k l (fun q => (Q.bTerm c ⟨x.x, -x.y, -x.z⟩ q).x) (fun p t => by rw [hper]) (fun p t => by rw [hpert])]
      have := fun p t => congrArg V3.x (bTerm_flip Q hs hc c x p t)
      simp only [flipX, V3.neg_x] at this
      simp only [this, sum_map_neg]
    · simp only [V3.neg_y, flipX, neg_neg]
      rw [← linspace_neg_grid k l (fun q => (Q.bTerm c ⟨x.x, -x.y, -x.z⟩ q).y) (fun p t => by rw [hper]) (fun p t => by rw [hpert])]
      have := fun p t => congrArg V3.y (bTerm_flip Q hs hc c x p t)
      simp only [flipX, V3.neg_y, neg_neg] at this
      simp only [this]
    · simp only [V3.neg_z, flipX, neg_neg]
      rw [← linspace_neg_grid k l (fun q => (Q.bTerm c ⟨x.x, -x.y, -x.z⟩ q).z) (fun p t => by rw [hper]) (fun p t => by rw [hpert])]
      have := fun p t => congrArg V3.z (bTerm_flip Q hs hc c x p t)
      simp only [flipX, V3.neg_z, neg_neg] at this
      simp only [this]
  simp only [flipX] at hB
  rw [FieldProblem.windingB, FieldProblem.windingB, hB]
  ext <;> simp only [V3.neg_x, V3.neg_y, V3.neg_z, V3.smul_x, V3.smul_y, V3.smul_z] <;> ring

/-- **C77.** The normal field of the winding surface is odd under `(phi, theta) -> (-phi, -theta)`. -/
theorem C77_normal_field_odd (Q : FieldProblem) (hn : Q.cp.surf.nfp ≠ 0) (hs : Q.cp.surf.stellsym = true)
    (hc : Q.cp.stellsym = true) (hp : Q.plasma.shape.stellsym = true) (k l : ℕ) (hw : Q.wPhis = linspace0 1 k)
    (ht : Q.wThetas = linspace0 1 l) (c : List ℝ) (p t : ℝ) : Q.bnWinding c (-p, -t) = -Q.bnWinding c (p, t) := by
  have h := C77_field_flips Q hn hs hc k l hw ht c (Q.plasma.shape.gamma Q.plasma.dofs p t)
  simp only [FieldProblem.bnWinding, SurfaceShape.unitnormal]
  rw [C39_position_symmetry _ hp, h, normal_flip _ hp, flipX_norm]
  simp only [V3.dot, flipX, V3.smul_x, V3.smul_y, V3.smul_z]
  ring

example : torusProblem.cp.surf.stellsym = true ∧ torusProblem.cp.stellsym = true ∧ torusProblem.plasma.shape.stellsym = true ∧
    torusProblem.wPhis = linspace0 1 2 ∧ torusProblem.wThetas = linspace0 1 2 := ⟨rfl, rfl, rfl, rfl, rfl⟩

end Verif
