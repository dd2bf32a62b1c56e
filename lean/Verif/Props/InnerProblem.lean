import Verif.Lemmas.StrongConvex
import Verif.Props.OuterRate

/-!
# C137: the inner problems of the augmented Lagrangian
-/

namespace Verif

variable {N m n : ℕ}

theorem ConvexFn.of_on {f : (Fin N → ℝ) → ℝ} (h : ConvexOn ℝ Set.univ f) : ConvexFn f := fun x y a h0 h1 =>
  h.2 (Set.mem_univ x) (Set.mem_univ y) h0 (by linarith : 0 ≤ 1 - a) (by ring)

theorem ConvexFn.sum {ι : Type} (s : Finset ι) (fs : ι → (Fin N → ℝ) → ℝ) (h : ∀ i ∈ s, ConvexFn (fs i)) : ConvexFn fun x => ∑ i ∈ s, fs i x := by
  intro x y a h0 h1
  simp only [Finset.mul_sum, ← Finset.sum_add_distrib]
  exact Finset.sum_le_sum fun i hi => h i hi x y a h0 h1

/-- The penalty of one equality. -/
theorem penalty_eq_convex (A : (Fin N → ℝ) →L[ℝ] ℝ) (b L : ℝ) {c : ℝ} (hc : 0 < c) :
    ConvexFn fun y => L * (A y + b) + c / 2 * ((A y + b) * (A y + b)) := by
  intro x y a h0 h1
  have e : (fun i => a * x i + (1 - a) * y i) = a • x + (1 - a) • y := rfl
  simp only [e, map_add, map_smul, smul_eq_mul]
  nlinarith [mul_nonneg (mul_nonneg h0 (by linarith : 0 ≤ 1 - a)) (mul_nonneg hc.le (sq_nonneg (A x - A y)))]

/-- The penalty of one inequality is a square. -/
theorem penalty_ineq_eq (g M : ℝ) {c : ℝ} (hc : 0 < c) :
    M * max g (-M / c) + c / 2 * (max g (-M / c) * max g (-M / c)) = (max (M + c * g) 0 ^ 2 - M ^ 2) / (2 * c) := by
  rcases le_total g (-M / c) with h | h
  · have h1 : M + c * g ≤ 0 := by
      rw [le_div_iff₀ hc] at h
      linarith
    rw [max_eq_right h, max_eq_right h1]
    field_simp
    ring
  · have h1 : 0 ≤ M + c * g := by
      rw [div_le_iff₀ hc] at h
      linarith
    rw [max_eq_left h, max_eq_left h1]
    field_simp
    ring

theorem penalty_ineq_convex {G : (Fin N → ℝ) → ℝ} (hG : ConvexFn G) (M : ℝ) {c : ℝ} (hc : 0 < c) :
    ConvexFn fun y => M * max (G y) (-M / c) + c / 2 * (max (G y) (-M / c) * max (G y) (-M / c)) := by
  intro x y a h0 h1
  simp only [penalty_ineq_eq _ _ hc]
  have h2 := hG x y a h0 h1
  have hp : 0 ≤ max (M + c * G x) 0 := le_max_right _ _
  have hq : 0 ≤ max (M + c * G y) 0 := le_max_right _ _
  have h3 : max (M + c * G fun i => a * x i + (1 - a) * y i) 0 ≤ a * max (M + c * G x) 0 + (1 - a) * max (M + c * G y) 0 := by
    refine max_le ?_ (by nlinarith)
    have h4 := mul_le_mul_of_nonneg_left (le_max_left (M + c * G x) 0) h0
    have h5 := mul_le_mul_of_nonneg_left (le_max_left (M + c * G y) 0) (by linarith : 0 ≤ 1 - a)
    nlinarith [mul_le_mul_of_nonneg_left h2 hc.le]
  have h4 := pow_le_pow_left₀ (le_max_right _ _) h3 2
  have h5 : (a * max (M + c * G x) 0 + (1 - a) * max (M + c * G y) 0) ^ 2 ≤
      a * max (M + c * G x) 0 ^ 2 + (1 - a) * max (M + c * G y) 0 ^ 2 := by
    nlinarith [mul_nonneg (mul_nonneg h0 (by linarith : 0 ≤ 1 - a)) (sq_nonneg (max (M + c * G x) 0 - max (M + c * G y) 0))]
  have e : a * ((max (M + c * G x) 0 ^ 2 - M ^ 2) / (2 * c)) + (1 - a) * ((max (M + c * G y) 0 ^ 2 - M ^ 2) / (2 * c)) =
      (a * max (M + c * G x) 0 ^ 2 + (1 - a) * max (M + c * G y) 0 ^ 2 - M ^ 2) / (2 * c) := by ring
  rw [e]
  exact div_le_div_of_nonneg_right (by linarith) (by positivity)

/-- The augmented Lagrangian keeps the strong convexity of the objective. -/
theorem augLag_strong {p : Problem ℝ} (hp : IsConvexProblem N m n p) {ν : ℝ} (hs : StrongConvex ν fun y : Fin N → ℝ => p.f (List.ofFn y))
    (L : Fin m → ℝ) (M : Fin n → ℝ) {c : ℝ} (hc : 0 < c) :
    StrongConvex ν fun y : Fin N → ℝ => augLag p gplusHard (List.ofFn L) (List.ofFn M) c (List.ofFn y) := by
  obtain ⟨G, A, b, hG, hH, -, hfd, hGc, hGd⟩ := hp
  have hform : (fun y : Fin N → ℝ => augLag p gplusHard (List.ofFn L) (List.ofFn M) c (List.ofFn y)) = fun y =>
      p.f (List.ofFn y) + ∑ i, (L i * (A i y + b i) + c / 2 * ((A i y + b i) * (A i y + b i)))
        + ∑ j, (M j * max (G y j) (-M j / c) + c / 2 * (max (G y j) (-M j / c) * max (G y j) (-M j / c))) := by
    funext y
    simp only [augLag, hH, hG, gplusHard, zipWith_ofFn, map_ofFn', num_sum, List.sum_ofFn, num_add, num_mul, num_div,
      num_max, num_neg, num_ofNat, num_dot_ofFn, Finset.sum_add_distrib, Finset.mul_sum, mul_add]
    push_cast
    ring
  refine ⟨?_, fun x => (C11_augLag_derivative (fun y : Fin N → ℝ => List.ofFn y) p (fun y i => A i y + b i) G hH hG L M c hc x _ A _
      (hfd x).hasFDerivAt (fun i => (A i).hasFDerivAt.add_const (b i)) fun j => (hGd j x).hasFDerivAt).differentiableAt⟩
  have h1 := ConvexFn.sum Finset.univ (fun i (y : Fin N → ℝ) => L i * (A i y + b i) + c / 2 * ((A i y + b i) * (A i y + b i)))
    fun i _ => penalty_eq_convex (A i) (b i) (L i) hc
  have h2 := ConvexFn.sum Finset.univ (fun j (y : Fin N → ℝ) =>
    M j * max (G y j) (-M j / c) + c / 2 * (max (G y j) (-M j / c) * max (G y j) (-M j / c)))
    fun j _ => penalty_ineq_convex (ConvexFn.of_on (hGc j)) (M j) hc
  intro x y a h0 hle
  have e1 := h1 x y a h0 hle
  have e2 := h2 x y a h0 hle
  have e3 := hs.convex x y a h0 hle
  have key : ∀ z : Fin N → ℝ, augLag p gplusHard (List.ofFn L) (List.ofFn M) c (List.ofFn z) = _ := fun z => congrFun hform z
  simp only [key]
  simp only at e1 e2 e3
  linarith

/-- The inner objective is strongly convex in the scaled variables. -/
theorem innerObjective_strong {p : Problem ℝ} (hp : IsConvexProblem N m n p) {ν : ℝ}
    (hs : StrongConvex ν fun y : Fin N → ℝ => p.f (List.ofFn y)) {s : Status ℝ} (hc : 0 < s.finC) (hl : s.finLam.length = m)
    (hm : s.finMu.length = n) : StrongConvex (ν * s.xUnit ^ 2) fun w : Fin N → ℝ => innerObjective p gplusHard s (List.ofFn w) := by
  obtain ⟨L, hL⟩ := exists_ofFn hl
  obtain ⟨M, hM⟩ := exists_ofFn hm
  have h := (augLag_strong hp hs L M hc).scale s.xUnit
  rw [← hL, ← hM] at h
  have e : ∀ w : Fin N → ℝ, Num.vscale (List.ofFn w) s.xUnit = List.ofFn fun k => w k * s.xUnit := fun w => by
    rw [Num.vscale, map_ofFn']
    rfl
  simp only [innerObjective, e]
  exact h

theorem vsub_ofFn (x y : Fin N → ℝ) : Num.vsub (List.ofFn x) (List.ofFn y) = List.ofFn fun i => x i - y i := by
  rw [Num.vsub, zipWith_ofFn]
  rfl

theorem norm_vscale (x : Fin N → ℝ) {u : ℝ} (hu : 0 ≤ u) : Num.norm (List.ofFn fun i => x i * u) = u * Num.norm (List.ofFn x) := by
  have h : ∑ i, (x i * u) ^ 2 = u ^ 2 * ∑ i, x i ^ 2 := by
    rw [Finset.mul_sum]
    exact Finset.sum_congr rfl fun i _ => by ring
  rw [num_norm_ofFn, num_norm_ofFn, h, Real.sqrt_mul (sq_nonneg u), Real.sqrt_sq hu]

/-- **C137.** For a problem with affine equalities, convex inequalities and an objective that stays convex after subtracting `ν` times the
squared norm: whatever the multipliers, the penalty and the scale, the inner problem has exactly one minimiser `w`. It is the only point
with gradient zero, and the distance of any point to it is at most the norm of the gradient there over `2 * ν * xUnit ^ 2`. -/
theorem C137_inner_problem {p : Problem ℝ} (hp : IsConvexProblem N m n p) {ν : ℝ} (hν : 0 < ν)
    (hs : StrongConvex ν fun y : Fin N → ℝ => p.f (List.ofFn y)) {s : Status ℝ} (hc : 0 < s.finC) (hu : 0 < s.xUnit)
    (hl : s.finLam.length = m) (hm : s.finMu.length = n) :
    ∃ w : List ℝ, w.length = N ∧ (∀ v, v.length = N → innerObjective p gplusHard s w ≤ innerObjective p gplusHard s v) ∧
      ∀ v, v.length = N → ((∀ d ∈ realGrad (innerObjective p gplusHard s) v, d = 0) ↔ v = w) ∧
        2 * ν * s.xUnit ^ 2 * Num.norm (Num.vsub v w) ≤ Num.norm (realGrad (innerObjective p gplusHard s) v) := by
  have hF := innerObjective_strong hp hs hc hl hm
  have hν' : 0 < ν * s.xUnit ^ 2 := by positivity
  obtain ⟨w, hw, huniq⟩ := hF.exists_min hν'
  refine ⟨List.ofFn w, by simp, ?_, ?_⟩
  · intro v hv
    obtain ⟨v, rfl⟩ := exists_ofFn hv
    exact hw v
  · intro v hv
    obtain ⟨v, rfl⟩ := exists_ofFn hv
    have hD := (hF.diff v).hasFDerivAt
    have hb := hF.gradient hw hD
    have hg := realGrad_ofFn (f := innerObjective p gplusHard s) hD
    have hbound : 2 * ν * s.xUnit ^ 2 * Num.norm (Num.vsub (List.ofFn v) (List.ofFn w)) ≤
        Num.norm (realGrad (innerObjective p gplusHard s) (List.ofFn v)) := by
      rw [hg, vsub_ofFn, num_norm_ofFn, num_norm_ofFn, mul_assoc 2]
      exact hb
    refine ⟨⟨fun h0 => ?_, fun h => ?_⟩, hbound⟩
    · have h1 : Num.norm (realGrad (innerObjective p gplusHard s) (List.ofFn v)) = 0 := by
        rw [num_norm, Real.sqrt_eq_zero']
        refine le_of_eq (List.sum_eq_zero fun d hd => ?_)
        obtain ⟨e, he, rfl⟩ := List.mem_map.1 hd
        rw [h0 e he, mul_zero]
      rw [h1, vsub_ofFn, num_norm_ofFn] at hbound
      have h2 : Real.sqrt (∑ i, (v i - w i) ^ 2) = 0 := by
        refine le_antisymm ?_ (Real.sqrt_nonneg _)
        by_contra hlt
        push Not at hlt
        have := mul_pos (by positivity : 0 < 2 * ν * s.xUnit ^ 2) hlt
        linarith
      rw [Real.sqrt_eq_zero (Finset.sum_nonneg fun i _ => sq_nonneg _)] at h2
      congr 1
      funext i
      have h4 := (Finset.sum_eq_zero_iff_of_nonneg (fun i _ => sq_nonneg (v i - w i))).1 h2 i (Finset.mem_univ i)
      have := pow_eq_zero_iff (n := 2) (by norm_num) |>.1 h4
      linarith
    · obtain rfl := List.ofFn_injective h
      have hz : fderiv ℝ (fun w : Fin N → ℝ => innerObjective p gplusHard s (List.ofFn w)) v = 0 :=
        IsLocalMin.fderiv_eq_zero (Filter.Eventually.of_forall hw)
      rw [hg, hz]
      intro d hd
      obtain ⟨i, rfl⟩ := (List.mem_ofFn' _ _).1 hd
      rfl

/-- **C137 (outer iterations).** Whatever the optimiser does, the point after an outer iteration is at most the reported gradient norm over
`2 * ν * xUnit` away from the only minimiser of the augmented Lagrangian with the multipliers and the penalty of that iteration. -/
theorem C137_outer_step {opt : Optimizer ℝ} (hc : opt.CountContract) (hv : opt.ValueContract) (hgr : opt.GradContract realGrad)
    (hshape : opt.ShapeContract realGrad) {p : Problem ℝ} (hp : IsConvexProblem N m n p) {ν : ℝ} (hν : 0 < ν)
    (hs : StrongConvex ν fun y : Fin N → ℝ => p.f (List.ofFn y)) {tol : InnerTol ℝ} {s t : Status ℝ} (hx : s.finX.length = N)
    (hcp : 0 < s.finC) (hu : 0 < s.xUnit) (hl : s.finLam.length = m) (hm : s.finMu.length = n)
    (ht : outerBody opt realGrad p gplusHard tol s = some t) :
    ∃ x : List ℝ, x.length = N ∧
      (∀ y, y.length = N → augLag p gplusHard s.finLam s.finMu s.finC x ≤ augLag p gplusHard s.finLam s.finMu s.finC y) ∧
      2 * ν * s.xUnit * Num.norm (Num.vsub t.finX x) ≤ t.finGradLAug := by
  obtain ⟨w, hwl, hwmin, hwall⟩ := C137_inner_problem hp hν hs hcp hu hl hm
  obtain ⟨i, rfl, hrun, -⟩ := outerBody_spec hc ht
  obtain ⟨k, xs, us, ss, -, -, hix, -, hgrad, -⟩ := C84_inner_run opt hc hv realGrad hgr _ _ _ i hrun
  have hil : i.x.length = N := by rw [runOpt_length hshape hrun, Num.vdivs, List.length_map, hx]
  rw [← hix] at hgrad
  refine ⟨Num.vscale w s.xUnit, by rw [Num.vscale, List.length_map, hwl], fun y hy => ?_, ?_⟩
  · have h1 := hwmin (Num.vdivs y s.xUnit) (by rw [Num.vdivs, List.length_map, hy])
    simp only [innerObjective] at h1
    have h2 : Num.vscale (Num.vdivs y s.xUnit) s.xUnit = y := by
      rw [Num.vscale, Num.vdivs, List.map_map]
      conv_rhs => rw [← List.map_id y]
      refine List.map_congr_left fun t _ => ?_
      simp [hu.ne']
    rwa [h2] at h1
  · have h1 := (hwall i.x hil).2
    rw [← hgrad] at h1
    obtain ⟨z, hz⟩ := exists_ofFn hil
    obtain ⟨w, rfl⟩ := exists_ofFn hwl
    have hfin : (outerUpdate p gplusHard s i).finX = Num.vscale i.x s.xUnit := rfl
    have hfl : (outerUpdate p gplusHard s i).finGradLAug = Num.norm i.grad := rfl
    have e : ∀ w : Fin N → ℝ, Num.vscale (List.ofFn w) s.xUnit = List.ofFn fun k => w k * s.xUnit := fun w => by
      rw [Num.vscale, map_ofFn']
      rfl
    rw [hz] at h1
    rw [hfin, hfl, hz, e, e, vsub_ofFn]
    rw [vsub_ofFn] at h1
    have e2 : (fun i => z i * s.xUnit - w i * s.xUnit) = fun i => (z i - w i) * s.xUnit := by
      funext i
      ring
    rw [e2, norm_vscale _ hu.le]
    refine le_trans (le_of_eq ?_) h1
    ring

/-- **C137 (exact inner solves).** For such problems the optimiser that moves to a stationary point if there is one solves every inner
problem exactly. -/
theorem C137_exact_inner {p : Problem ℝ} (hp : IsConvexProblem N m n p) {ν : ℝ} (hν : 0 < ν)
    (hs : StrongConvex ν fun y : Fin N → ℝ => p.f (List.ofFn y)) (tol : InnerTol ℝ) (s t : Status ℝ) (hx : s.finX.length = N)
    (hcp : 0 < s.finC) (hu : 0 < s.xUnit) (hl : s.finLam.length = m) (hm : s.finMu.length = n)
    (ht : outerBody exactOptimizer realGrad p gplusHard tol s = some t) : t.finGradLAug = 0 := by
  obtain ⟨w, hwl, -, hwall⟩ := C137_inner_problem hp hν hs hcp hu hl hm
  obtain ⟨i, rfl, hrun, -⟩ := outerBody_spec exactOptimizer_count ht
  obtain ⟨k, xs, us, ss, -, hrun', hix, -, hgrad, -⟩ :=
    C84_inner_run exactOptimizer exactOptimizer_count exactOptimizer_value realGrad (fun _ _ _ _ _ => rfl) _ _ _ i hrun
  have hlen : ∀ j ≤ k + 1, (xs j).length = N := by
    intro j hj
    induction j with
    | zero => rw [hrun'.start, Num.vdivs, List.length_map, hx]
    | succ j ih =>
      have h1 := hrun'.update j (by omega)
      have h2 : us j = exactStep (innerObjective p gplusHard s) (xs j) := (congrArg Prod.fst h1).symm
      rw [hrun'.step j (by omega), h2, Num.vadd, List.length_zipWith, exactStep_length, ih (by omega), min_self]
  have hfl : (outerUpdate p gplusHard s i).finGradLAug = Num.norm i.grad := rfl
  have h1 := hrun'.update k (by omega)
  have h2 : us k = exactStep (innerObjective p gplusHard s) (xs k) := (congrArg Prod.fst h1).symm
  rw [hfl, hgrad, hrun'.step k (by omega), h2]
  have hex : ∃ u : List ℝ, u.length = (xs k).length ∧ ∀ d ∈ realGrad (innerObjective p gplusHard s) (Num.vadd (xs k) u), d = 0 := by
    obtain ⟨z, hz⟩ := exists_ofFn (hlen k (by omega))
    obtain ⟨w, rfl⟩ := exists_ofFn hwl
    refine ⟨List.ofFn fun i => w i - z i, by rw [hz]; simp, ?_⟩
    have e : Num.vadd (xs k) (List.ofFn fun i => w i - z i) = List.ofFn w := by
      rw [hz, Num.vadd, zipWith_ofFn]
      congr 1
      funext i
      simp
    rw [e]
    exact (hwall (List.ofFn w) (by simp)).1.2 rfl
  have hz : ∀ d ∈ realGrad (innerObjective p gplusHard s) (Num.vadd (xs k) (exactStep (innerObjective p gplusHard s) (xs k))), d = 0 := by
    unfold exactStep
    rw [dif_pos hex]
    exact hex.choose_spec.2
  rw [num_norm, Real.sqrt_eq_zero']
  refine le_of_eq (List.sum_eq_zero fun d hd => ?_)
  obtain ⟨e, he, rfl⟩ := List.mem_map.1 hd
  rw [hz e he, mul_zero]

end Verif
