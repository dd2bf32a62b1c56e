import Verif.Props.SolverTrace
import Verif.Props.SolverOuter
import Verif.Props.Multipliers
import Verif.Lemmas.Shape
import Verif.Spec.Constraint
import Mathlib.Analysis.Convex.Deriv
import Mathlib.Data.List.GetD
import Mathlib.Analysis.Real.Sqrt
import Mathlib.Analysis.Calculus.Deriv.Pi
import Mathlib.Analysis.Calculus.FDeriv.Pi

/-!
# C108: the returned status bounds the distance to the optimum
-/

namespace Verif

/-- A differentiable convex function lies above its tangents. -/
theorem convex_tangent {E : Type} [NormedAddCommGroup E] [NormedSpace ℝ E] {F : E → ℝ} (hF : ConvexOn ℝ Set.univ F) {x : E}
    {D : E →L[ℝ] ℝ} (hD : HasFDerivAt F D x) (y : E) : F x + D (y - x) ≤ F y := by
  have hline : ConvexOn ℝ Set.univ fun t : ℝ => F (AffineMap.lineMap x y t) := by
    have := hF.comp_affineMap (AffineMap.lineMap x y : ℝ →ᵃ[ℝ] E)
    rw [Set.preimage_univ] at this
    exact this
  have hd : HasDerivAt (fun t : ℝ => F (AffineMap.lineMap x y t)) (D (y - x)) 0 := by
    have h1 : HasDerivAt (fun t : ℝ => (AffineMap.lineMap x y t : E)) (y - x) 0 := AffineMap.hasDerivAt_lineMap
    have h2 : HasFDerivAt F D (AffineMap.lineMap x y (0 : ℝ)) := by simpa using hD
    exact h2.comp_hasDerivAt (0 : ℝ) h1
  have := hline.le_slope_of_hasDerivAt (Set.mem_univ 0) (Set.mem_univ 1) zero_lt_one hd
  simp only [slope_def_field, AffineMap.lineMap_apply_one, AffineMap.lineMap_apply_zero, sub_zero, div_one] at this
  linarith

/-- The list of partial derivatives in terms of the derivative. -/
theorem realGrad_ofFn {N : ℕ} {f : List ℝ → ℝ} {x : Fin N → ℝ} {D : (Fin N → ℝ) →L[ℝ] ℝ}
    (hD : HasFDerivAt (fun y : Fin N → ℝ => f (List.ofFn y)) D x) :
    realGrad f (List.ofFn x) = List.ofFn fun i => D (Pi.single i 1) := by
  unfold realGrad
  apply List.ext_getElem
  · simp
  intro i h1 h2
  have hi : i < N := by simpa using h2
  simp only [List.getElem_map, List.getElem_range, List.getElem_ofFn]
  have hset : ∀ t, (List.ofFn x).set i t = List.ofFn (Function.update x ⟨i, hi⟩ t) := by
    intro t
    apply List.ext_getElem
    · simp
    intro j h3 h4
    rw [List.getElem_set, List.getElem_ofFn, List.getElem_ofFn]
    by_cases hij : i = j
    · subst hij
      simp
    · rw [if_neg hij, Function.update_of_ne]
      intro h
      exact hij (Fin.mk.inj_iff.1 h).symm
  have hget : (List.ofFn x).getD i 0 = x ⟨i, hi⟩ := by
    rw [List.getD_eq_getElem _ _ (by simpa using hi), List.getElem_ofFn]
  simp only [hset, hget]
  have h3 := hasDerivAt_update x ⟨i, hi⟩ (x ⟨i, hi⟩)
  have h4 : HasFDerivAt (fun y : Fin N → ℝ => f (List.ofFn y)) D (Function.update x ⟨i, hi⟩ (x ⟨i, hi⟩)) := by
    rwa [Function.update_eq_self]
  exact (h4.comp_hasDerivAt (x ⟨i, hi⟩) h3).deriv

theorem clm_eq_sum {N : ℕ} (D : (Fin N → ℝ) →L[ℝ] ℝ) (v : Fin N → ℝ) : D v = ∑ i, D (Pi.single i 1) * v i := by
  conv_lhs => rw [pi_eq_sum_univ' v]
  rw [map_sum]
  refine Finset.sum_congr rfl fun i _ => ?_
  rw [map_smul, smul_eq_mul, mul_comm]

theorem num_norm_ofFn {N : ℕ} (v : Fin N → ℝ) : Num.norm (List.ofFn v) = Real.sqrt (∑ i, v i ^ 2) := by
  rw [num_norm, map_ofFn', List.sum_ofFn]
  congr 1
  exact Finset.sum_congr rfl fun i _ => (sq _).symm

/-- What the outer loop keeps: the length of the point, the signs of the multipliers, penalty and scale. -/
structure GapInv (N m n : ℕ) (s : Status ℝ) : Prop where
  x : s.finX.length = N
  c_pos : 0 < s.finC
  unit_pos : 0 < s.xUnit
  lam : s.finLam.length = m
  mu : s.finMu.length = n

theorem unit_outerUpdate (p : Problem ℝ) (s : Status ℝ) (i : InnerResult ℝ) : 0 < (outerUpdate p gplusHard s i).xUnit := by
  show 0 < (if Num.eq (Num.norm (Num.vscale i.x s.xUnit)) (Num.ofNat 0) then Num.ofNat 1 else Num.norm (Num.vscale i.x s.xUnit) : ℝ)
  split
  · simp
  · rename_i h
    refine lt_of_le_of_ne (num_norm_nonneg _) fun h0 => h ?_
    simp [← h0]

theorem GapInv.step {N m n : ℕ} {p : Problem ℝ} (hg : ∀ x, x.length = N → (p.g x).length = n)
    (hh : ∀ x, x.length = N → (p.h x).length = m) (hgrow : 1 ≤ p.cGrowth) {s : Status ℝ} (hs : GapInv N m n s)
    {i : InnerResult ℝ} (hi : i.x.length = s.finX.length) : GapInv N m n (outerUpdate p gplusHard s i) := by
  have hx : (Num.vscale i.x s.xUnit).length = N := by rw [Num.vscale, List.length_map, hi, hs.x]
  refine ⟨hx, ?_, unit_outerUpdate p s i, ?_, ?_⟩
  · rcases finC_outerUpdate p gplusHard s i with h | ⟨h, -⟩
    · rw [h]; exact hs.c_pos
    · rw [h]; exact mul_pos hs.c_pos (by linarith)
  · simp [outerUpdate, Num.vadd, hs.lam, hh _ hx]
  · simp [outerUpdate, Num.vadd, gplusHard, hs.mu, hg _ hx]

/-- One outer iteration: the new multipliers, and the Lagrangian with the new multipliers is nearly minimal at the new point. -/
theorem outer_step_lagrangian {opt : Optimizer ℝ} (hc : opt.CountContract) (hv : opt.ValueContract) (hgr : opt.GradContract realGrad)
    (hshape : opt.ShapeContract realGrad) {N m n : ℕ} {p : Problem ℝ}
    {G : (Fin N → ℝ) → Fin n → ℝ} (hG : ∀ y, p.g (List.ofFn y) = List.ofFn (G y))
    {A : Fin m → (Fin N → ℝ) →L[ℝ] ℝ} {b : Fin m → ℝ} (hH : ∀ y, p.h (List.ofFn y) = List.ofFn fun i => A i y + b i)
    (hf : ConvexOn ℝ Set.univ fun y : Fin N → ℝ => p.f (List.ofFn y))
    (hfd : Differentiable ℝ fun y : Fin N → ℝ => p.f (List.ofFn y))
    (hGc : ∀ j, ConvexOn ℝ Set.univ fun y => G y j) (hGd : ∀ j, Differentiable ℝ fun y => G y j) (hgrow : 1 ≤ p.cGrowth)
    {tol : InnerTol ℝ} {s t : Status ℝ} (hinv : GapInv N m n s) (ht : outerBody opt realGrad p gplusHard tol s = some t) :
    GapInv N m n t ∧ ∃ (x : Fin N → ℝ) (L : Fin m → ℝ) (M : Fin n → ℝ), s.finLam = List.ofFn L ∧ s.finMu = List.ofFn M ∧
      t.finX = List.ofFn x ∧ t.finF = p.f (List.ofFn x) ∧ t.finG = List.ofFn (G x) ∧
      t.finH = List.ofFn (fun i => A i x + b i) ∧ t.finLam = List.ofFn (fun i => L i + s.finC * (A i x + b i)) ∧
      t.finMu = List.ofFn (fun j => max (M j + s.finC * G x j) 0) ∧
      ∀ y : Fin N → ℝ, p.f (List.ofFn x) + ∑ i, (L i + s.finC * (A i x + b i)) * (A i x + b i)
          + ∑ j, max (M j + s.finC * G x j) 0 * G x j ≤
        p.f (List.ofFn y) + ∑ i, (L i + s.finC * (A i x + b i)) * (A i y + b i) + ∑ j, max (M j + s.finC * G x j) 0 * G y j
          + t.finGradLAug * Num.norm (Num.vsub (List.ofFn y) t.finX) / s.xUnit := by
  have hgl : ∀ x : List ℝ, x.length = N → (p.g x).length = n := by
    intro x hx
    obtain ⟨v, rfl⟩ := exists_ofFn hx
    simp [hG]
  have hhl : ∀ x : List ℝ, x.length = N → (p.h x).length = m := by
    intro x hx
    obtain ⟨v, rfl⟩ := exists_ofFn hx
    simp [hH]
  obtain ⟨i, rfl, hrun, -⟩ := outerBody_spec hc ht
  obtain ⟨k, xs, us, ss, -, -, hix, -, hgrad, -⟩ := C84_inner_run opt hc hv realGrad hgr _ _ _ i hrun
  have hil : i.x.length = N := by rw [runOpt_length hshape hrun, Num.vdivs, List.length_map, hinv.x]
  rw [← hix] at hgrad
  obtain ⟨z, hz⟩ := exists_ofFn hil
  obtain ⟨L, hL⟩ := exists_ofFn hinv.lam
  obtain ⟨M, hM⟩ := exists_ofFn hinv.mu
  have hu := hinv.unit_pos
  obtain ⟨u, hu'⟩ : ∃ u, u = s.xUnit := ⟨_, rfl⟩
  obtain ⟨c, hc'⟩ : ∃ c, c = s.finC := ⟨_, rfl⟩
  have hcp : 0 < c := hc' ▸ hinv.c_pos
  -- the new point
  let x : Fin N → ℝ := fun k => z k * u
  have hvs : ∀ w : Fin N → ℝ, Num.vscale (List.ofFn w) s.xUnit = List.ofFn fun k => w k * u := by
    intro w
    rw [← hu', Num.vscale, map_ofFn']
    rfl
  have hxk : Num.vscale i.x s.xUnit = List.ofFn x := by rw [hz, hvs]
  have hfin : (outerUpdate p gplusHard s i).finX = List.ofFn x := hxk
  have hfF : (outerUpdate p gplusHard s i).finF = p.f (List.ofFn x) := by rw [← hxk]; rfl
  have hfG : (outerUpdate p gplusHard s i).finG = List.ofFn (G x) := by rw [← hG, ← hxk]; rfl
  have hfH : (outerUpdate p gplusHard s i).finH = List.ofFn fun i => A i x + b i := by rw [← hH, ← hxk]; rfl
  have hfMu : (outerUpdate p gplusHard s i).finMu = List.ofFn fun j => max (M j + c * G x j) 0 := by
    rw [hc']
    exact finMu_outerUpdate p s i M (G x) hinv.c_pos hM (by rw [hxk, hG])
  have hfLam : (outerUpdate p gplusHard s i).finLam = List.ofFn fun j => L j + c * (A j x + b j) := by
    have : (outerUpdate p gplusHard s i).finLam =
        Num.vadd s.finLam ((p.h (Num.vscale i.x s.xUnit)).map fun t => Num.mul s.finC t) := rfl
    rw [this, hxk, hH, hL, map_ofFn', Num.vadd, zipWith_ofFn, ← hc']
    rfl
  -- derivative of the augmented Lagrangian
  let D : (Fin N → ℝ) →L[ℝ] ℝ := fderiv ℝ (fun y : Fin N → ℝ => p.f (List.ofFn y)) x
    + ∑ i, (L i + c * (A i x + b i)) • A i + ∑ j, (max (M j + c * G x j) 0) • fderiv ℝ (fun y => G y j) x
  have hD : HasFDerivAt (fun y : Fin N → ℝ => augLag p gplusHard s.finLam s.finMu s.finC (List.ofFn y)) D x := by
    rw [hL, hM, ← hc']
    exact C11_augLag_derivative (fun y : Fin N → ℝ => List.ofFn y) p (fun y i => A i y + b i) G hH hG L M c hcp x _ A _
      (hfd x).hasFDerivAt (fun i => (A i).hasFDerivAt.add_const (b i)) fun j => (hGd j x).hasFDerivAt
  have hinner : HasFDerivAt (fun w : Fin N → ℝ => innerObjective p gplusHard s (List.ofFn w)) (u • D) z := by
    have h1 : (fun w : Fin N → ℝ => innerObjective p gplusHard s (List.ofFn w)) =
        (fun y : Fin N → ℝ => augLag p gplusHard s.finLam s.finMu s.finC (List.ofFn y)) ∘ fun w => u • w := by
      funext w
      simp only [innerObjective, Function.comp, hvs]
      congr 2
      funext k
      exact mul_comm _ _
    have h2 : HasFDerivAt (fun w : Fin N → ℝ => u • w) (u • ContinuousLinearMap.id ℝ (Fin N → ℝ)) z :=
      (hasFDerivAt_id z).const_smul u
    have h3 : x = u • z := by
      funext k
      exact mul_comm _ _
    rw [h1]
    rw [h3] at hD
    have h4 := hD.comp z h2
    refine h4.congr_fderiv ?_
    ext v
    simp
  have hgradL : i.grad = List.ofFn fun k => u * D (Pi.single k 1) := by
    rw [hgrad, hz, realGrad_ofFn hinner]
    rfl
  refine ⟨hinv.step hgl hhl hgrow (by rw [hil, hinv.x]), x, L, M, hL, hM, hfin, hfF, hfG, hfH, hc' ▸ hfLam, hc' ▸ hfMu, ?_⟩
  intro y
  rw [hfin, ← hc']
  -- Cauchy-Schwarz
  have hcs : -(u * D (y - x)) ≤ Num.norm i.grad * Num.norm (Num.vsub (List.ofFn y) (List.ofFn x)) := by
    have h1 : Num.vsub (List.ofFn y) (List.ofFn x) = List.ofFn fun k => (y - x) k := by
      rw [Num.vsub, zipWith_ofFn]
      rfl
    rw [h1, hgradL, num_norm_ofFn, num_norm_ofFn]
    have h2 := Real.sum_mul_le_sqrt_mul_sqrt Finset.univ (fun k => u * D (Pi.single k 1)) fun k => -((y - x) k)
    simp only [neg_sq] at h2
    refine le_trans (le_of_eq ?_) h2
    rw [clm_eq_sum D (y - x), Finset.mul_sum, ← Finset.sum_neg_distrib]
    exact Finset.sum_congr rfl fun k _ => by ring
  -- tangents
  have hft := convex_tangent hf (hfd x).hasFDerivAt y
  have hGt : ∀ j, G x j + fderiv ℝ (fun y => G y j) x (y - x) ≤ G y j := fun j =>
    convex_tangent (hGc j) (hGd j x).hasFDerivAt y
  have hDv : D (y - x) = fderiv ℝ (fun y : Fin N → ℝ => p.f (List.ofFn y)) x (y - x)
      + ∑ i, (L i + c * (A i x + b i)) * A i (y - x)
      + ∑ j, (max (M j + c * G x j) 0) * fderiv ℝ (fun y => G y j) x (y - x) := by
    simp [D]
  have hA : ∑ i, (L i + c * (A i x + b i)) * A i (y - x) =
      ∑ i, (L i + c * (A i x + b i)) * (A i y + b i) - ∑ i, (L i + c * (A i x + b i)) * (A i x + b i) := by
    rw [← Finset.sum_sub_distrib]
    refine Finset.sum_congr rfl fun i _ => ?_
    rw [map_sub]
    ring
  have hB : ∑ j, (max (M j + c * G x j) 0) * fderiv ℝ (fun y => G y j) x (y - x) ≤
      ∑ j, (max (M j + c * G x j) 0) * G y j - ∑ j, (max (M j + c * G x j) 0) * G x j := by
    rw [← Finset.sum_sub_distrib]
    refine Finset.sum_le_sum fun j _ => ?_
    have h1 := hGt j
    have h3 : 0 ≤ max (M j + c * G x j) 0 := le_max_right _ _
    nlinarith
  have hfl : (outerUpdate p gplusHard s i).finGradLAug = Num.norm i.grad := rfl
  rw [hfl]
  have hdiv : -D (y - x) ≤ Num.norm i.grad * Num.norm (Num.vsub (List.ofFn y) (List.ofFn x)) / s.xUnit := by
    rw [le_div_iff₀ hu, ← hu']
    linarith
  linarith

/-- **C108.** For a convex differentiable objective, convex differentiable inequality functions and affine equality functions: the
returned objective exceeds the value at any feasible point `y` by at most the reported gradient norm times the distance of `y`
divided by the scale of the last inner solve, minus the products of reported multipliers and constraint values. This needs no
convergence. -/
theorem C108_gap_bound {opt : Optimizer ℝ} (hc : opt.CountContract) (hv : opt.ValueContract) (hgr : opt.GradContract realGrad)
    (hshape : opt.ShapeContract realGrad) {N m n : ℕ} {p : Problem ℝ} {x0 : List ℝ} (hx0 : x0.length = N)
    {G : (Fin N → ℝ) → Fin n → ℝ} (hG : ∀ y, p.g (List.ofFn y) = List.ofFn (G y))
    {A : Fin m → (Fin N → ℝ) →L[ℝ] ℝ} {b : Fin m → ℝ} (hH : ∀ y, p.h (List.ofFn y) = List.ofFn fun i => A i y + b i)
    (hf : ConvexOn ℝ Set.univ fun y : Fin N → ℝ => p.f (List.ofFn y))
    (hfd : Differentiable ℝ fun y : Fin N → ℝ => p.f (List.ofFn y))
    (hGc : ∀ j, ConvexOn ℝ Set.univ fun y => G y j) (hGd : ∀ j, Differentiable ℝ fun y => G y j)
    (hlam : p.lamInit.length = m) (hmu : p.muInit.length = n) (hgrow : 1 ≤ p.cGrowth) (hcinit : 0 < p.cInit)
    {r : Status ℝ} (hr : solveConstrained opt realGrad p gplusHard x0 = some r) :
    ∃ s, outerLoop opt realGrad p gplusHard x0 = some s ∧ 0 < s.xUnit ∧
      ∀ y : List ℝ, y.length = N → AllNonpos (p.g y) → AllZero (p.h y) →
        r.finF ≤ p.f y + r.finGradLAug * Num.norm (Num.vsub y r.finX) / s.xUnit - Num.dot r.finMu r.finG
          - Num.dot r.finLam r.finH := by
  obtain ⟨s, hs⟩ := outerLoop_terminates (opt := opt) (gradOp := realGrad) (p := p) (gplus := gplusHard) (x0 := x0) hc
  have hinv : GapInv N m n s := by
    refine outerLoop_invariant (GapInv N m n) hs ⟨hx0, hcinit, ?_, hlam, hmu⟩ ?_
    · simp [initStatus]
    · intro s t hs' _ hst
      exact (outer_step_lagrangian hc hv hgr hshape hG hH hf hfd hGc hGd hgrow hs' hst).1
  simp only [solveConstrained, hs, Option.bind_some] at hr
  obtain ⟨-, x, L, M, -, -, hfin, hfF, hfG, hfH, hfLam, hfMu, hstep⟩ :=
    outer_step_lagrangian hc hv hgr hshape hG hH hf hfd hGc hGd hgrow hinv hr
  refine ⟨s, hs, hinv.unit_pos, ?_⟩
  intro y hy hyg hyh
  obtain ⟨y, rfl⟩ := exists_ofFn hy
  rw [hG] at hyg
  rw [hH] at hyh
  have hGy : ∀ j, G y j ≤ 0 := fun j => hyg _ (by rw [List.mem_ofFn']; exact ⟨j, rfl⟩)
  have hHy : ∀ j, A j y + b j = 0 := fun j => hyh _ (by rw [List.mem_ofFn']; exact ⟨j, rfl⟩)
  have h1 := hstep y
  have hA : ∑ i, (L i + s.finC * (A i x + b i)) * (A i y + b i) = 0 :=
    Finset.sum_eq_zero fun i _ => by rw [hHy, mul_zero]
  have hB : ∑ j, max (M j + s.finC * G x j) 0 * G y j ≤ 0 :=
    Finset.sum_nonpos fun j _ => mul_nonpos_of_nonneg_of_nonpos (le_max_right _ _) (hGy j)
  rw [hfF, hfG, hfH, hfMu, hfLam, num_dot_ofFn, num_dot_ofFn]
  linarith

/-- **C108 (exact convergence).** If the reported gradient is zero, the reported constraint values are feasible and the products of
multipliers and inequality values vanish, the returned point is a global minimiser among the feasible points. -/
theorem C108_converged_is_minimiser {opt : Optimizer ℝ} (hc : opt.CountContract) (hv : opt.ValueContract)
    (hgr : opt.GradContract realGrad) (hshape : opt.ShapeContract realGrad) {N m n : ℕ} {p : Problem ℝ} {x0 : List ℝ}
    (hx0 : x0.length = N) {G : (Fin N → ℝ) → Fin n → ℝ} (hG : ∀ y, p.g (List.ofFn y) = List.ofFn (G y))
    {A : Fin m → (Fin N → ℝ) →L[ℝ] ℝ} {b : Fin m → ℝ} (hH : ∀ y, p.h (List.ofFn y) = List.ofFn fun i => A i y + b i)
    (hf : ConvexOn ℝ Set.univ fun y : Fin N → ℝ => p.f (List.ofFn y))
    (hfd : Differentiable ℝ fun y : Fin N → ℝ => p.f (List.ofFn y))
    (hGc : ∀ j, ConvexOn ℝ Set.univ fun y => G y j) (hGd : ∀ j, Differentiable ℝ fun y => G y j)
    (hlam : p.lamInit.length = m) (hmu : p.muInit.length = n) (hgrow : 1 ≤ p.cGrowth) (hcinit : 0 < p.cInit)
    {r : Status ℝ} (hr : solveConstrained opt realGrad p gplusHard x0 = some r) (h0 : r.finGradLAug = 0)
    (h1 : AllNonpos r.finG) (h2 : AllZero r.finH) (h3 : Num.dot r.finMu r.finG = 0) :
    r.finX.length = N ∧ AllNonpos (p.g r.finX) ∧ AllZero (p.h r.finX) ∧
      ∀ y : List ℝ, y.length = N → AllNonpos (p.g y) → AllZero (p.h y) → p.f r.finX ≤ p.f y := by
  obtain ⟨hF, hG', hH', -⟩ := C08_status_consistent opt hc realGrad p gplusHard x0 r hr
  obtain ⟨s, -, -, hy⟩ := C108_gap_bound hc hv hgr hshape hx0 hG hH hf hfd hGc hGd hlam hmu hgrow hcinit hr
  refine ⟨by rw [solve_length hshape hr, hx0], hG' ▸ h1, hH' ▸ h2, fun y hyl hyg hyh => ?_⟩
  have h4 : Num.dot r.finLam r.finH = 0 := by
    unfold Num.dot
    rw [num_sum]
    apply List.sum_eq_zero
    intro v hv
    obtain ⟨k, hk, rfl⟩ := List.mem_iff_getElem.1 hv
    rw [List.getElem_zipWith, h2 _ (List.getElem_mem _), num_mul, mul_zero]
  have := hy y hyl hyg hyh
  rw [h0, h3, h4, zero_mul, zero_div] at this
  rw [← hF]
  linarith

/-- Minimise `x^2 + y^2` with `1 - x <= 0` and `x - 2 y = 0`. -/
noncomputable def gapProblem : Problem ℝ where
  f v := (v.map fun t => t * t).sum
  g v := [1 - v.getD 0 0]
  h v := [v.getD 0 0 - 2 * v.getD 1 0]
  cInit := 1
  cGrowth := 2
  lamInit := [0]
  muInit := [0]
  xstopOuter := 1
  ctolOuter := 1
  fstopInner := 1
  xstopInner := 1
  gtolInner := 1
  fstopInnerLast := 1
  xstopInnerLast := 1
  gtolInnerLast := 1
  maxiterTot := 5
  maxiterInner := 5
  cSafe := 100

/-- The bound applies to a small problem with two unknowns, solved by gradient descent, and the feasible set is not empty. -/
example : ∃ r s, solveConstrained (gradientDescent realGrad (1 / 4)) realGrad gapProblem gplusHard [3, 3] = some r ∧ 0 < s ∧
    ∀ y : List ℝ, y.length = 2 → AllNonpos (gapProblem.g y) → AllZero (gapProblem.h y) →
      r.finF ≤ gapProblem.f y + r.finGradLAug * Num.norm (Num.vsub y r.finX) / s - Num.dot r.finMu r.finG
        - Num.dot r.finLam r.finH := by
  obtain ⟨_, _, r, _, _, _, hr, _⟩ := C04_outer_terminates (gradientDescent realGrad (1 / 4)) (gradientDescent_count _ _) realGrad
    gapProblem gplusHard [3, 3]
  have hfform : (fun y : Fin 2 → ℝ => gapProblem.f (List.ofFn y)) = fun y => y 0 * y 0 + y 1 * y 1 := by
    funext y
    simp [gapProblem, List.ofFn_succ]
  have hsq : ∀ k : Fin 2, ConvexOn ℝ Set.univ fun y : Fin 2 → ℝ => y k * y k := by
    intro k
    refine ⟨convex_univ, fun x _ y _ a b ha hb hab => ?_⟩
    simp only [Pi.add_apply, Pi.smul_apply, smul_eq_mul]
    have hb' : b = 1 - a := by linarith
    subst hb'
    nlinarith [mul_nonneg (mul_nonneg ha hb) (mul_self_nonneg (x k - y k))]
  obtain ⟨s, -, hs, h⟩ := C108_gap_bound (opt := gradientDescent realGrad (1 / 4)) (gradientDescent_count _ _)
    (gradientDescent_value _ _) (fun _ _ _ _ _ => rfl)
    (gradientDescent_shape realGrad (fun f p => by simp [realGrad]) _) (N := 2) (m := 1) (n := 1) (p := gapProblem)
    (x0 := [3, 3]) rfl (G := fun y _ => 1 - y 0) (by intro y; simp [gapProblem, List.ofFn_succ])
    (A := fun _ => ContinuousLinearMap.proj 0 - (2 : ℝ) • ContinuousLinearMap.proj 1) (b := fun _ => 0)
    (by intro y; simp [gapProblem, List.ofFn_succ])
    (by rw [hfform]; exact (hsq 0).add (hsq 1)) (by rw [hfform]; fun_prop)
    (by
      intro _
      refine ⟨convex_univ, fun x _ y _ a b ha hb hab => le_of_eq ?_⟩
      simp only [Pi.add_apply, Pi.smul_apply, smul_eq_mul]
      linear_combination (-1 : ℝ) * hab)
    (by intro _; fun_prop) rfl rfl (by simp [gapProblem]) (by simp [gapProblem]) hr
  exact ⟨r, s.xUnit, hr, hs, h⟩

example : AllNonpos (gapProblem.g [4, 2]) ∧ AllZero (gapProblem.h [4, 2]) := by
  constructor
  · simp [gapProblem, AllNonpos]
  · simp [gapProblem, AllZero]
    norm_num

end Verif
