import Verif.Props.GapBound
import Verif.Spec.Saddle
import Mathlib.Algebra.BigOperators.Field

/-!
# C111: on convex problems the violations fall like the inverse of the penalty weight
-/

namespace Verif

/-- The problem has a convex differentiable objective, convex differentiable inequality functions and affine equality functions. -/
def IsConvexProblem (N m n : ℕ) (p : Problem ℝ) : Prop :=
  ∃ (G : (Fin N → ℝ) → Fin n → ℝ) (A : Fin m → (Fin N → ℝ) →L[ℝ] ℝ) (b : Fin m → ℝ),
    (∀ y, p.g (List.ofFn y) = List.ofFn (G y)) ∧ (∀ y, p.h (List.ofFn y) = List.ofFn fun i => A i y + b i) ∧
    (ConvexOn ℝ Set.univ fun y : Fin N → ℝ => p.f (List.ofFn y)) ∧
    (Differentiable ℝ fun y : Fin N → ℝ => p.f (List.ofFn y)) ∧
    (∀ j, ConvexOn ℝ Set.univ fun y => G y j) ∧ ∀ j, Differentiable ℝ fun y => G y j

theorem listDot_ofFn {n : ℕ} (a b : Fin n → ℝ) : listDot (List.ofFn a) (List.ofFn b) = ∑ i, a i * b i := by
  rw [listDot, zipWith_ofFn, List.sum_ofFn]

theorem sqDist_ofFn {n : ℕ} (a b : Fin n → ℝ) : sqDist (List.ofFn a) (List.ofFn b) = ∑ i, (a i - b i) ^ 2 := by
  rw [sqDist, zipWith_ofFn, List.sum_ofFn]

theorem sumSq_ofFn {n : ℕ} (a : Fin n → ℝ) : sumSq (List.ofFn a) = ∑ i, a i ^ 2 := by
  rw [sumSq, map_ofFn', List.sum_ofFn]

theorem sqViolation_ofFn {m n : ℕ} (g : Fin n → ℝ) (h : Fin m → ℝ) :
    sqViolation (List.ofFn g) (List.ofFn h) = ∑ j, max (g j) 0 ^ 2 + ∑ i, h i ^ 2 := by
  rw [sqViolation, map_ofFn', sumSq_ofFn, sumSq_ofFn]

/-- The error that an inexact inner solve adds: the reported gradient norm times the distance to the saddle point, divided by the
scale of the solve. -/
noncomputable def solveError (xs : List ℝ) (s t : Status ℝ) : ℝ :=
  t.finGradLAug * Num.norm (Num.vsub xs t.finX) / s.xUnit

/-- The squared distance of the multipliers of a status to given ones. -/
noncomputable def multDist (lam mu : List ℝ) (s : Status ℝ) : ℝ := sqDist s.finLam lam + sqDist s.finMu mu

/-- **C111 (one step).** One outer iteration brings the multipliers closer to those of a saddle point by at least the squared
violation times the squared penalty weight, up to the error of the inner solve. -/
theorem C111_step {opt : Optimizer ℝ} (hc : opt.CountContract) (hv : opt.ValueContract) (hgr : opt.GradContract realGrad)
    (hshape : opt.ShapeContract realGrad) {N m n : ℕ} {p : Problem ℝ} (hp : IsConvexProblem N m n p) (hgrow : 1 ≤ p.cGrowth)
    {xs lam mu : List ℝ} (hsad : IsSaddle N p.f p.g p.h xs lam mu)
    {tol : InnerTol ℝ} {s t : Status ℝ} (hinv : GapInv N m n s) (ht : outerBody opt realGrad p gplusHard tol s = some t) :
    GapInv N m n t ∧
      multDist lam mu t + s.finC ^ 2 * sqViolation t.finG t.finH ≤ multDist lam mu s + 2 * s.finC * solveError xs s t ∧
      t.finF ≤ p.f xs + (sumSq s.finLam + sumSq s.finMu) / (4 * s.finC) + solveError xs s t ∧
      p.f xs - (sumSq lam + sumSq mu) / (2 * s.finC) - s.finC * sqViolation t.finG t.finH / 2 ≤ t.finF := by
  obtain ⟨G, A, b, hG, hH, hf, hfd, hGc, hGd⟩ := hp
  obtain ⟨hinv', x, L, M, hL, hM, hx, hF, hg, hh, hL', hM', hstep⟩ :=
    outer_step_lagrangian hc hv hgr hshape hG hH hf hfd hGc hGd hgrow hinv ht
  refine ⟨hinv', ?_⟩
  have hcp := hinv.c_pos
  obtain ⟨xs, rfl⟩ := exists_ofFn hsad.length
  obtain ⟨l, rfl⟩ := exists_ofFn (n := m) (l := lam) (by rw [hsad.lam_length, hH, List.length_ofFn])
  obtain ⟨u, rfl⟩ := exists_ofFn (n := n) (l := mu) (by rw [hsad.mu_length, hG, List.length_ofFn])
  have hHs : ∀ j, A j xs + b j = 0 := fun j => hsad.eq _ (by rw [hH, List.mem_ofFn']; exact ⟨j, rfl⟩)
  have hGs : ∀ j, G xs j ≤ 0 := fun j => hsad.ineq _ (by rw [hG, List.mem_ofFn']; exact ⟨j, rfl⟩)
  have hu : ∀ j, 0 ≤ u j := fun j => hsad.mu_nonneg _ (by rw [List.mem_ofFn']; exact ⟨j, rfl⟩)
  have hlag := hsad.lagrangian (List.ofFn x) (by simp)
  rw [hH, hG, listDot_ofFn, listDot_ofFn] at hlag
  have h1 := hstep xs
  have he : t.finGradLAug * Num.norm (Num.vsub (List.ofFn xs) t.finX) / s.xUnit = solveError (List.ofFn xs) s t := rfl
  rw [he] at h1
  obtain ⟨c, hc'⟩ : ∃ c, c = s.finC := ⟨_, rfl⟩
  rw [← hc'] at h1 hcp hL' hM' ⊢
  have hA : ∑ i, (L i + c * (A i x + b i)) * (A i xs + b i) = 0 :=
    Finset.sum_eq_zero fun i _ => by rw [hHs, mul_zero]
  have hB : ∑ j, max (M j + c * G x j) 0 * G xs j ≤ 0 :=
    Finset.sum_nonpos fun j _ => mul_nonpos_of_nonneg_of_nonpos (le_max_right _ _) (hGs j)
  simp only [multDist]
  rw [hL', hM', hL, hM, hg, hh, hF, sqDist_ofFn, sqDist_ofFn, sqDist_ofFn, sqDist_ofFn, sqViolation_ofFn, sumSq_ofFn, sumSq_ofFn,
    sumSq_ofFn, sumSq_ofFn]
  refine ⟨?_, ?_, ?_⟩
  · have e1 : ∑ i, (L i + c * (A i x + b i) - l i) ^ 2 + c ^ 2 * ∑ i, (A i x + b i) ^ 2 =
        ∑ i, (L i - l i) ^ 2 + 2 * c * (∑ i, (L i + c * (A i x + b i)) * (A i x + b i) - ∑ i, l i * (A i x + b i)) := by
      simp only [Finset.mul_sum, ← Finset.sum_sub_distrib, ← Finset.sum_add_distrib]
      exact Finset.sum_congr rfl fun i _ => by ring
    have e2 : ∑ j, (max (M j + c * G x j) 0 - u j) ^ 2 + c ^ 2 * ∑ j, max (G x j) 0 ^ 2 ≤
        ∑ j, (M j - u j) ^ 2 + 2 * c * (∑ j, max (M j + c * G x j) 0 * G x j - ∑ j, u j * G x j) := by
      simp only [Finset.mul_sum, ← Finset.sum_sub_distrib, ← Finset.sum_add_distrib]
      refine Finset.sum_le_sum fun j _ => ?_
      have hu := hu j
      generalize G x j = g
      generalize M j = μ
      generalize u j = v at hu
      rcases le_total (μ + c * g) 0 with h | h
      · rw [max_eq_right h]
        rcases le_total g 0 with h2 | h2
        · rw [max_eq_right h2]
          nlinarith [mul_nonneg hu (sub_nonneg.2 h), sq_nonneg μ]
        · rw [max_eq_left h2]
          have h3 : 0 ≤ c * g := by positivity
          nlinarith [mul_nonneg hu (sub_nonneg.2 h)]
      · rw [max_eq_left h]
        rcases le_total g 0 with h2 | h2
        · rw [max_eq_right h2]
          nlinarith [sq_nonneg (c * g)]
        · rw [max_eq_left h2]
          nlinarith
    have h2 : 2 * c * (∑ i, (L i + c * (A i x + b i)) * (A i x + b i) - ∑ i, l i * (A i x + b i)
        + (∑ j, max (M j + c * G x j) 0 * G x j - ∑ j, u j * G x j)) ≤ 2 * c * solveError (List.ofFn xs) s t := by
      refine mul_le_mul_of_nonneg_left ?_ (by positivity)
      linarith
    linarith
  · have e1 : -((∑ i, L i ^ 2) / (4 * c)) ≤ ∑ i, (L i + c * (A i x + b i)) * (A i x + b i) := by
      rw [Finset.sum_div, ← Finset.sum_neg_distrib]
      refine Finset.sum_le_sum fun i _ => ?_
      rw [neg_le_iff_add_nonneg]
      have : (L i + c * (A i x + b i)) * (A i x + b i) + L i ^ 2 / (4 * c) = (L i + 2 * c * (A i x + b i)) ^ 2 / (4 * c) := by
        field_simp
        ring
      rw [this]
      positivity
    have e2 : -((∑ j, M j ^ 2) / (4 * c)) ≤ ∑ j, max (M j + c * G x j) 0 * G x j := by
      rw [Finset.sum_div, ← Finset.sum_neg_distrib]
      refine Finset.sum_le_sum fun j _ => ?_
      rcases le_total (M j + c * G x j) 0 with h | h
      · rw [max_eq_right h, zero_mul, neg_nonpos]
        positivity
      · rw [max_eq_left h, neg_le_iff_add_nonneg]
        have : (M j + c * G x j) * G x j + M j ^ 2 / (4 * c) = (M j + 2 * c * G x j) ^ 2 / (4 * c) := by
          field_simp
          ring
        rw [this]
        positivity
    rw [add_div]
    linarith
  · have e1 : ∑ i, l i * (A i x + b i) ≤ (∑ i, l i ^ 2) / (2 * c) + c * (∑ i, (A i x + b i) ^ 2) / 2 := by
      rw [Finset.sum_div, Finset.mul_sum, Finset.sum_div, ← Finset.sum_add_distrib]
      refine Finset.sum_le_sum fun i _ => ?_
      rw [← sub_nonneg]
      have : l i ^ 2 / (2 * c) + c * (A i x + b i) ^ 2 / 2 - l i * (A i x + b i) = (l i - c * (A i x + b i)) ^ 2 / (2 * c) := by
        field_simp
        ring
      rw [this]
      positivity
    have e2 : ∑ j, u j * G x j ≤ (∑ j, u j ^ 2) / (2 * c) + c * (∑ j, max (G x j) 0 ^ 2) / 2 := by
      rw [Finset.sum_div, Finset.mul_sum, Finset.sum_div, ← Finset.sum_add_distrib]
      refine Finset.sum_le_sum fun j _ => ?_
      refine (mul_le_mul_of_nonneg_left (le_max_left (G x j) 0) (hu j)).trans ?_
      rw [← sub_nonneg]
      have : u j ^ 2 / (2 * c) + c * max (G x j) 0 ^ 2 / 2 - u j * max (G x j) 0 = (u j - c * max (G x j) 0) ^ 2 / (2 * c) := by
        field_simp
        ring
      rw [this]
      positivity
    rw [add_div, mul_add, add_div]
    linarith

theorem sumSq_le_sqDist {a b : List ℝ} (h : a.length = b.length) : sumSq a ≤ 2 * sumSq b + 2 * sqDist a b := by
  obtain ⟨k, hk⟩ : ∃ k, k = b.length := ⟨_, rfl⟩
  obtain ⟨v, rfl⟩ := exists_ofFn (h.trans hk.symm)
  obtain ⟨w, rfl⟩ := exists_ofFn hk.symm
  rw [sumSq_ofFn, sumSq_ofFn, sqDist_ofFn, Finset.mul_sum, Finset.mul_sum, ← Finset.sum_add_distrib]
  exact Finset.sum_le_sum fun i _ => by nlinarith [sq_nonneg (v i - 2 * w i)]

theorem sumSq_nonneg (a : List ℝ) : 0 ≤ sumSq a := by
  refine List.sum_nonneg fun t ht => ?_
  obtain ⟨u, -, rfl⟩ := List.mem_map.1 ht
  positivity

theorem sqViolation_nonneg (g h : List ℝ) : 0 ≤ sqViolation g h := add_nonneg (sumSq_nonneg _) (sumSq_nonneg _)

theorem sqDist_nonneg (a b : List ℝ) : 0 ≤ sqDist a b := by
  refine List.sum_nonneg fun t ht => ?_
  obtain ⟨i, hi, rfl⟩ := List.mem_iff_getElem.1 ht
  rw [List.getElem_zipWith]
  positivity

theorem multDist_nonneg (lam mu : List ℝ) (s : Status ℝ) : 0 ≤ multDist lam mu s := add_nonneg (sqDist_nonneg _ _) (sqDist_nonneg _ _)

/-- `S 0, ..., S (K + 1)` are the states of a run: the loop makes `K` iterations and the last solve follows. -/
structure IsRun (opt : Optimizer ℝ) (p : Problem ℝ) (x0 : List ℝ) (K : ℕ) (S : ℕ → Status ℝ) : Prop where
  init : S 0 = initStatus p x0
  step : ∀ k < K, outerBody opt realGrad p gplusHard p.innerTol (S k) = some (S (k + 1))
  last : outerBody opt realGrad p gplusHard p.lastTol (S K) = some (S (K + 1))

theorem iterM_prefix {σ : Type} {body : σ → Option σ} {s r : σ} (K : ℕ) (h : iterM body K s = some r) (k : ℕ) (hk : k ≤ K) :
    ∃ t, iterM body k s = some t := by
  induction K generalizing r with
  | zero => exact ⟨r, by rw [Nat.le_zero.1 hk]; exact h⟩
  | succ K ih =>
    rcases Nat.lt_or_ge k (K + 1) with h' | h'
    · rw [iterM_succ'] at h
      cases hn : iterM body K s with
      | none => simp [hn] at h
      | some u => exact ih hn (by omega)
    · exact ⟨r, by rw [le_antisymm hk h']; exact h⟩

/-- Every returned status is the end of a run. -/
theorem exists_run {opt : Optimizer ℝ} {p : Problem ℝ} {x0 : List ℝ} {r : Status ℝ}
    (hr : solveConstrained opt realGrad p gplusHard x0 = some r) : ∃ K S, IsRun opt p x0 K S ∧ S (K + 1) = r := by
  obtain ⟨K, s, hs, hlast⟩ := solve_is_iter hr
  have hall := iterM_prefix K hs
  have hS : ∀ k ≤ K, iterM (outerBody opt realGrad p gplusHard p.innerTol) k (initStatus p x0) =
      some ((iterM (outerBody opt realGrad p gplusHard p.innerTol) k (initStatus p x0)).getD r) := by
    intro k hk
    obtain ⟨t, ht⟩ := hall k hk
    rw [ht, Option.getD_some]
  refine ⟨K, fun k => if k = K + 1 then r else
    (iterM (outerBody opt realGrad p gplusHard p.innerTol) k (initStatus p x0)).getD r, ⟨?_, ?_, ?_⟩, by simp⟩
  · simp [iterM]
  · intro k hk
    rw [if_neg (by omega), if_neg (by omega)]
    have h1 := hS (k + 1) (by omega)
    rw [iterM_succ', hS k (by omega), Option.bind_some] at h1
    rw [h1, iterM_succ', hS k (by omega), Option.bind_some, Option.getD_some]
  · rw [if_neg (by omega), if_pos rfl, hs, Option.getD_some, hlast]

theorem IsRun.inv {opt : Optimizer ℝ} (hc : opt.CountContract) (hv : opt.ValueContract) (hgr : opt.GradContract realGrad)
    (hshape : opt.ShapeContract realGrad) {N m n : ℕ} {p : Problem ℝ} (hp : IsConvexProblem N m n p) (hgrow : 1 ≤ p.cGrowth)
    {x0 : List ℝ} (hx0 : x0.length = N) (hlam : p.lamInit.length = m) (hmu : p.muInit.length = n) (hcinit : 0 < p.cInit) {K : ℕ}
    {S : ℕ → Status ℝ} (hS : IsRun opt p x0 K S) (k : ℕ) (hk : k ≤ K) : GapInv N m n (S k) ∧ p.cInit ≤ (S k).finC := by
  obtain ⟨G, A, b, hG, hH, hf, hfd, hGc, hGd⟩ := hp
  induction k with
  | zero =>
    rw [hS.init]
    exact ⟨⟨hx0, hcinit, by simp [initStatus], hlam, hmu⟩, le_refl _⟩
  | succ k ih =>
    obtain ⟨h1, h2⟩ := ih (by omega)
    have hst := hS.step k (by omega)
    refine ⟨(outer_step_lagrangian hc hv hgr hshape hG hH hf hfd hGc hGd hgrow h1 hst).1, h2.trans ?_⟩
    obtain ⟨i, hi, -⟩ := outerBody_spec hc hst
    rw [hi]
    rcases finC_outerUpdate p gplusHard (S k) i with h | ⟨h, -⟩
    · rw [h]
    · rw [h]
      exact le_mul_of_one_le_right h1.c_pos.le hgrow

/-- **C111.** In every run on a convex problem with a saddle point, the squared distance of the returned multipliers to those of the
saddle point plus the squared violations of all iterations, weighted by the squared penalty weights, is at most the initial squared
distance plus the errors of the inner solves. -/
theorem C111_multiplier_bound {opt : Optimizer ℝ} (hc : opt.CountContract) (hv : opt.ValueContract)
    (hgr : opt.GradContract realGrad) (hshape : opt.ShapeContract realGrad) {N m n : ℕ} {p : Problem ℝ}
    (hp : IsConvexProblem N m n p) (hgrow : 1 ≤ p.cGrowth) {x0 : List ℝ} (hx0 : x0.length = N) (hlam : p.lamInit.length = m)
    (hmu : p.muInit.length = n) (hcinit : 0 < p.cInit) {xs lam mu : List ℝ} (hsad : IsSaddle N p.f p.g p.h xs lam mu)
    {r : Status ℝ} (hr : solveConstrained opt realGrad p gplusHard x0 = some r) :
    ∃ K S, IsRun opt p x0 K S ∧ S (K + 1) = r ∧
      multDist lam mu r + ∑ k ∈ Finset.range (K + 1), (S k).finC ^ 2 * sqViolation (S (k + 1)).finG (S (k + 1)).finH ≤
        sqDist p.lamInit lam + sqDist p.muInit mu
          + ∑ k ∈ Finset.range (K + 1), 2 * (S k).finC * solveError xs (S k) (S (k + 1)) := by
  obtain ⟨K, S, hS, hr'⟩ := exists_run hr
  refine ⟨K, S, hS, hr', ?_⟩
  have hstep : ∀ k ≤ K, multDist lam mu (S (k + 1)) + (S k).finC ^ 2 * sqViolation (S (k + 1)).finG (S (k + 1)).finH ≤
      multDist lam mu (S k) + 2 * (S k).finC * solveError xs (S k) (S (k + 1)) := by
    intro k hk
    have hi := (hS.inv hc hv hgr hshape hp hgrow hx0 hlam hmu hcinit k hk).1
    rcases Nat.lt_or_ge k K with h | h
    · exact (C111_step hc hv hgr hshape hp hgrow hsad hi (hS.step k h)).2.1
    · obtain rfl : k = K := le_antisymm hk h
      exact (C111_step hc hv hgr hshape hp hgrow hsad hi hS.last).2.1
  have h0 : sqDist p.lamInit lam + sqDist p.muInit mu = multDist lam mu (S 0) := by rw [hS.init]; rfl
  rw [h0, ← hr']
  have : ∀ j ≤ K + 1, multDist lam mu (S j) + ∑ k ∈ Finset.range j, (S k).finC ^ 2 * sqViolation (S (k + 1)).finG (S (k + 1)).finH ≤
      multDist lam mu (S 0) + ∑ k ∈ Finset.range j, 2 * (S k).finC * solveError xs (S k) (S (k + 1)) := by
    intro j hj
    induction j with
    | zero => simp
    | succ j ih =>
      rw [Finset.sum_range_succ, Finset.sum_range_succ]
      have h1 := ih (by omega)
      have h2 := hstep j (by omega)
      linarith
  exact this (K + 1) (le_refl _)

/-- **C111 (rate).** If every inner solve of the run ends at a stationary point, the returned violation is at most the initial
distance `D` of the multipliers divided by the penalty weight `c` of the last solve, and the returned objective differs from the
optimum by at most `(|z*|^2 + D^2) / (2 c)`. -/
theorem C111_violation_rate {opt : Optimizer ℝ} (hc : opt.CountContract) (hv : opt.ValueContract)
    (hgr : opt.GradContract realGrad) (hshape : opt.ShapeContract realGrad) {N m n : ℕ} {p : Problem ℝ}
    (hp : IsConvexProblem N m n p) (hgrow : 1 ≤ p.cGrowth) {x0 : List ℝ} (hx0 : x0.length = N) (hlam : p.lamInit.length = m)
    (hmu : p.muInit.length = n) (hcinit : 0 < p.cInit) {xs lam mu : List ℝ} (hsad : IsSaddle N p.f p.g p.h xs lam mu)
    (hexact : ∀ tol s t, s.finX.length = N → 0 < s.finC → 0 < s.xUnit → s.finLam.length = m → s.finMu.length = n →
      outerBody opt realGrad p gplusHard tol s = some t → t.finGradLAug = 0)
    {r : Status ℝ} (hr : solveConstrained opt realGrad p gplusHard x0 = some r) :
    ∃ s, outerLoop opt realGrad p gplusHard x0 = some s ∧ p.cInit ≤ s.finC ∧
      sqViolation r.finG r.finH ≤ (sqDist p.lamInit lam + sqDist p.muInit mu) / s.finC ^ 2 ∧
      |r.finF - p.f xs| ≤ (sumSq lam + sumSq mu + sqDist p.lamInit lam + sqDist p.muInit mu) / (2 * s.finC) := by
  cases hl : outerLoop opt realGrad p gplusHard x0 with
  | none => simp [solveConstrained, hl] at hr
  | some s =>
    refine ⟨s, rfl, ?_⟩
    simp only [solveConstrained, hl, Option.bind_some] at hr
    have hinv : GapInv N m n s ∧ p.cInit ≤ s.finC ∧ multDist lam mu s ≤ sqDist p.lamInit lam + sqDist p.muInit mu := by
      refine outerLoop_invariant
        (fun s => GapInv N m n s ∧ p.cInit ≤ s.finC ∧ multDist lam mu s ≤ sqDist p.lamInit lam + sqDist p.muInit mu) hl
        ⟨⟨hx0, hcinit, by simp [initStatus], hlam, hmu⟩, le_refl _, le_refl _⟩ ?_
      rintro s t ⟨h1, h2, h3⟩ - hst
      obtain ⟨h4, h5, -⟩ := C111_step hc hv hgr hshape hp hgrow hsad h1 hst
      have h0 := hexact _ _ _ h1.x h1.c_pos h1.unit_pos h1.lam h1.mu hst
      refine ⟨h4, h2.trans ?_, ?_⟩
      · obtain ⟨i, hi, -⟩ := outerBody_spec hc hst
        rw [hi]
        rcases finC_outerUpdate p gplusHard s i with h | ⟨h, -⟩
        · rw [h]
        · rw [h]
          exact le_mul_of_one_le_right h1.c_pos.le hgrow
      · have h6 : solveError xs s t = 0 := by rw [solveError, h0, zero_mul, zero_div]
        rw [h6, mul_zero, add_zero] at h5
        have := mul_nonneg (sq_nonneg s.finC) (sqViolation_nonneg t.finG t.finH)
        linarith
    obtain ⟨h1, h2, h3⟩ := hinv
    obtain ⟨-, h5, h6, h7⟩ := C111_step hc hv hgr hshape hp hgrow hsad h1 hr
    have h0 := hexact _ _ _ h1.x h1.c_pos h1.unit_pos h1.lam h1.mu hr
    have he : solveError xs s r = 0 := by rw [solveError, h0, zero_mul, zero_div]
    rw [he, mul_zero, add_zero] at h5
    rw [he, add_zero] at h6
    have hcp := h1.c_pos
    have hviol : s.finC ^ 2 * sqViolation r.finG r.finH ≤ sqDist p.lamInit lam + sqDist p.muInit mu := by
      have := multDist_nonneg lam mu r
      linarith
    have hll : s.finLam.length = lam.length := by
      obtain ⟨G, A, b, hG, hH, -⟩ := hp
      obtain ⟨v, hv'⟩ := exists_ofFn hsad.length
      rw [h1.lam, hsad.lam_length, hv', hH, List.length_ofFn]
    have hml : s.finMu.length = mu.length := by
      obtain ⟨G, A, b, hG, hH, -⟩ := hp
      obtain ⟨v, hv'⟩ := exists_ofFn hsad.length
      rw [h1.mu, hsad.mu_length, hv', hG, List.length_ofFn]
    have hz : (sumSq s.finLam + sumSq s.finMu) / (4 * s.finC) ≤
        (sumSq lam + sumSq mu + sqDist p.lamInit lam + sqDist p.muInit mu) / (2 * s.finC) := by
      have a1 := sumSq_le_sqDist hll
      have a2 := sumSq_le_sqDist hml
      unfold multDist at h3
      rw [div_le_div_iff₀ (by positivity) (by positivity)]
      have : sumSq s.finLam + sumSq s.finMu ≤ 2 * (sumSq lam + sumSq mu + sqDist p.lamInit lam + sqDist p.muInit mu) := by linarith
      nlinarith
    have hw : s.finC * sqViolation r.finG r.finH / 2 ≤ (sqDist p.lamInit lam + sqDist p.muInit mu) / (2 * s.finC) := by
      rw [div_le_div_iff₀ (by positivity) (by positivity)]
      nlinarith
    refine ⟨h2, ?_, ?_⟩
    · rw [le_div_iff₀ (by positivity)]
      linarith
    · rw [abs_le]
      have e : (sumSq lam + sumSq mu + sqDist p.lamInit lam + sqDist p.muInit mu) / (2 * s.finC) =
          (sumSq lam + sumSq mu) / (2 * s.finC) + (sqDist p.lamInit lam + sqDist p.muInit mu) / (2 * s.finC) := by
        rw [← add_div]
        congr 1
        ring
      constructor <;> linarith

theorem gapProblem_convex : IsConvexProblem 2 1 1 gapProblem := by
  have hfform : (fun y : Fin 2 → ℝ => gapProblem.f (List.ofFn y)) = fun y => y 0 * y 0 + y 1 * y 1 := by
    funext y
    simp [gapProblem, List.ofFn_succ]
  have hsq : ∀ k : Fin 2, ConvexOn ℝ Set.univ fun y : Fin 2 → ℝ => y k * y k := by
    intro k
    refine ⟨convex_univ, fun x _ y _ a b ha hb hab => ?_⟩
    simp only [Pi.add_apply, Pi.smul_apply, smul_eq_mul]
    have hb' : b = 1 - a := by linarith
    subst hb'
    nlinarith [mul_nonneg (mul_nonneg ha hb) (mul_self_nonneg (x k - y k))]
  refine ⟨fun y _ => 1 - y 0, fun _ => ContinuousLinearMap.proj 0 - (2 : ℝ) • ContinuousLinearMap.proj 1, fun _ => 0,
    fun y => by simp [gapProblem, List.ofFn_succ], fun y => by simp [gapProblem, List.ofFn_succ],
    by rw [hfform]; exact (hsq 0).add (hsq 1), by rw [hfform]; fun_prop, fun _ => ?_, fun _ => by fun_prop⟩
  refine ⟨convex_univ, fun x _ y _ a b ha hb hab => le_of_eq ?_⟩
  simp only [Pi.add_apply, Pi.smul_apply, smul_eq_mul]
  linear_combination (-1 : ℝ) * hab

theorem gapProblem_saddle : IsSaddle 2 gapProblem.f gapProblem.g gapProblem.h [1, 1 / 2] [1 / 2] [5 / 2] where
  length := rfl
  lam_length := rfl
  mu_length := rfl
  mu_nonneg := by simp; norm_num
  ineq := by simp [gapProblem]
  eq := by simp [gapProblem]
  lagrangian := by
    intro y hy
    obtain ⟨v, rfl⟩ := exists_ofFn hy
    simp [gapProblem, listDot, List.ofFn_succ]
    nlinarith [sq_nonneg (v 0 - 1), sq_nonneg (v 1 - 1 / 2)]

/-- The bound applies to the small problem of C108 solved by gradient descent. -/
example : ∃ r K S, IsRun (gradientDescent realGrad (1 / 4)) gapProblem [3, 3] K S ∧ S (K + 1) = r ∧
    multDist [1 / 2] [5 / 2] r
        + ∑ k ∈ Finset.range (K + 1), (S k).finC ^ 2 * sqViolation (S (k + 1)).finG (S (k + 1)).finH ≤
      13 / 2 + ∑ k ∈ Finset.range (K + 1), 2 * (S k).finC * solveError [1, 1 / 2] (S k) (S (k + 1)) := by
  obtain ⟨_, _, r, _, _, _, hr, _⟩ := C04_outer_terminates (gradientDescent realGrad (1 / 4)) (gradientDescent_count _ _) realGrad
    gapProblem gplusHard [3, 3]
  obtain ⟨K, S, h1, h2, h3⟩ := C111_multiplier_bound (opt := gradientDescent realGrad (1 / 4)) (gradientDescent_count _ _)
    (gradientDescent_value _ _) (fun _ _ _ _ _ => rfl) (gradientDescent_shape realGrad (fun f p => by simp [realGrad]) _)
    gapProblem_convex (by simp [gapProblem]) (x0 := [3, 3]) rfl rfl rfl (by simp [gapProblem]) gapProblem_saddle hr
  refine ⟨r, K, S, h1, h2, h3.trans (le_of_eq ?_)⟩
  congr 1
  simp [gapProblem, sqDist]
  norm_num

open Classical in
/-- The step to a stationary point, if there is one. -/
noncomputable def exactStep (f : List ℝ → ℝ) (p : List ℝ) : List ℝ :=
  if h : ∃ u : List ℝ, u.length = p.length ∧ ∀ d ∈ realGrad f (Num.vadd p u), d = 0 then h.choose else p.map fun _ => 0

theorem exactStep_length (f : List ℝ → ℝ) (p : List ℝ) : (exactStep f p).length = p.length := by
  unfold exactStep
  split
  · rename_i h
    exact h.choose_spec.1
  · simp

/-- An optimiser that finds a stationary point in one iteration. -/
noncomputable def exactOptimizer : Optimizer ℝ where
  State := ℕ × Option (ℝ × List ℝ)
  init _ := (0, none)
  update _ s p _ f := (exactStep f p, (s.1 + 1, some (f (Num.vadd p (exactStep f p)), realGrad f (Num.vadd p (exactStep f p)))))
  count s := s.1
  value s := match s.2 with | some v => v.1 | none => 0
  valueFinite s := s.2.isSome
  grad s := match s.2 with | some v => v.2 | none => []

theorem exactOptimizer_count : exactOptimizer.CountContract where
  init_count _ := rfl
  update_count _ _ _ _ _ := rfl

theorem exactOptimizer_value : exactOptimizer.ValueContract where
  init_value _ := rfl
  update_value _ _ _ _ _ := rfl

theorem exactOptimizer_shape : exactOptimizer.ShapeContract realGrad where
  grad_length f p := by simp [realGrad]
  init_value _ := rfl
  update_length g s p v f _ := by
    refine ⟨exactStep_length f p, ?_⟩
    have : exactOptimizer.grad (exactOptimizer.update g s p v f).2 = realGrad f (Num.vadd p (exactStep f p)) := rfl
    rw [this]
    simp [realGrad, Num.vadd, exactStep_length]

/-- Minimise `x^2` with `x = 1`. -/
noncomputable def lineProblem : Problem ℝ :=
  { gapProblem with
    f := fun v => v.getD 0 0 ^ 2
    g := fun _ => []
    h := fun v => [v.getD 0 0 - 1]
    muInit := [] }

theorem lineProblem_convex : IsConvexProblem 1 1 0 lineProblem := by
  have hfform : (fun y : Fin 1 → ℝ => lineProblem.f (List.ofFn y)) = fun y => y 0 ^ 2 := by
    funext y
    simp [lineProblem, List.ofFn_succ]
  refine ⟨fun _ j => j.elim0, fun _ => ContinuousLinearMap.proj 0, fun _ => -1,
    fun y => by simp [lineProblem], fun y => by simp [lineProblem, List.ofFn_succ, sub_eq_add_neg], ?_,
    by rw [hfform]; fun_prop, fun j => j.elim0, fun j => j.elim0⟩
  rw [hfform]
  refine ⟨convex_univ, fun x _ y _ a b ha hb hab => ?_⟩
  simp only [Pi.add_apply, Pi.smul_apply, smul_eq_mul]
  have hb' : b = 1 - a := by linarith
  subst hb'
  nlinarith [mul_nonneg (mul_nonneg ha hb) (mul_self_nonneg (x 0 - y 0))]

theorem lineProblem_saddle : IsSaddle 1 lineProblem.f lineProblem.g lineProblem.h [1] [-2] [] where
  length := rfl
  lam_length := rfl
  mu_length := rfl
  mu_nonneg := by simp
  ineq := by simp [lineProblem]
  eq := by simp [lineProblem]
  lagrangian := by
    intro y hy
    obtain ⟨v, rfl⟩ := exists_ofFn hy
    simp [lineProblem, listDot, List.ofFn_succ]
    nlinarith [sq_nonneg (v 0 - 1)]

theorem lineProblem_exact (tol : InnerTol ℝ) (s t : Status ℝ) (hx : s.finX.length = 1) (hcp : 0 < s.finC) (hu : 0 < s.xUnit)
    (hl : s.finLam.length = 1) (hm : s.finMu.length = 0)
    (ht : outerBody exactOptimizer realGrad lineProblem gplusHard tol s = some t) : t.finGradLAug = 0 := by
  obtain ⟨i, rfl, hrun, -⟩ := outerBody_spec exactOptimizer_count ht
  obtain ⟨k, xs, us, ss, -, hrun', hix, -, hgrad, -⟩ :=
    C84_inner_run exactOptimizer exactOptimizer_count exactOptimizer_value realGrad (fun _ _ _ _ _ => rfl) _ _ _ i hrun
  have hlen : ∀ j ≤ k + 1, (xs j).length = 1 := by
    intro j hj
    induction j with
    | zero => rw [hrun'.start, Num.vdivs, List.length_map, hx]
    | succ j ih =>
      have h1 := hrun'.update j (by omega)
      have h2 : us j = exactStep (innerObjective lineProblem gplusHard s) (xs j) := (congrArg Prod.fst h1).symm
      rw [hrun'.step j (by omega), h2, Num.vadd, List.length_zipWith, exactStep_length, ih (by omega), min_self]
  have hfl : (outerUpdate lineProblem gplusHard s i).finGradLAug = Num.norm i.grad := rfl
  have h1 := hrun'.update k (by omega)
  have h2 : us k = exactStep (innerObjective lineProblem gplusHard s) (xs k) := (congrArg Prod.fst h1).symm
  rw [hfl, hgrad, hrun'.step k (by omega), h2]
  obtain ⟨a, ha⟩ := List.length_eq_one_iff.1 (hlen k (by omega))
  obtain ⟨l, hl'⟩ := List.length_eq_one_iff.1 hl
  have hm' := List.length_eq_zero_iff.1 hm
  have hF : ∀ w, innerObjective lineProblem gplusHard s [w] =
      (w * s.xUnit) ^ 2 + l * (w * s.xUnit - 1) + s.finC / 2 * (w * s.xUnit - 1) ^ 2 := by
    intro w
    simp [innerObjective, augLag, lineProblem, hl', hm', Num.vscale, Num.dot, gplusHard]
    left
    ring
  have hex : ∃ u : List ℝ, u.length = (xs k).length ∧
      ∀ d ∈ realGrad (innerObjective lineProblem gplusHard s) (Num.vadd (xs k) u), d = 0 := by
    refine ⟨[(s.finC - l) / ((2 + s.finC) * s.xUnit) - a], by simp [ha], ?_⟩
    have e : Num.vadd (xs k) [(s.finC - l) / ((2 + s.finC) * s.xUnit) - a] = [(s.finC - l) / ((2 + s.finC) * s.xUnit)] := by
      rw [ha]
      simp [Num.vadd]
    rw [e]
    have e2 : realGrad (innerObjective lineProblem gplusHard s) [(s.finC - l) / ((2 + s.finC) * s.xUnit)] =
        [deriv (fun t => innerObjective lineProblem gplusHard s [t]) ((s.finC - l) / ((2 + s.finC) * s.xUnit))] := by
      simp [realGrad]
    rw [e2]
    intro d hd
    rw [List.mem_singleton] at hd
    rw [hd]
    have h3 : (fun t => innerObjective lineProblem gplusHard s [t]) =
        fun t => (t * s.xUnit) ^ 2 + l * (t * s.xUnit - 1) + s.finC / 2 * (t * s.xUnit - 1) ^ 2 := funext hF
    rw [h3]
    have h4 : ∀ w : ℝ, HasDerivAt (fun t : ℝ => (t * s.xUnit) ^ 2 + l * (t * s.xUnit - 1) + s.finC / 2 * (t * s.xUnit - 1) ^ 2)
        (s.xUnit * ((2 + s.finC) * s.xUnit * w + l - s.finC)) w := by
      intro w
      have g1 : HasDerivAt (fun t : ℝ => t * s.xUnit) (1 * s.xUnit) w := (hasDerivAt_id w).mul_const s.xUnit
      have g2 := ((g1.pow 2).add ((g1.sub_const 1).const_mul l)).add (((g1.sub_const 1).pow 2).const_mul (s.finC / 2))
      refine g2.congr_deriv ?_
      push_cast
      ring
    rw [(h4 _).deriv]
    have h5 : (2 + s.finC) * s.xUnit * ((s.finC - l) / ((2 + s.finC) * s.xUnit)) = s.finC - l :=
      mul_div_cancel₀ _ (by positivity)
    rw [h5]
    ring
  have hz : ∀ d ∈ realGrad (innerObjective lineProblem gplusHard s)
      (Num.vadd (xs k) (exactStep (innerObjective lineProblem gplusHard s) (xs k))), d = 0 := by
    unfold exactStep
    rw [dif_pos hex]
    exact hex.choose_spec.2
  rw [num_norm, Real.sqrt_eq_zero']
  apply le_of_eq
  apply List.sum_eq_zero
  intro d hd
  obtain ⟨e, he, rfl⟩ := List.mem_map.1 hd
  rw [hz e he]
  simp

/-- The rate applies to a small problem solved with exact inner solves. -/
example : ∃ r s, solveConstrained exactOptimizer realGrad lineProblem gplusHard [5] = some r ∧
    outerLoop exactOptimizer realGrad lineProblem gplusHard [5] = some s ∧ 1 ≤ s.finC ∧
    sqViolation r.finG r.finH ≤ 4 / s.finC ^ 2 ∧ |r.finF - 1| ≤ 8 / (2 * s.finC) := by
  obtain ⟨_, _, r, _, _, _, hr, _⟩ := C04_outer_terminates exactOptimizer exactOptimizer_count realGrad
    lineProblem gplusHard [5]
  obtain ⟨s, h1, h2, h3, h4⟩ := C111_violation_rate exactOptimizer_count exactOptimizer_value (fun _ _ _ _ _ => rfl)
    exactOptimizer_shape lineProblem_convex (by simp [lineProblem, gapProblem]) (x0 := [5]) rfl rfl rfl
    (by simp [lineProblem, gapProblem]) lineProblem_saddle lineProblem_exact hr
  refine ⟨r, s, hr, h1, h2, h3.trans (le_of_eq ?_), ?_⟩
  · congr 1
    simp [lineProblem, gapProblem, sqDist]
    norm_num
  · have e1 : lineProblem.f [1] = 1 := by simp [lineProblem]
    rw [e1] at h4
    refine h4.trans (le_of_eq ?_)
    congr 1
    simp [lineProblem, gapProblem, sqDist, sumSq]
    norm_num

end Verif
