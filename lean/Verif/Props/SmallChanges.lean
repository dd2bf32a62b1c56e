import Verif.Props.Prices
import Verif.Props.Exact
import Verif.Props.OuterRate
import Verif.Props.CallPrices

/-!
# C176: small changes of weights and limits change the solution little
-/

namespace Verif

/-! ## Convex problems -/

theorem sum_sq_mix {n : ℕ} (x y z : Fin n → ℝ) {t : ℝ} (h0 : 0 ≤ t) (h1 : t ≤ 1 / 2) :
    ∑ i, (x i - y i) ^ 2 ≤ 8 * ∑ i, (x i - (t * z i + (1 - t) * y i)) ^ 2 + 8 * t * ∑ i, (z i - x i) ^ 2 := by
  rw [Finset.mul_sum, Finset.mul_sum, ← Finset.sum_add_distrib]
  refine Finset.sum_le_sum fun i _ => ?_
  have e : (1 - t) * (x i - y i) = (x i - (t * z i + (1 - t) * y i)) + t * (z i - x i) := by ring
  have h2 : ((1 - t) * (x i - y i)) ^ 2 ≤ 2 * (x i - (t * z i + (1 - t) * y i)) ^ 2 + 2 * (t * (z i - x i)) ^ 2 := by
    rw [e]
    nlinarith [sq_nonneg ((x i - (t * z i + (1 - t) * y i)) - t * (z i - x i))]
  have h3 : 1 / 4 * (x i - y i) ^ 2 ≤ ((1 - t) * (x i - y i)) ^ 2 := by
    rw [mul_pow]
    exact mul_le_mul_of_nonneg_right (by nlinarith) (sq_nonneg _)
  have h4 : (t * (z i - x i)) ^ 2 ≤ t * (z i - x i) ^ 2 := by
    rw [mul_pow]
    exact mul_le_mul_of_nonneg_right (by nlinarith) (sq_nonneg _)
  linarith

/-- The solution of a convex problem whose objective grows quadratically, with other right hand sides of the constraints. -/
theorem small_change {n : ℕ} {ι : Type} {f : (Fin n → ℝ) → ℝ} {H : ι → (Fin n → ℝ) → ℝ} (hf : ConvexFn f) (hH : ∀ i, ConvexFn (H i))
    {z : Fin n → ℝ} {m : ℝ} (hm : 0 < m) (hz : ∀ i, H i z ≤ -m) {x : Fin n → ℝ} (hx : ∀ i, H i x ≤ 0) {ν : ℝ} (hν : 0 < ν)
    (hgrow : ∀ y, (∀ i, H i y ≤ 0) → ν * ∑ i, (x i - y i) ^ 2 ≤ f y - f x) {ρ : ι → ℝ} {δ : ℝ} (hδ : 0 ≤ δ) (hδm : δ ≤ m / 2)
    (hρ : ∀ i, |ρ i| ≤ δ) :
    (∃ y, ∀ i, H i y ≤ ρ i) ∧ ∀ y, (∀ i, H i y ≤ ρ i) → (∀ y', (∀ i, H i y' ≤ ρ i) → f y ≤ f y') →
      ∑ i, (x i - y i) ^ 2 ≤ (16 * (f z - f x) / ν + 8 * ∑ i, (z i - x i) ^ 2) / m * δ ∧
      |f y - f x| ≤ 2 * (f z - f x) / m * δ := by
  have ht0 : 0 ≤ δ / m := by positivity
  have ht1 : δ / m ≤ 1 / 2 := by
    rw [div_le_iff₀ hm]
    linarith
  have htm : δ / m * m = δ := by field_simp
  have eqK : (16 * (f z - f x) / ν + 8 * ∑ i, (z i - x i) ^ 2) / m * δ =
      (16 * (f z - f x) / ν + 8 * ∑ i, (z i - x i) ^ 2) * (δ / m) := by ring
  have eqF : 2 * (f z - f x) / m * δ = 2 * (f z - f x) * (δ / m) := by ring
  rw [eqK, eqF]
  generalize δ / m = t at ht0 ht1 htm
  have hD : 0 ≤ f z - f x := by
    refine le_trans ?_ (hgrow z fun i => (hz i).trans (by linarith))
    exact mul_nonneg hν.le (Finset.sum_nonneg fun i _ => sq_nonneg _)
  have hm' : ∀ i, H i (fun j => t * z j + (1 - t) * x j) ≤ ρ i := by
    intro i
    refine (hH i z x t ht0 (by linarith)).trans ?_
    have h1 := mul_le_mul_of_nonneg_left (hz i) ht0
    have h2 := mul_le_mul_of_nonneg_left (hx i) (show 0 ≤ 1 - t by linarith)
    have h3 := (abs_le.1 (hρ i)).1
    linarith
  refine ⟨⟨_, hm'⟩, fun y hy hmin => ?_⟩
  have hmid : ∀ i, H i (fun j => t * z j + (1 - t) * y j) ≤ 0 := by
    intro i
    refine (hH i z y t ht0 (by linarith)).trans ?_
    have h1 := mul_le_mul_of_nonneg_left (hz i) ht0
    have h2 := mul_le_mul_of_nonneg_left ((hy i).trans (abs_le.1 (hρ i)).2) (show 0 ≤ 1 - t by linarith)
    nlinarith
  have hup : f y ≤ f x + t * (f z - f x) := (hmin _ hm').trans ((hf z x t ht0 (by linarith)).trans (by linarith))
  have hg := hgrow _ hmid
  have hmix := hf z y t ht0 (by linarith)
  have hg2 : ν * ∑ i, (x i - (t * z i + (1 - t) * y i)) ^ 2 ≤ 2 * t * (f z - f x) := by
    have h1 : (1 - t) * f y ≤ (1 - t) * (f x + t * (f z - f x)) := mul_le_mul_of_nonneg_left hup (by linarith)
    have h2 : 0 ≤ t * t * (f z - f x) := by positivity
    nlinarith
  constructor
  · refine (sum_sq_mix x y z ht0 ht1).trans ?_
    have h3 : ∑ i, (x i - (t * z i + (1 - t) * y i)) ^ 2 ≤ 2 * t * (f z - f x) / ν := by
      rw [le_div_iff₀ hν]
      linarith
    have h4 : 16 * (f z - f x) / ν * t = 8 * (2 * t * (f z - f x) / ν) := by ring
    rw [add_mul, h4]
    linarith
  · have hlow : 0 ≤ f (fun j => t * z j + (1 - t) * y j) - f x :=
      le_trans (mul_nonneg hν.le (Finset.sum_nonneg fun i _ => sq_nonneg _)) hg
    rw [abs_le]
    constructor
    · by_contra hcon
      push Not at hcon
      have h5 : (1 - t) * (f x - f y) ≤ t * (f z - f x) := by nlinarith
      have h6 : 1 / 2 * (2 * (f z - f x) * t) < (1 - t) * (f x - f y) :=
        mul_lt_mul' (by linarith) (by linarith) (by positivity) (by linarith)
      nlinarith
    · have := mul_nonneg ht0 hD
      linarith

/-! ## The problem of the user -/

section
variable (Q : FieldProblem) (others : List String)

/-- A number for each request such that its functions are below zero by at least this. -/
theorem common_request_margin {n N : ℕ} {hs : Fin N → List ((Fin n → ℝ) → ℝ)} {x : Fin n → ℝ} (h : ∀ i, ∀ g ∈ hs i, g x < 0) :
    ∃ m > 0, ∀ i, ∀ g ∈ hs i, g x ≤ -m := by
  obtain ⟨m, hm, h1⟩ := exists_margin ((List.finRange N).flatMap fun i => (hs i).map fun g => g x) 0 (by
    intro t ht
    obtain ⟨i, -, ht⟩ := List.mem_flatMap.1 ht
    obtain ⟨g, hg, rfl⟩ := List.mem_map.1 ht
    exact h i g hg)
  refine ⟨m, hm, fun i g hg => ?_⟩
  have := h1 (g x) (List.mem_flatMap.2 ⟨i, List.mem_finRange i, List.mem_map.2 ⟨g, hg, rfl⟩⟩)
  linarith

/-- **C176 (limits).** For convex objectives with a current term, and a potential that satisfies all constraints strictly: there are
`K` and `δ0 > 0` such that for all constraint values that differ from the given ones by at most `δ <= δ0` the problem has exactly one
solution, its squared distance from the present one is at most `K δ`, and the optimum changes by at most `K δ`. -/
theorem C176_limits {A B : ℕ} (R : Resolved Q A B) {objs : List (String × UnitArg × ℝ)} (h : ConvexObjectives objs)
    (hK : ∃ o ∈ objs, o.1 = "f_K" ∧ 0 < o.2.2) {rs : List Request} {sm : Option String}
    (hrs : ∀ r ∈ rs, r.name ∈ affineNames ++ convexNames ∧ LegalUse (shippedRegistry FieldProblem.fns others) sm r.name r.unit r.type)
    {z : Dofs} (hz : Pot Q z) (hstrict : StrictlyFeasible (shippedRegistry FieldProblem.fns others) rs Q z) {d : Dofs} {c : List ℝ}
    (hd : UserMinimiser (shippedRegistry FieldProblem.fns others) objs rs Q (Pot Q) d) (hc : d "phi" = .array c) :
    ∃ K ≥ 0, ∃ δ0 > 0, ∀ (v : Fin rs.length → ℝ) (δ : ℝ), 0 ≤ δ → δ ≤ δ0 → (∀ i, |v i - rs[i].value| ≤ δ) →
      ∃ k : List ℝ, (∀ e, UserMinimiser (shippedRegistry FieldProblem.fns others) objs (withValues rs v) Q (Pot Q) e ↔ e "phi" = .array k) ∧
        sqDist c k ≤ K * δ ∧
        |userObjective (shippedRegistry FieldProblem.fns others) objs Q (phiOnly (.array k)) -
          userObjective (shippedRegistry FieldProblem.fns others) objs Q (phiOnly (.array c))| ≤ K * δ := by
  obtain ⟨o, ho, hKo, hw⟩ := hK
  obtain ⟨-, ⟨u, hu, hu0⟩, -⟩ := h o ho
  obtain ⟨μ, hμ, hgrow⟩ := C126_quadratic_growth Q others R
  have hν : 0 < o.2.2 / |u| * μ := mul_pos (div_pos hw (abs_pos.2 hu0)) hμ
  have hphi : ∀ c : List ℝ, phiOnly (.array c) "phi" = .array c := fun c => by simp [phiOnly]
  have hpot : ∀ y : Fin (cpNdofs Q.cp.stellsym Q.cp.mpol Q.cp.ntor).1 → ℝ, Pot Q (phiOnly (.array (List.ofFn y))) :=
    fun y => ⟨_, hphi _, by simp; rfl⟩
  choose hs hfun using fun i : Fin rs.length => request_functions Q others (n := (cpNdofs Q.cp.stellsym Q.cp.mpol Q.cp.ntor).1)
    R.plasma R.eval_nonneg (hrs rs[i] (List.getElem_mem _)).1 (hrs rs[i] (List.getElem_mem _)).2
  obtain ⟨z', hz'⟩ := pot_vector Q hz
  obtain ⟨x, hx⟩ := pot_vector Q hd.1
  obtain rfl : c = List.ofFn x := by
    rw [hc, hphi] at hx
    exact Val.array.inj hx
  have hraw : ∀ r ∈ rs, (rawOf (shippedRegistry FieldProblem.fns others) r.name Q z).entries =
      (rawOf (shippedRegistry FieldProblem.fns others) r.name Q (phiOnly (.array (List.ofFn z')))).entries := by
    intro r hr
    obtain ⟨⟨q, hq, -⟩, -⟩ := (hrs r hr).2
    have hl : (shipped FieldProblem.fns).lookup r.name = some q := by
      cases hl : (shipped FieldProblem.fns).lookup r.name with
      | none =>
        simp only [shippedRegistry, hl] at hq
        split at hq <;> cases hq
      | some q' => simpa [shippedRegistry, hl] using hq
    rw [rawOf_shipped Q others hl (hz'.trans (hphi _)), rawOf_shipped Q others hl (hphi _)]
  have hneg : ∀ i, ∀ g ∈ hs i, g z' < 0 := by
    intro i
    have h1 := hstrict rs[i] (List.getElem_mem _)
    rw [hraw rs[i] (List.getElem_mem _)] at h1
    exact (hfun i).2.2 z' h1
  obtain ⟨m, hm, hmz⟩ := common_request_margin hneg
  -- the problem in terms of the coefficients
  let ι := Σ i : Fin rs.length, {g // g ∈ hs i}
  let H : ι → (Fin (cpNdofs Q.cp.stellsym Q.cp.mpol Q.cp.ntor).1 → ℝ) → ℝ := fun j => j.2.1
  have hfeas : ∀ (v : Fin rs.length → ℝ) (y : Fin (cpNdofs Q.cp.stellsym Q.cp.mpol Q.cp.ntor).1 → ℝ),
      UserFeasible (shippedRegistry FieldProblem.fns others) (withValues rs v) Q (phiOnly (.array (List.ofFn y))) ↔
        ∀ j : ι, H j y ≤ rs[j.1].relief (v j.1) := by
    intro v y
    rw [feasible_withValues]
    constructor
    · intro h1 j
      exact ((hfun j.1).2.1 _ _).1 (h1 j.1) _ j.2.2
    · intro h1 i
      exact ((hfun i).2.1 _ _).2 fun g hg => h1 ⟨i, g, hg⟩
  have hsame : withValues rs (fun i => rs[i].value) = rs := by
    unfold withValues
    conv_rhs => rw [← List.ofFn_getElem (xs := rs)]
    rfl
  have hfeas0 : ∀ y : Fin (cpNdofs Q.cp.stellsym Q.cp.mpol Q.cp.ntor).1 → ℝ,
      UserFeasible (shippedRegistry FieldProblem.fns others) rs Q (phiOnly (.array (List.ofFn y))) ↔ ∀ j : ι, H j y ≤ 0 := by
    intro y
    have := hfeas (fun i => rs[i].value) y
    rw [hsame] at this
    rw [this]
    simp [Request.relief]
  have hHc : ∀ j : ι, ConvexFn (H j) := by
    intro j x y a h0 h1
    have := ((hfun j.1).1 _ j.2.2).2 (Set.mem_univ x) (Set.mem_univ y) h0 (show 0 ≤ 1 - a by linarith) (by ring)
    exact this
  have hobj := (objective_convex Q others R.plasma R.eval_nonneg (cpNdofs Q.cp.stellsym Q.cp.mpol Q.cp.ntor).1 h).1
  have hx0 : ∀ j : ι, H j x ≤ 0 := (hfeas0 x).1 ((feasible_congr Q others hrs (hc.trans (hphi _).symm)).1 hd.2.1)
  have hdx : userObjective (shippedRegistry FieldProblem.fns others) objs Q d =
      userObjective (shippedRegistry FieldProblem.fns others) objs Q (phiOnly (.array (List.ofFn x))) :=
    objective_congr Q others h R.plasma R.eval_nonneg (hc.trans (hphi _).symm)
  have hgr : ∀ y, (∀ j : ι, H j y ≤ 0) → o.2.2 / |u| * μ * ∑ i, (x i - y i) ^ 2 ≤
      userObjective (shippedRegistry FieldProblem.fns others) objs Q (phiOnly (.array (List.ofFn y))) -
        userObjective (shippedRegistry FieldProblem.fns others) objs Q (phiOnly (.array (List.ofFn x))) := by
    intro y hy
    have := hgrow h ho hKo hw hu hrs hd (hpot y) ((hfeas0 y).2 hy) hc (hphi _)
    rw [hdx] at this
    rw [← sqDist_ofFn]
    exact this
  have hD : 0 ≤ userObjective (shippedRegistry FieldProblem.fns others) objs Q (phiOnly (.array (List.ofFn z'))) -
      userObjective (shippedRegistry FieldProblem.fns others) objs Q (phiOnly (.array (List.ofFn x))) :=
    le_trans (mul_nonneg hν.le (Finset.sum_nonneg fun i _ => sq_nonneg _))
      (hgr z' fun j => (hmz j.1 _ j.2.2).trans (by linarith))
  have hsq : 0 ≤ ∑ i, (z' i - x i) ^ 2 := Finset.sum_nonneg fun i _ => sq_nonneg _
  generalize hfd : (fun y : Fin (cpNdofs Q.cp.stellsym Q.cp.mpol Q.cp.ntor).1 → ℝ =>
    userObjective (shippedRegistry FieldProblem.fns others) objs Q (phiOnly (.array (List.ofFn y)))) = f at hobj
  have hfv : ∀ y, userObjective (shippedRegistry FieldProblem.fns others) objs Q (phiOnly (.array (List.ofFn y))) = f y :=
    fun y => congrFun hfd y
  simp only [hfv] at hgr hD ⊢
  have hK1 : 0 ≤ (16 * (f z' - f x) / (o.2.2 / |u| * μ) + 8 * ∑ i, (z' i - x i) ^ 2) / m := by positivity
  have hK2 : 0 ≤ 2 * (f z' - f x) / m := by positivity
  refine ⟨_, add_nonneg hK1 hK2, m / 2, by positivity, fun v δ h0 h1 hv => ?_⟩
  obtain ⟨⟨y0, hy0⟩, hall⟩ := small_change (f := f) hobj hHc hm (fun j => hmz j.1 _ j.2.2) hx0 hν hgr
    (ρ := fun j : ι => rs[j.1].relief (v j.1)) h0 h1 (by
      intro j
      have := hv j.1
      simp only [Request.relief]
      split
      · rwa [abs_sub_comm]
      · exact this)
  obtain ⟨k, hkl, hk⟩ := C125_exactly_one_solution Q others R h ⟨o, ho, hKo, hw⟩ (withValues_legal others hrs v)
    ⟨phiOnly (.array (List.ofFn y0)), hpot y0, (hfeas v y0).2 hy0⟩
  obtain ⟨y, rfl⟩ := eq_ofFn k hkl
  have hymin := (hk (phiOnly (.array (List.ofFn y)))).2 (hphi _)
  obtain ⟨h2, h3⟩ := hall y ((hfeas v y).1 hymin.2.1) fun y' hy' => by
    have := hymin.2.2 _ (hpot y') ((hfeas v y').2 hy')
    rwa [hfv, hfv] at this
  refine ⟨List.ofFn y, hk, ?_, ?_⟩
  · rw [sqDist_ofFn, add_mul]
    have := mul_nonneg hK2 h0
    linarith
  · rw [hfv, add_mul]
    have := mul_nonneg hK1 h0
    linarith

/-- The objectives have the same quantities and units, and weights that differ by at most the fraction `ε`. -/
def NearWeights (ε : ℝ) (objs objs' : List (String × UnitArg × ℝ)) : Prop :=
  List.Forall₂ (fun o o' => o'.1 = o.1 ∧ o'.2.1 = o.2.1 ∧ |o'.2.2 - o.2.2| ≤ ε * o.2.2) objs objs'

theorem nearWeights_objective (hp : 0 ≤ gridStep Q.plasma.phis * gridStep Q.plasma.thetas)
    (he : 0 ≤ gridStep Q.ePhis * gridStep Q.eThetas) {objs objs' : List (String × UnitArg × ℝ)} (h : ConvexObjectives objs) {ε : ℝ}
    (hn : NearWeights ε objs objs') {n : ℕ} (y : Fin n → ℝ) :
    (1 - ε) * userObjective (shippedRegistry FieldProblem.fns others) objs Q (phiOnly (.array (List.ofFn y))) ≤
        userObjective (shippedRegistry FieldProblem.fns others) objs' Q (phiOnly (.array (List.ofFn y))) ∧
      userObjective (shippedRegistry FieldProblem.fns others) objs' Q (phiOnly (.array (List.ofFn y))) ≤
        (1 + ε) * userObjective (shippedRegistry FieldProblem.fns others) objs Q (phiOnly (.array (List.ofFn y))) := by
  induction hn with
  | nil => simp [userObjective]
  | @cons o o' os os' h1 _ ih =>
    obtain ⟨e1, e2, e3⟩ := h1
    obtain ⟨i1, i2⟩ := ih fun o ho => h o (by simp [ho])
    obtain ⟨hname, hunit, -⟩ := h o (by simp)
    have hone := (objective_convex Q others hp he n (objs := [(o.1, o.2.1, 1)]) (by
      intro p hp
      rw [List.mem_singleton.1 hp]
      exact ⟨hname, hunit, zero_le_one⟩)).2 y
    simp only [userObjective, List.map_cons, List.map_nil, List.sum_cons, List.sum_nil, one_mul, add_zero, e1, e2] at *
    obtain ⟨h5, h6⟩ := abs_le.1 e3
    have h7 := mul_le_mul_of_nonneg_right h5 hone
    have h8 := mul_le_mul_of_nonneg_right h6 hone
    constructor <;> nlinarith

/-- **C176 (weights).** If all weights change by at most the fraction `ε < 1`, the squared distance of the two solutions, times the
weight of `f_K` over its unit, times a number that depends on geometry and grid only, is at most `2 ε/(1 - ε)` times the optimum. -/
theorem C176_weights {A B : ℕ} (R : Resolved Q A B) : ∃ μ > 0, ∀ {objs objs' : List (String × UnitArg × ℝ)} (_ : ConvexObjectives objs)
    {o : String × UnitArg × ℝ} {u : ℝ} (_ : o ∈ objs) (_ : o.1 = "f_K") (_ : 0 < o.2.2) (_ : o.2.1 = .scalar u)
    {rs : List Request} {sm : Option String}
    (_ : ∀ r ∈ rs, r.name ∈ affineNames ++ convexNames ∧ LegalUse (shippedRegistry FieldProblem.fns others) sm r.name r.unit r.type)
    {ε : ℝ} (_ : ε < 1) (_ : NearWeights ε objs objs') {d e : Dofs} {c k : List ℝ}
    (_ : UserMinimiser (shippedRegistry FieldProblem.fns others) objs rs Q (Pot Q) d)
    (_ : UserMinimiser (shippedRegistry FieldProblem.fns others) objs' rs Q (Pot Q) e) (_ : d "phi" = .array c) (_ : e "phi" = .array k),
    o.2.2 / |u| * μ * sqDist c k ≤ 2 * ε / (1 - ε) * userObjective (shippedRegistry FieldProblem.fns others) objs Q d := by
  obtain ⟨μ, hμ, hgrow⟩ := C126_quadratic_growth Q others R
  refine ⟨μ, hμ, ?_⟩
  intro objs objs' h o u ho hKo hw hu rs sm hrs ε hε1 hn d e c k hd he hc hk
  have hphi : ∀ c : List ℝ, phiOnly (.array c) "phi" = .array c := fun c => by simp [phiOnly]
  have h1 := hgrow h ho hKo hw hu hrs hd he.1 he.2.1 hc hk
  refine le_trans h1 ?_
  have h' : ConvexObjectives objs' := by
    intro o' ho'
    obtain ⟨i, hi, rfl⟩ := List.mem_iff_getElem.1 ho'
    have hl := hn.length_eq
    obtain ⟨e1, e2, e3⟩ := List.forall₂_iff_get.1 hn |>.2 i (by omega) hi
    simp only [List.get_eq_getElem] at e1 e2 e3
    obtain ⟨h2, h3, h4⟩ := h objs[i] (List.getElem_mem _)
    refine ⟨e1 ▸ h2, e2 ▸ h3, ?_⟩
    have := (abs_le.1 e3).1
    nlinarith
  obtain ⟨x, hx⟩ := pot_vector Q hd.1
  obtain ⟨y, hy⟩ := pot_vector Q he.1
  obtain ⟨-, b2⟩ := nearWeights_objective Q others R.plasma R.eval_nonneg h hn x
  obtain ⟨b3, -⟩ := nearWeights_objective Q others R.plasma R.eval_nonneg h hn y
  have hcmp := he.2.2 d hd.1 hd.2.1
  rw [objective_congr Q others h R.plasma R.eval_nonneg hx, objective_congr Q others h R.plasma R.eval_nonneg hy]
  rw [objective_congr Q others h' R.plasma R.eval_nonneg hx, objective_congr Q others h' R.plasma R.eval_nonneg hy] at hcmp
  have hpos : 0 < 1 - ε := by linarith
  rw [div_mul_eq_mul_div, le_div_iff₀ hpos]
  nlinarith

end

/-! ## Calls -/

/-- Values that differ by at most `δ`. -/
def NearValues (δ : ℝ) (v w : List ℝ) : Prop := List.Forall₂ (fun t t' => |t' - t| ≤ δ) v w

theorem zipRequests_near (ns ts : List String) (us : List UnitArg) {v w : List ℝ} {δ : ℝ} (h : NearValues δ v w) :
    List.Forall₂ (fun r r' : Request => SameButValue r r' ∧ |r'.value - r.value| ≤ δ) (zipRequests ns ts us v) (zipRequests ns ts us w) := by
  induction ns generalizing ts us v w with
  | nil => simp [zipRequests]
  | cons n ns ih =>
    cases ts with
    | nil => simp [zipRequests]
    | cons t ts =>
      cases us with
      | nil => simp [zipRequests]
      | cons u us =>
        cases h with
        | nil => simp [zipRequests]
        | cons h1 h2 => exact .cons ⟨⟨rfl, rfl, rfl⟩, h1⟩ (ih ts us h2)

/-- A legal convex call stays one when its values change. -/
theorem values_call (Q : FieldProblem) (others : List String) {a : QuadcoilArgs} (hca : ConvexCall a) {phiUnit : ℝ} {S : Setup}
    (hs : quadcoilSetup (shippedRegistry FieldProblem.fns others) Q a phiUnit = .ok S) {w : List ℝ}
    (hw : w.length = a.constraintValue.length) :
    (∃ S', quadcoilSetup (shippedRegistry FieldProblem.fns others) Q (a.withValues w) phiUnit = .ok S') ∧ ConvexCall (a.withValues w) := by
  have hzip : List.Forall₂ SameButValue a.requests (a.withValues w).requests := zipRequests_values _ _ _ _ _ hw.symm
  have hmem : ∀ r' ∈ (a.withValues w).requests, ∃ r ∈ a.requests, SameButValue r r' := by
    intro r' hr'
    obtain ⟨i, hi, rfl⟩ := List.mem_iff_getElem.1 hr'
    have hl := hzip.length_eq
    exact ⟨a.requests[i], List.getElem_mem _, List.forall₂_iff_get.1 hzip |>.2 i (by omega) hi⟩
  have hnames : (a.withValues w).requests.map (fun r : Request => r.name) = a.requests.map fun r => r.name := by
    refine List.ext_getElem (by simp [hzip.length_eq]) fun i h1 h2 => ?_
    simp only [List.getElem_map]
    exact (List.forall₂_iff_get.1 hzip |>.2 i (by simpa using h2) (by simpa using h1)).1
  constructor
  · obtain ⟨h1, h2, h3⟩ := (C131_setup_succeeds_iff_legal others Q a phiUnit).1 ⟨S, hs⟩
    refine (C131_setup_succeeds_iff_legal others Q (a.withValues w) phiUnit).2 ⟨h1, ⟨h2.1, h2.2.1, fun h => ?_, fun r' hr' => ?_⟩, ?_⟩
    · exact (h2.2.2.1 h).trans hw.symm
    · obtain ⟨r, hr, e1, e2, e3⟩ := hmem r' hr'
      rw [e1, e2, e3]
      exact h2.2.2.2 r hr
    · intro h
      rw [show (a.withValues w).mergeConstraints = a.mergeConstraints from rfl, hca.merge] at h
      cases h
  · refine ⟨hca.mode, hca.merge, hca.objectives, hca.current, fun r' hr' => ?_, ?_, ?_⟩
    · obtain ⟨r, hr, h1, -, h3⟩ := hmem r' hr'
      rw [h1, h3]
      exact hca.constraints r hr
    · rw [hnames]
      exact hca.huber
    · rw [hnames]
      exact hca.once

/-- **C176 (calls, limits).** The same for the problem handed to the solver: every call with values close to the given ones passes, its
problem has a solution, and all its solutions have one potential and one objective, close to those of the given call. -/
theorem C176_call_limits (Q : FieldProblem) (others : List String) {A B : ℕ} (R : Resolved Q A B) (hB : ∀ c, Q.bnormal c ≠ [])
    {a : QuadcoilArgs} (ha : ConvexCall a) {phiUnit : ℝ} (hpu : phiUnit ≠ 0)
    (hinit : ∀ p, a.phiInit = some p → p.length = HasQp.ndofs Q) {S : Setup}
    (hs : quadcoilSetup (shippedRegistry FieldProblem.fns others) Q a phiUnit = .ok S) {z : Dofs} (hz : Pot Q z)
    (hstrict : StrictlyFeasible (shippedRegistry FieldProblem.fns others) a.requests Q z) :
    ∃ c : List ℝ, ∃ F K δ0 : ℝ, 0 ≤ K ∧ 0 < δ0 ∧ (∃ x, FlatMinimiser S x) ∧
      (∀ x, FlatMinimiser S x → dofsOf S.template S.phiUnit x "phi" = .array c ∧ S.problem.f x = F) ∧
      ∀ (w : List ℝ) (δ : ℝ), 0 ≤ δ → δ ≤ δ0 → NearValues δ a.constraintValue w →
        ∃ S', quadcoilSetup (shippedRegistry FieldProblem.fns others) Q (a.withValues w) phiUnit = .ok S' ∧ (∃ x, FlatMinimiser S' x) ∧
          ∀ x, FlatMinimiser S' x → ∃ k, dofsOf S'.template S'.phiUnit x "phi" = .array k ∧ sqDist c k ≤ K * δ ∧
            |S'.problem.f x - F| ≤ K * δ := by
  have hlegal : ∀ r ∈ a.requests, r.name ∈ affineNames ++ convexNames ∧
      LegalUse (shippedRegistry FieldProblem.fns others) a.smoothing r.name r.unit r.type := fun r hr =>
    ⟨(ha.constraints r hr).1, (((C131_setup_succeeds_iff_legal others Q a phiUnit).1 ⟨S, hs⟩).2.1.2.2.2 r hr).1⟩
  obtain ⟨c, -, hex, hall, huser⟩ := C129_solver_problem_has_one_potential Q others R hB ha hpu hinit hs ⟨z, hz, hstrict.feasible⟩
  have hphi : ∀ c : List ℝ, phiOnly (.array c) "phi" = .array c := fun c => by simp [phiOnly]
  obtain ⟨K, hK, δ0, hδ0, hnear⟩ := C176_limits Q others R ha.objectives ha.current hlegal hz hstrict ((huser (phiOnly (.array c))).2 (hphi c)) (hphi c)
  refine ⟨c, _, K, δ0, hK, hδ0, hex, hall, fun w δ h0 h1 hw => ?_⟩
  obtain ⟨⟨S', hs'⟩, ha'⟩ := values_call Q others ha hs hw.length_eq.symm
  have hzip := zipRequests_near a.constraintName a.constraintType a.constraintUnit hw
  have hlen : a.requests.length = (a.withValues w).requests.length := hzip.length_eq
  have hget : ∀ (i : ℕ) (h1 : i < a.requests.length) (h2 : i < (a.withValues w).requests.length),
      SameButValue a.requests[i] (a.withValues w).requests[i] ∧ |(a.withValues w).requests[i].value - a.requests[i].value| ≤ δ :=
    fun i h1 h2 => (List.forall₂_iff_get.1 hzip).2 i h1 h2
  have heq : withValues a.requests (fun i => ((a.withValues w).requests[i.1]'(hlen ▸ i.2)).value) = (a.withValues w).requests := by
    refine List.ext_getElem (by simp [withValues, hlen]) fun i h1 h2 => ?_
    obtain ⟨⟨e1, e2, e3⟩, -⟩ := hget i (hlen ▸ h2) h2
    simp only [withValues, List.getElem_ofFn, Fin.getElem_fin, ← e1, ← e2, ← e3]
  obtain ⟨k, hk, hdist, hobj⟩ := hnear (fun i => ((a.withValues w).requests[i.1]'(hlen ▸ i.2)).value) δ h0 h1
    fun i => (hget i i.2 (hlen ▸ i.2)).2
  rw [heq] at hk
  have hkm := (hk (phiOnly (.array k))).2 (hphi k)
  obtain ⟨k', -, hex', hall', huser'⟩ := C129_solver_problem_has_one_potential Q others R hB ha' hpu hinit hs' ⟨_, hkm.1, hkm.2.1⟩
  obtain rfl : k = k' := by
    have := (huser' _).1 hkm
    rw [hphi] at this
    exact Val.array.inj this
  exact ⟨S', hs', hex', fun x hx => ⟨k, (hall' x hx).1, hdist, by rw [(hall' x hx).2]; exact hobj⟩⟩

/-- **C176 (calls, weights).** Two calls that differ in the weights by at most the fraction `ε < 1`: the potentials of the solutions
differ by an amount bounded by `ε`, the optimum, and a number that depends on geometry and grid only. -/
theorem C176_call_weights (Q : FieldProblem) (others : List String) {A B : ℕ} (R : Resolved Q A B) (hB : ∀ c, Q.bnormal c ≠ []) :
    ∃ μ > 0, ∀ {a a' : QuadcoilArgs} (_ : ConvexCall a) (_ : ConvexCall a') {phiUnit : ℝ} (_ : phiUnit ≠ 0)
      (_ : ∀ p, a.phiInit = some p → p.length = HasQp.ndofs Q) (_ : ∀ p, a'.phiInit = some p → p.length = HasQp.ndofs Q)
      (_ : a'.requests = a.requests) {o : String × UnitArg × ℝ} {u : ℝ} (_ : o ∈ a.objectives) (_ : o.1 = "f_K") (_ : 0 < o.2.2)
      (_ : o.2.1 = .scalar u) {ε : ℝ} (_ : ε < 1) (_ : NearWeights ε a.objectives a'.objectives) {S S' : Setup}
      (_ : quadcoilSetup (shippedRegistry FieldProblem.fns others) Q a phiUnit = .ok S)
      (_ : quadcoilSetup (shippedRegistry FieldProblem.fns others) Q a' phiUnit = .ok S') {x x' : List ℝ} (_ : FlatMinimiser S x)
      (_ : FlatMinimiser S' x'), ∃ c k, dofsOf S.template S.phiUnit x "phi" = .array c ∧
        dofsOf S'.template S'.phiUnit x' "phi" = .array k ∧
        o.2.2 / |u| * μ * sqDist c k ≤ 2 * ε / (1 - ε) * S.problem.f x := by
  obtain ⟨μ, hμ, hw⟩ := C176_weights Q others R
  refine ⟨μ, hμ, ?_⟩
  intro a a' ha ha' phiUnit hpu hinit hinit' hreq o u ho hK h0 hu ε hε hn S S' hs hs' x x' hx hx'
  have hlegal : ∀ r ∈ a.requests, r.name ∈ affineNames ++ convexNames ∧
      LegalUse (shippedRegistry FieldProblem.fns others) a.smoothing r.name r.unit r.type := fun r hr =>
    ⟨(ha.constraints r hr).1, (((C131_setup_succeeds_iff_legal others Q a phiUnit).1 ⟨S, hs⟩).2.1.2.2.2 r hr).1⟩
  have hE : Q.ePhis ≠ [] ∧ Q.eThetas ≠ [] := by
    have h1 := R.two_le_A
    have h2 := R.two_le_B
    rw [R.ePhis, R.eThetas]
    constructor <;> (intro h; have := congrArg List.length h; simp [linspace0] at this; omega)
  have hreg := shipped_auxNames FieldProblem.fns others
  obtain ⟨m1, f1⟩ := C107_flat_minimiser_solves hreg hs hpu ha.merge hinit (call_wellPosed Q others hE hB R.plasma R.eval_nonneg ha) hx
  obtain ⟨m2, -⟩ := C107_flat_minimiser_solves hreg hs' hpu ha'.merge hinit' (call_wellPosed Q others hE hB R.plasma R.eval_nonneg ha') hx'
  obtain ⟨c, hc, -⟩ := m1.1
  obtain ⟨k, hk, -⟩ := m2.1
  rw [hreq] at m2
  rw [f1]
  exact ⟨c, k, hc, hk, hw ha.objectives ho hK h0 hu hlegal hε hn m1 m2 hc hk⟩

end Verif
