import Verif.Props.GapBound
import Verif.Props.StrictMultipliers
import Verif.Lemmas.Slater

/-! # What a change of the constraint values costs

C143. The requested constraint values enter the optimum as the right hand sides of a convex problem. -/

namespace Verif

/-! ## Prices in a convex problem -/

/-- Multipliers for inequalities with any finite index type. -/
theorem exists_multipliers_fintype {N : ℕ} {ι : Type} [Fintype ι] {f : (Fin N → ℝ) → ℝ} {G : (Fin N → ℝ) → ι → ℝ}
    (hf : ConvexOn ℝ Set.univ f) (hG : ∀ j, ConvexOn ℝ Set.univ fun y => G y j) {z : Fin N → ℝ} (hz : ∀ j, G z j < 0) {v : ℝ}
    (hv : ∀ y, (∀ j, G y j ≤ 0) → v ≤ f y) : ∃ mu : ι → ℝ, (∀ j, 0 ≤ mu j) ∧ ∀ y, v ≤ f y + ∑ j, mu j * G y j := by
  let e := Fintype.equivFin ι
  obtain ⟨mu, h0, h1⟩ := exists_multipliers (G := fun y j => G y (e.symm j)) hf (fun j => hG _) (fun j => hz _)
    (fun y hy => hv y fun j => by simpa using hy (e j))
  refine ⟨fun j => mu (e j), fun j => h0 _, fun y => (h1 y).trans_eq ?_⟩
  congr 1
  rw [← e.sum_comp]
  simp

/-- One price for each block of inequalities `h y ≤ v i`. -/
theorem exists_prices {N n : ℕ} {f : (Fin N → ℝ) → ℝ} {hs : Fin n → List ((Fin N → ℝ) → ℝ)} (hf : ConvexOn ℝ Set.univ f)
    (hc : ∀ i, ∀ h ∈ hs i, ConvexOn ℝ Set.univ h) {v : Fin n → ℝ} {z : Fin N → ℝ} (hz : ∀ i, ∀ h ∈ hs i, h z < v i) {p : ℝ}
    (hp : ∀ y, (∀ i, ∀ h ∈ hs i, h y ≤ v i) → p ≤ f y) :
    ∃ pi : Fin n → ℝ, (∀ i, 0 ≤ pi i) ∧ ∀ (w : Fin n → ℝ) (y : Fin N → ℝ), (∀ i, ∀ h ∈ hs i, h y ≤ w i) →
      p - ∑ i, pi i * (w i - v i) ≤ f y := by
  obtain ⟨mu, h0, h1⟩ := exists_multipliers_fintype (ι := Σ i : Fin n, Fin (hs i).length)
    (G := fun y j => (hs j.1)[j.2] y - v j.1) hf
    (fun j => by
      have h := hc j.1 _ (List.getElem_mem j.2.2)
      refine ⟨convex_univ, fun x hx y hy a b ha hb hab => ?_⟩
      have h1 := h.2 hx hy ha hb hab
      have h2 : v j.1 = a * v j.1 + b * v j.1 := by rw [← add_mul, hab, one_mul]
      simp only [smul_eq_mul, Fin.getElem_fin] at h1 ⊢
      linarith)
    (z := z) (fun j => sub_neg.2 (hz j.1 _ (List.getElem_mem j.2.2)))
    (v := p) (fun y hy => hp y fun i h hh => by
      obtain ⟨k, hk, rfl⟩ := List.mem_iff_getElem.1 hh
      have := hy ⟨i, k, hk⟩
      simpa using this)
  refine ⟨fun i => ∑ k, mu ⟨i, k⟩, fun i => Finset.sum_nonneg fun k _ => h0 _, fun w y hy => ?_⟩
  have h2 := h1 y
  rw [Fintype.sum_sigma] at h2
  have h3 : ∑ i, ∑ k, mu ⟨i, k⟩ * ((hs i)[k] y - v i) ≤ ∑ i, (∑ k, mu ⟨i, k⟩) * (w i - v i) := by
    refine Finset.sum_le_sum fun i _ => ?_
    rw [Finset.sum_mul]
    refine Finset.sum_le_sum fun k _ => mul_le_mul_of_nonneg_left ?_ (h0 _)
    exact sub_le_sub_right (hy i _ (List.getElem_mem k.2)) _
  linarith

/-! ## The requested values -/

/-- The requests with other values. -/
def withValues (rs : List Request) (v : Fin rs.length → ℝ) : List Request := List.ofFn fun i => { rs[i] with value := v i }

/-- By how much the new value is weaker. -/
def Request.relief (r : Request) (v : ℝ) : ℝ := if r.type = ">=" then r.value - v else v - r.value

variable (Q : FieldProblem) (others : List String)

theorem feasible_withValues {reg : Registry FieldProblem} {rs : List Request} {v : Fin rs.length → ℝ} {d : Dofs} :
    UserFeasible reg (withValues rs v) Q d ↔ ∀ i, FieldConstraint rs[i].type (v i) (rawOf reg rs[i].name Q d).entries := by
  simp only [UserFeasible, withValues, List.mem_ofFn', Set.mem_range, forall_exists_index, forall_apply_eq_imp_iff]

/-- The functions are convex; the request with value `v` says that they are at most the relief; they are negative where the request
holds strictly. -/
def RequestFunctions (r : Request) (n : ℕ) (hs : List ((Fin n → ℝ) → ℝ)) : Prop :=
  (∀ h ∈ hs, ConvexOn ℝ Set.univ h) ∧
      (∀ (v : ℝ) (x : Fin n → ℝ), FieldConstraint r.type v
        (rawOf (shippedRegistry FieldProblem.fns others) r.name Q (phiOnly (.array (List.ofFn x)))).entries ↔
          ∀ h ∈ hs, h x ≤ r.relief v) ∧
      (∀ x : Fin n → ℝ, (r.type = "<=" ∧ ∀ t ∈ (rawOf (shippedRegistry FieldProblem.fns others) r.name Q
          (phiOnly (.array (List.ofFn x)))).entries, t < r.value) ∨ (r.type = ">=" ∧ ∀ t ∈ (rawOf (shippedRegistry FieldProblem.fns others)
          r.name Q (phiOnly (.array (List.ofFn x)))).entries, r.value < t) → ∀ h ∈ hs, h x < 0)

/-- A constraint on an affine or convex quantity is a list of convex functions with an upper bound that moves with the value. -/
theorem request_functions (hp : 0 ≤ gridStep Q.plasma.phis * gridStep Q.plasma.thetas)
    (he : 0 ≤ gridStep Q.ePhis * gridStep Q.eThetas) {n : ℕ} {r : Request} (hname : r.name ∈ affineNames ++ convexNames) {sm : Option String}
    (hlegal : LegalUse (shippedRegistry FieldProblem.fns others) sm r.name r.unit r.type) :
    ∃ hs, RequestFunctions Q others r n hs := by
  have hd : ∀ c : List ℝ, phiOnly (.array c) "phi" = .array c := fun c => by simp [phiOnly]
  obtain ⟨⟨q', hq', hc⟩, -, -⟩ := hlegal
  -- entries as functions
  have cvx : ∀ f : List ℝ → ℝ, ConvexOnVectors n f → ∀ s : ℝ, ConvexOn ℝ Set.univ fun x : Fin n → ℝ => f (List.ofFn x) - s := by
    intro f hf s
    refine ⟨convex_univ, fun x _ y _ a b ha hb hab => ?_⟩
    have hb' : b = 1 - a := by linarith
    subst hb'
    have := hf (List.ofFn x) (List.ofFn y) (by simp) (by simp) a ha (by linarith)
    rw [show comb a (1 - a) (List.ofFn x) (List.ofFn y) = List.ofFn (a • x + (1 - a) • y) from by
      simp only [comb, zipWith_ofFn]; rfl] at this
    simp only [smul_eq_mul]
    linarith
  have neg : ∀ f : List ℝ → ℝ, AffineOnVectors n f → ConvexOnVectors n fun c => -f c := by
    intro f hf c d h1 h2 a _ _
    show -f _ ≤ a * -f c + (1 - a) * -f d
    rw [hf c d h1 h2 a]
    linarith
  have up : r.type = "<=" → ∀ (fs : List (List ℝ → ℝ)), (∀ f ∈ fs, ConvexOnVectors n f) →
      (∀ c, (rawOf (shippedRegistry FieldProblem.fns others) r.name Q (phiOnly (.array c))).entries = fs.map fun f => f c) →
      ∃ hs, RequestFunctions Q others r n hs := by
    intro h1 fs hfs hval
    refine ⟨fs.map fun f => fun x => f (List.ofFn x) - r.value, ?_, ?_, ?_⟩
    · simp only [List.mem_map, forall_exists_index, and_imp, forall_apply_eq_imp_iff₂]
      exact fun f hf => cvx f (hfs f hf) _
    · intro v x
      simp [hval, FieldConstraint, h1, Request.relief]
    · intro x hx
      simpa [hval, h1] using hx
  have none' : r.type ≠ "<=" → r.type ≠ ">=" → r.type ≠ "==" →
      ∃ hs, RequestFunctions Q others r n hs := by
    intro h1 h2 h3
    exact ⟨[], by simp, by simp [FieldConstraint, h1, h2, h3], by simp⟩
  rcases List.mem_append.1 hname with h | h
  · obtain ⟨q, hq, fs, hfs, haff⟩ := C124_affine_partial (n := n) Q r.name h
    obtain rfl : q = q' := by simpa [shippedRegistry, hq] using hq'
    have hne : r.type ≠ "==" := fun h' => affine_compat r.name h q hq (h' ▸ hc)
    have hval : ∀ c, (rawOf (shippedRegistry FieldProblem.fns others) r.name Q (phiOnly (.array c))).entries = fs.map fun f => f c :=
      fun c => by rw [rawOf_shipped Q others hq (hd c), hfs]
    by_cases h1 : r.type = "<="
    · exact up h1 fs (fun f hf => (haff f hf).convex) hval
    · by_cases h2 : r.type = ">="
      · refine ⟨fs.map fun f => fun x => -f (List.ofFn x) - -r.value, ?_, ?_, ?_⟩
        · simp only [List.mem_map, forall_exists_index, and_imp, forall_apply_eq_imp_iff₂]
          exact fun f hf => cvx _ (neg f (haff f hf)) _
        · intro v x
          simp only [hval, FieldConstraint, h2, Request.relief, List.mem_map, forall_exists_index, and_imp,
            forall_apply_eq_imp_iff₂, String.reduceEq, false_imp_iff, true_and, forall_const, and_true, if_true]
          exact forall₂_congr fun f _ => ⟨fun h => by linarith, fun h => by linarith⟩
        · intro x hx
          simp only [hval, h2, String.reduceEq, false_and, false_or, true_and, List.mem_map, forall_exists_index, and_imp,
            forall_apply_eq_imp_iff₂] at hx ⊢
          exact fun f hf => by linarith [hx f hf]
      · exact none' h1 h2 hne
  · obtain ⟨q, hq, fs, hfs, hconv⟩ := C124_convex_partial (n := n) Q hp he r.name h
    obtain rfl : q = q' := by simpa [shippedRegistry, hq] using hq'
    obtain ⟨hge, heq⟩ := convex_compat r.name h q hq
    have hval : ∀ c, (rawOf (shippedRegistry FieldProblem.fns others) r.name Q (phiOnly (.array c))).entries = fs.map fun f => f c :=
      fun c => by rw [rawOf_shipped Q others hq (hd c), hfs]
    by_cases h1 : r.type = "<="
    · exact up h1 fs hconv hval
    · exact none' h1 (fun h' => hge (h' ▸ hc)) fun h' => heq (h' ▸ hc)

theorem withValues_legal {rs : List Request} {sm : Option String}
    (hrs : ∀ r ∈ rs, r.name ∈ affineNames ++ convexNames ∧ LegalUse (shippedRegistry FieldProblem.fns others) sm r.name r.unit r.type)
    (v : Fin rs.length → ℝ) :
    ∀ r ∈ withValues rs v, r.name ∈ affineNames ++ convexNames ∧
      LegalUse (shippedRegistry FieldProblem.fns others) sm r.name r.unit r.type := by
  intro r hr
  simp only [withValues, List.mem_ofFn', Set.mem_range] at hr
  obtain ⟨i, rfl⟩ := hr
  exact hrs rs[i] (List.getElem_mem _)

theorem withValues_self (rs : List Request) : withValues rs (fun i => rs[i].value) = rs := by
  simp [withValues]

/-- A potential as a vector. -/
theorem pot_vector {d : Dofs} (h : Pot Q d) :
    ∃ x : Fin (cpNdofs Q.cp.stellsym Q.cp.mpol Q.cp.ntor).1 → ℝ, d "phi" = phiOnly (.array (List.ofFn x)) "phi" := by
  obtain ⟨c, hc, hlen⟩ := h
  obtain ⟨x, rfl⟩ := eq_ofFn c hlen
  exact ⟨x, by rw [hc]; simp [phiOnly]⟩

theorem ConvexFn.convexOn {n : ℕ} {f : (Fin n → ℝ) → ℝ} (h : ConvexFn f) : ConvexOn ℝ Set.univ f := by
  refine ⟨convex_univ, fun x _ y _ a b ha hb hab => ?_⟩
  have hb' : b = 1 - a := by linarith
  subst hb'
  exact h x y a ha (by linarith)

/-- **C143 (convexity).** The optimum is a convex function of the constraint values: between two sets of values it lies on or below
the straight line. -/
theorem C143_optimum_convex (hp : 0 ≤ gridStep Q.plasma.phis * gridStep Q.plasma.thetas)
    (he : 0 ≤ gridStep Q.ePhis * gridStep Q.eThetas) {objs : List (String × UnitArg × ℝ)} (h : ConvexObjectives objs)
    {rs : List Request} {sm : Option String}
    (hrs : ∀ r ∈ rs, r.name ∈ affineNames ++ convexNames ∧ LegalUse (shippedRegistry FieldProblem.fns others) sm r.name r.unit r.type)
    {v w : Fin rs.length → ℝ} {a : ℝ} (ha : 0 ≤ a) (ha1 : a ≤ 1) {d e m : Dofs}
    (hd : UserMinimiser (shippedRegistry FieldProblem.fns others) objs (withValues rs v) Q (Pot Q) d)
    (he' : UserMinimiser (shippedRegistry FieldProblem.fns others) objs (withValues rs w) Q (Pot Q) e)
    (hm : UserMinimiser (shippedRegistry FieldProblem.fns others) objs (withValues rs fun i => a * v i + (1 - a) * w i) Q (Pot Q) m) :
    userObjective (shippedRegistry FieldProblem.fns others) objs Q m ≤
      a * userObjective (shippedRegistry FieldProblem.fns others) objs Q d +
        (1 - a) * userObjective (shippedRegistry FieldProblem.fns others) objs Q e := by
  obtain ⟨x, hx⟩ := pot_vector Q hd.1
  obtain ⟨y, hy⟩ := pot_vector Q he'.1
  have hdx := (feasible_congr Q others (withValues_legal others hrs _) hx).1 hd.2.1
  have hey := (feasible_congr Q others (withValues_legal others hrs _) hy).1 he'.2.1
  rw [feasible_withValues] at hdx hey
  rw [objective_congr Q others h hp he hx, objective_congr Q others h hp he hy]
  refine (hm.2.2 (phiOnly (.array (List.ofFn fun i => a * x i + (1 - a) * y i))) ⟨_, by simp [phiOnly]; rfl, by simp; rfl⟩ ?_).trans
    ((objective_convex Q others hp he _ h).1 x y a ha ha1)
  rw [feasible_withValues]
  intro i
  obtain ⟨hs, hc, hiff, -⟩ := request_functions Q others (n := (cpNdofs Q.cp.stellsym Q.cp.mpol Q.cp.ntor).1) hp he
    (hrs rs[i] (List.getElem_mem _)).1 (hrs rs[i] (List.getElem_mem _)).2
  rw [hiff]
  intro g hg
  have h1 := (hiff _ _).1 (hdx i) g hg
  have h2 := (hiff _ _).1 (hey i) g hg
  have h3 := (hc g hg).2 (Set.mem_univ x) (Set.mem_univ y) ha (sub_nonneg.2 ha1) (by ring)
  simp only [smul_eq_mul] at h3
  have h4 : (fun i => a * x i + (1 - a) * y i) = a • x + (1 - a) • y := rfl
  rw [h4]
  refine h3.trans ?_
  have h5 : Request.relief rs[i] (a * v i + (1 - a) * w i) = a * Request.relief rs[i] (v i) + (1 - a) * Request.relief rs[i] (w i) := by
    unfold Request.relief
    split <;> ring
  rw [h5]
  exact add_le_add (mul_le_mul_of_nonneg_left h1 ha) (mul_le_mul_of_nonneg_left h2 (sub_nonneg.2 ha1))

/-- **C143 (monotonicity).** Weaker constraint values do not make the optimum larger. Here any quantities are allowed. -/
theorem C143_optimum_monotone {reg : Registry FieldProblem} {objs : List (String × UnitArg × ℝ)} {rs : List Request}
    {v w : Fin rs.length → ℝ} (hle : ∀ i, rs[i].type = "<=" → v i ≤ w i) (hge : ∀ i, rs[i].type = ">=" → w i ≤ v i)
    (heq : ∀ i, rs[i].type = "==" → w i = v i) {d e : Dofs} (hd : UserMinimiser reg objs (withValues rs v) Q (Pot Q) d)
    (he : UserMinimiser reg objs (withValues rs w) Q (Pot Q) e) : userObjective reg objs Q e ≤ userObjective reg objs Q d := by
  refine he.2.2 d hd.1 ?_
  have hf := hd.2.1
  rw [feasible_withValues] at hf ⊢
  exact fun i => ⟨fun t x hx => ((hf i).1 t x hx).trans (hle i t), fun t x hx => (hge i t).trans ((hf i).2.1 t x hx),
    fun t x hx => ((hf i).2.2 t x hx).trans (heq i t).symm⟩

/-- **C143 (prices).** If some potential satisfies all constraints strictly, each constraint has a price that is not negative. For all
new constraint values, no potential that satisfies them has an objective below the present optimum minus the prices times the relief.
The price of a constraint that is not active at a solution is zero. -/
theorem C143_prices (hp : 0 ≤ gridStep Q.plasma.phis * gridStep Q.plasma.thetas)
    (he : 0 ≤ gridStep Q.ePhis * gridStep Q.eThetas) {objs : List (String × UnitArg × ℝ)} (h : ConvexObjectives objs)
    {rs : List Request} {sm : Option String}
    (hrs : ∀ r ∈ rs, r.name ∈ affineNames ++ convexNames ∧ LegalUse (shippedRegistry FieldProblem.fns others) sm r.name r.unit r.type)
    {z : Dofs} (hz : Pot Q z) (hstrict : StrictlyFeasible (shippedRegistry FieldProblem.fns others) rs Q z) {d : Dofs}
    (hd : UserMinimiser (shippedRegistry FieldProblem.fns others) objs rs Q (Pot Q) d) :
    ∃ price : Fin rs.length → ℝ, (∀ i, 0 ≤ price i) ∧
      (∀ (v : Fin rs.length → ℝ) (e : Dofs), Pot Q e → UserFeasible (shippedRegistry FieldProblem.fns others) (withValues rs v) Q e →
        userObjective (shippedRegistry FieldProblem.fns others) objs Q d - ∑ i, price i * rs[i].relief (v i) ≤
          userObjective (shippedRegistry FieldProblem.fns others) objs Q e) ∧
      ∀ i, StrictlyFeasible (shippedRegistry FieldProblem.fns others) [rs[i]] Q d → price i = 0 := by
  classical
  obtain ⟨x, hx⟩ := pot_vector Q hz
  choose hs hfun using fun i : Fin rs.length => request_functions Q others (n := (cpNdofs Q.cp.stellsym Q.cp.mpol Q.cp.ntor).1) hp he
    (hrs rs[i] (List.getElem_mem _)).1 (hrs rs[i] (List.getElem_mem _)).2
  have hraw : ∀ r ∈ rs, rawOf (shippedRegistry FieldProblem.fns others) r.name Q z =
      rawOf (shippedRegistry FieldProblem.fns others) r.name Q (phiOnly (.array (List.ofFn x))) := by
    intro r hr
    obtain ⟨⟨q, hq, -⟩, -⟩ := (hrs r hr).2
    have hl : (shipped FieldProblem.fns).lookup r.name = some q := by
      cases hl : (shipped FieldProblem.fns).lookup r.name with
      | none =>
        simp only [shippedRegistry, hl] at hq
        split at hq <;> cases hq
      | some q' => simpa [shippedRegistry, hl] using hq
    have he := shipped_phiOnly _ (mem_of_lookup hl) Q z _ hx
    simp only at he
    simp only [rawOf, hq, he]
  obtain ⟨price, h0, h1⟩ := exists_prices (v := fun _ => 0) (hs := hs) (z := x) (objective_convex Q others hp he _ h).1.convexOn
    (fun i => (hfun i).1) (fun i => (hfun i).2.2 x (by
      have := hstrict rs[i] (List.getElem_mem _)
      rwa [hraw rs[i] (List.getElem_mem _)] at this))
    (p := userObjective (shippedRegistry FieldProblem.fns others) objs Q d) (fun y hy => by
      refine hd.2.2 _ ⟨_, by simp [phiOnly]; rfl, by simp; rfl⟩ ?_
      rw [← withValues_self rs, feasible_withValues]
      intro i
      rw [(hfun i).2.1]
      have : Request.relief rs[i] rs[i].value = 0 := by
        unfold Request.relief
        split <;> ring
      rw [this]
      exact hy i)
  have key : ∀ (v : Fin rs.length → ℝ) (e : Dofs), Pot Q e →
      UserFeasible (shippedRegistry FieldProblem.fns others) (withValues rs v) Q e →
        userObjective (shippedRegistry FieldProblem.fns others) objs Q d - ∑ i, price i * rs[i].relief (v i) ≤
          userObjective (shippedRegistry FieldProblem.fns others) objs Q e := by
    intro v e hpe hfe
    obtain ⟨y, hy⟩ := pot_vector Q hpe
    have hfy := (feasible_congr Q others (withValues_legal others hrs _) hy).1 hfe
    rw [feasible_withValues] at hfy
    have := h1 (fun i => rs[i].relief (v i)) y fun i => ((hfun i).2.1 _ _).1 (hfy i)
    simp only [sub_zero] at this
    rwa [objective_congr Q others h hp he hy]
  refine ⟨price, h0, key, fun i hi => ?_⟩
  obtain ⟨ε, hε, ht⟩ := hi.tighten
  have hself : UserFeasible (shippedRegistry FieldProblem.fns others) (withValues rs fun i => rs[i].value) Q d := by
    rw [withValues_self]
    exact hd.2.1
  rw [feasible_withValues] at hself
  have h2 := key (Function.update (fun i => rs[i].value) i (rs[i].tighten ε).value) d hd.1 (by
    rw [feasible_withValues]
    intro j
    by_cases hj : j = i
    · subst hj
      rw [Function.update_self]
      exact ht (rs[j].tighten ε) (by simp)
    · rw [Function.update_of_ne hj]
      exact hself j)
  have h3 : ∑ j, price j * rs[j].relief (Function.update (fun i => rs[i].value) i (rs[i].tighten ε).value j) = price i * -ε := by
    rw [Finset.sum_eq_single i]
    · rw [Function.update_self]
      congr 1
      simp only [Request.relief, Request.tighten]
      split <;> ring
    · intro j _ hj
      rw [Function.update_of_ne hj]
      have : Request.relief rs[j] rs[j].value = 0 := by
        unfold Request.relief
        split <;> ring
      rw [this, mul_zero]
    · simp
  rw [h3] at h2
  have h4 : price i * ε ≤ 0 := by linarith
  exact le_antisymm (by by_contra hc; push Not at hc; exact absurd h4 (not_le.2 (mul_pos hc hε))) (h0 i)

/-! ## The multipliers in the status -/

/-- **C143 (status).** For a convex problem the multipliers that a run reports bound the objective at all points, feasible or not: it
is at least the reported objective minus the multipliers times the difference of the constraint values and the reported ones, minus
the reported gradient norm times the distance. This needs no convergence. -/
theorem C143_reported_multipliers {opt : Optimizer ℝ} (hc : opt.CountContract) (hv : opt.ValueContract) (hgr : opt.GradContract realGrad)
    (hshape : opt.ShapeContract realGrad) {N m n : ℕ} {p : Problem ℝ} {x0 : List ℝ} (hx0 : x0.length = N)
    {G : (Fin N → ℝ) → Fin n → ℝ} (hG : ∀ y, p.g (List.ofFn y) = List.ofFn (G y))
    {A : Fin m → (Fin N → ℝ) →L[ℝ] ℝ} {b : Fin m → ℝ} (hH : ∀ y, p.h (List.ofFn y) = List.ofFn fun i => A i y + b i)
    (hf : ConvexOn ℝ Set.univ fun y : Fin N → ℝ => p.f (List.ofFn y))
    (hfd : Differentiable ℝ fun y : Fin N → ℝ => p.f (List.ofFn y))
    (hGc : ∀ j, ConvexOn ℝ Set.univ fun y => G y j) (hGd : ∀ j, Differentiable ℝ fun y => G y j)
    (hlam : p.lamInit.length = m) (hmu : p.muInit.length = n) (hgrow : 1 ≤ p.cGrowth) (hcinit : 0 < p.cInit)
    {r : Status ℝ} (hr : solveConstrained opt realGrad p gplusHard x0 = some r) :
    ∃ s, outerLoop opt realGrad p gplusHard x0 = some s ∧ 0 < s.xUnit ∧ r.finMu.length = n ∧ (∀ t ∈ r.finMu, 0 ≤ t) ∧
      r.finLam.length = m ∧
      ∀ y : List ℝ, y.length = N →
        r.finF - Num.dot r.finMu (Num.vsub (p.g y) r.finG) - Num.dot r.finLam (Num.vsub (p.h y) r.finH)
          - r.finGradLAug * Num.norm (Num.vsub y r.finX) / s.xUnit ≤ p.f y := by
  obtain ⟨s, hs⟩ := outerLoop_terminates (opt := opt) (gradOp := realGrad) (p := p) (gplus := gplusHard) (x0 := x0) hc
  have hinv : GapInv N m n s := by
    refine outerLoop_invariant (GapInv N m n) hs ⟨hx0, hcinit, ?_, hlam, hmu⟩ ?_
    · simp [initStatus]
    · intro s t hs' _ hst
      exact (outer_step_lagrangian hc hv hgr hshape hG hH hf hfd hGc hGd hgrow hs' hst).1
  simp only [solveConstrained, hs, Option.bind_some] at hr
  obtain ⟨-, x, L, M, -, -, hfin, hfF, hfG, hfH, hfLam, hfMu, hstep⟩ :=
    outer_step_lagrangian hc hv hgr hshape hG hH hf hfd hGc hGd hgrow hinv hr
  refine ⟨s, hs, hinv.unit_pos, by rw [hfMu]; simp, ?_, by rw [hfLam]; simp, ?_⟩
  · rw [hfMu]
    intro t ht
    rw [List.mem_ofFn'] at ht
    obtain ⟨j, rfl⟩ := ht
    exact le_max_right _ _
  intro y hy
  obtain ⟨y, rfl⟩ := exists_ofFn hy
  have h1 := hstep y
  rw [hfF, hfG, hfH, hfMu, hfLam, hG, hH]
  simp only [Num.vsub, zipWith_ofFn, num_dot_ofFn, num_sub, mul_sub, Finset.sum_sub_distrib]
  simp only [Num.vsub] at h1
  linarith

end Verif
