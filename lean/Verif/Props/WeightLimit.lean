import Verif.Props.Prices
import Verif.Props.ReturnedPotential
import Verif.Props.SetupErrors

/-!
# C164: a weight and a limit describe the same solutions
-/

namespace Verif

open scoped BigOperators

/-- A quantity with a unit, to be used as an objective with a weight or as a constraint with an upper limit. -/
structure Weighable where
  name : String
  unit : UnitArg

/-- The quantities as objectives. -/
def Weighable.objectives (qs : List Weighable) (w : Fin qs.length → ℝ) : List (String × UnitArg × ℝ) :=
  List.ofFn fun i => (qs[i].name, qs[i].unit, w i)

/-- The quantities as constraints. -/
def Weighable.limits (qs : List Weighable) (v : Fin qs.length → ℝ) : List Request :=
  List.ofFn fun i => ⟨qs[i].name, "<=", qs[i].unit, v i⟩

variable (Q : FieldProblem) (others : List String)

/-- The value of a quantity. -/
noncomputable def Weighable.value (q : Weighable) (d : Dofs) : ℝ :=
  (rawOf (shippedRegistry FieldProblem.fns others) q.name Q d).entries.headD 0

/-- The potential is best for all objectives with weights, keeps the limits, and reaches the limits of the quantities that have a weight. -/
def BestForWeights (objs : List (String × UnitArg × ℝ)) (rs : List Request) (qs : List Weighable) (w v : Fin qs.length → ℝ) (d : Dofs) : Prop :=
  UserMinimiser (shippedRegistry FieldProblem.fns others) (objs ++ Weighable.objectives qs w) rs Q (Pot Q) d ∧
    ∀ i, Weighable.value Q others qs[i] d ≤ v i ∧ (w i ≠ 0 → Weighable.value Q others qs[i] d = v i)

/-- The potential is best for the other objectives under the limits. -/
def BestForLimits (objs : List (String × UnitArg × ℝ)) (rs : List Request) (qs : List Weighable) (v : Fin qs.length → ℝ) (d : Dofs) : Prop :=
  UserMinimiser (shippedRegistry FieldProblem.fns others) objs (rs ++ Weighable.limits qs v) Q (Pot Q) d

theorem weighable_entries (hp : 0 ≤ gridStep Q.plasma.phis * gridStep Q.plasma.thetas) (he : 0 ≤ gridStep Q.ePhis * gridStep Q.eThetas)
    {q : Weighable} (hq : q.name ∈ objectiveNames) {d : Dofs} (hd : Pot Q d) :
    (rawOf (shippedRegistry FieldProblem.fns others) q.name Q d).entries = [Weighable.value Q others q d] := by
  obtain ⟨f, hf, hval⟩ := objective_value Q hp he q.name hq
  obtain ⟨c, hc, -⟩ := hd
  obtain ⟨y, hy, -⟩ := hval c
  rw [Weighable.value, rawOf_shipped Q others hf hc, hy, List.headD_cons]

theorem userFeasible_append {reg : Registry FieldProblem} {rs ss : List Request} {d : Dofs} :
    UserFeasible reg (rs ++ ss) Q d ↔ UserFeasible reg rs Q d ∧ UserFeasible reg ss Q d := by
  simp only [UserFeasible, List.mem_append]
  exact ⟨fun h => ⟨fun r hr => h r (.inl hr), fun r hr => h r (.inr hr)⟩, fun h r hr => hr.elim (h.1 r) (h.2 r)⟩

theorem userObjective_weighted (objs : List (String × UnitArg × ℝ)) (qs : List Weighable) (w : Fin qs.length → ℝ) (d : Dofs) :
    userObjective (shippedRegistry FieldProblem.fns others) (objs ++ Weighable.objectives qs w) Q d =
      userObjective (shippedRegistry FieldProblem.fns others) objs Q d + ∑ i, w i * (Weighable.value Q others qs[i] d / qs[i].unit.size) := by
  simp only [userObjective, List.map_append, List.sum_append, Weighable.objectives, List.map_ofFn, List.sum_ofFn]
  rfl

theorem feasible_limits (hp : 0 ≤ gridStep Q.plasma.phis * gridStep Q.plasma.thetas) (he : 0 ≤ gridStep Q.ePhis * gridStep Q.eThetas)
    {qs : List Weighable} (hq : ∀ q ∈ qs, q.name ∈ objectiveNames) (v : Fin qs.length → ℝ) {d : Dofs} (hd : Pot Q d) :
    UserFeasible (shippedRegistry FieldProblem.fns others) (Weighable.limits qs v) Q d ↔ ∀ i, Weighable.value Q others qs[i] d ≤ v i := by
  simp only [UserFeasible, Weighable.limits, List.mem_ofFn', Set.mem_range, forall_exists_index, forall_apply_eq_imp_iff]
  refine forall_congr' fun i => ?_
  rw [weighable_entries Q others hp he (q := qs[i]) (hq _ (List.getElem_mem _)) hd]
  simp [FieldConstraint]

theorem size_nonneg (u : UnitArg) : 0 ≤ u.size := by cases u <;> simp [UnitArg.size]

/-- Larger values have a larger weighted sum. -/
theorem weighted_mono {qs : List Weighable} {w : Fin qs.length → ℝ} (hw : ∀ i, 0 ≤ w i) {a b : Fin qs.length → ℝ} (h : ∀ i, a i ≤ b i) :
    ∑ i, w i * (a i / qs[i].unit.size) ≤ ∑ i, w i * (b i / qs[i].unit.size) :=
  Finset.sum_le_sum fun i _ => mul_le_mul_of_nonneg_left (div_le_div_of_nonneg_right (h i) (size_nonneg _)) (hw i)

/-- **C164 (from weights to limits).** A potential that is best for weighted objectives is best for the remaining objectives under the
limits that it keeps, if it reaches those with a weight. This needs no convexity. -/
theorem C164_weights_give_limits (hp : 0 ≤ gridStep Q.plasma.phis * gridStep Q.plasma.thetas) (he : 0 ≤ gridStep Q.ePhis * gridStep Q.eThetas)
    {objs : List (String × UnitArg × ℝ)} {rs : List Request} {qs : List Weighable} (hq : ∀ q ∈ qs, q.name ∈ objectiveNames)
    {w v : Fin qs.length → ℝ} (hw : ∀ i, 0 ≤ w i) {d : Dofs} (hd : BestForWeights Q others objs rs qs w v d) :
    BestForLimits Q others objs rs qs v d := by
  obtain ⟨⟨g1, g2, g3⟩, g5⟩ := hd
  refine ⟨g1, (userFeasible_append Q).2 ⟨g2, (feasible_limits Q others hp he hq _ g1).2 fun i => (g5 i).1⟩, fun k hk hkf => ?_⟩
  obtain ⟨k1, k2⟩ := (userFeasible_append Q).1 hkf
  rw [feasible_limits Q others hp he hq _ hk] at k2
  have h4 := g3 k hk k1
  have h5 := weighted_mono hw k2
  have h6 : ∑ i, w i * (Weighable.value Q others qs[i] d / qs[i].unit.size) = ∑ i, w i * (v i / qs[i].unit.size) := by
    refine Finset.sum_congr rfl fun i _ => ?_
    by_cases h : w i = 0
    · simp [h]
    · rw [(g5 i).2 h]
  rw [userObjective_weighted, userObjective_weighted] at h4
  linarith

/-- **C164 (the limits that a solution reaches).** Let `d` be best for weighted objectives. With the values that `d` reaches as limits, the two
problems have the same solutions, up to solutions of the weighted problem that trade the weighted quantities for the other objectives. -/
theorem C164_same_solutions (hp : 0 ≤ gridStep Q.plasma.phis * gridStep Q.plasma.thetas) (he : 0 ≤ gridStep Q.ePhis * gridStep Q.eThetas)
    {objs : List (String × UnitArg × ℝ)} {rs : List Request} {qs : List Weighable} (hq : ∀ q ∈ qs, q.name ∈ objectiveNames ∧ 0 < q.unit.size)
    {w : Fin qs.length → ℝ} (hw : ∀ i, 0 ≤ w i) {d : Dofs}
    (hd : UserMinimiser (shippedRegistry FieldProblem.fns others) (objs ++ Weighable.objectives qs w) rs Q (Pot Q) d) (e : Dofs) :
    BestForLimits Q others objs rs qs (fun i => Weighable.value Q others qs[i] d) e ↔
      BestForWeights Q others objs rs qs w (fun i => Weighable.value Q others qs[i] d) e := by
  refine ⟨?_, C164_weights_give_limits Q others hp he (fun q h => (hq q h).1) hw⟩
  rintro ⟨g1, g2, g3⟩
  obtain ⟨h1, h2, h3⟩ := hd
  obtain ⟨g4, g5⟩ := (userFeasible_append Q).1 g2
  rw [feasible_limits Q others hp he (fun q h => (hq q h).1) _ g1] at g5
  have h4 := g3 d h1 ((userFeasible_append Q).2 ⟨h2, (feasible_limits Q others hp he (fun q h => (hq q h).1) _ h1).2 fun i => le_rfl⟩)
  have h6 := weighted_mono hw g5
  refine ⟨⟨g1, g4, fun k hk hkf => ?_⟩, fun i => ⟨g5 i, fun hi => ?_⟩⟩
  · have h5 := h3 k hk hkf
    rw [userObjective_weighted] at h5 ⊢
    linarith
  · have h5 := h3 e g1 g4
    rw [userObjective_weighted, userObjective_weighted] at h5
    have h7 := (Finset.sum_eq_sum_iff_of_le fun i _ => mul_le_mul_of_nonneg_left (div_le_div_of_nonneg_right (g5 i) (size_nonneg qs[i].unit))
      (hw i)).1 (le_antisymm h6 (by linarith)) i (Finset.mem_univ i)
    have h8 := (hq qs[i] (List.getElem_mem _)).2
    have h9 := mul_left_cancel₀ hi h7
    rwa [div_left_inj' h8.ne'] at h9

/-- A sum over the requests of two lists. -/
theorem sum_append_index {α : Type} (l m : List α) (f : Fin (l ++ m).length → ℝ) :
    ∑ i, f i = ∑ i : Fin l.length, f ⟨i, by simp; omega⟩ + ∑ i : Fin m.length, f ⟨l.length + i, by simp⟩ := by
  rw [← (finCongr (List.length_append (as := l) (bs := m)).symm).sum_comp, Fin.sum_univ_add]
  rfl

/-- **C164 (from limits to weights).** Let the objectives be convex and let some potential satisfy all constraints and limits strictly. If
there is a best potential under the limits, there are weights that are not negative such that the two problems have the same solutions: the best
ones under the limits are the best ones for the weighted objectives that keep the limits and reach those with a weight. The limits are
in the place of the weights. -/
theorem C164_limits_give_weights (hp : 0 ≤ gridStep Q.plasma.phis * gridStep Q.plasma.thetas)
    (he : 0 ≤ gridStep Q.ePhis * gridStep Q.eThetas) {objs : List (String × UnitArg × ℝ)} (h : ConvexObjectives objs)
    {rs : List Request} {qs : List Weighable} {v : Fin qs.length → ℝ} {sm : Option String} (hq : ∀ q ∈ qs, q.name ∈ objectiveNames ∧ 0 < q.unit.size)
    (hrs : ∀ r ∈ rs ++ Weighable.limits qs v, r.name ∈ affineNames ++ convexNames ∧
      LegalUse (shippedRegistry FieldProblem.fns others) sm r.name r.unit r.type)
    {z : Dofs} (hz : Pot Q z) (hstrict : StrictlyFeasible (shippedRegistry FieldProblem.fns others) (rs ++ Weighable.limits qs v) Q z)
    {d : Dofs} (hd : BestForLimits Q others objs rs qs v d) :
    ∃ w : Fin qs.length → ℝ, (∀ i, 0 ≤ w i) ∧ ∀ e, BestForLimits Q others objs rs qs v e ↔ BestForWeights Q others objs rs qs w v e := by
  obtain ⟨price, h0, h1, -⟩ := C143_prices Q others hp he h hrs hz hstrict hd
  have hlen : qs.length = (Weighable.limits qs v).length := by simp [Weighable.limits]
  let at' : Fin qs.length → Fin (rs ++ Weighable.limits qs v).length := fun i => ⟨rs.length + i, by simp [Weighable.limits]⟩
  let w : Fin qs.length → ℝ := fun i => price (at' i) * qs[i].unit.size
  have hw : ∀ i, 0 ≤ w i := fun i => mul_nonneg (h0 _) (size_nonneg _)
  have hwt : ∀ (a : Fin qs.length → ℝ), ∑ i, w i * (a i / qs[i].unit.size) = ∑ i, price (at' i) * a i := fun a => by
    refine Finset.sum_congr rfl fun i _ => ?_
    have h8 := (hq qs[i] (List.getElem_mem _)).2
    simp only [w]
    field_simp
  have key : ∀ e, Pot Q e → UserFeasible (shippedRegistry FieldProblem.fns others) rs Q e →
      userObjective (shippedRegistry FieldProblem.fns others) objs Q d - ∑ i, price (at' i) * (Weighable.value Q others qs[i] e - v i) ≤
        userObjective (shippedRegistry FieldProblem.fns others) objs Q e := by
    intro e hpe hfe
    let v' : Fin (rs ++ Weighable.limits qs v).length → ℝ := fun i =>
      if hi : i.1 < rs.length then (rs[i.1]).value else
        Weighable.value Q others (qs[i.1 - rs.length]'(by have := i.2; simp [Weighable.limits] at this; omega)) e
    have h2 := h1 v' e hpe (by
      rw [feasible_withValues]
      intro i
      simp only [v', Fin.getElem_fin]
      by_cases hi : i.1 < rs.length
      · rw [dif_pos hi, List.getElem_append_left hi]
        exact hfe _ (List.getElem_mem _)
      · have hlt : i.1 - rs.length < qs.length := by have := i.2; simp [Weighable.limits] at this; omega
        rw [dif_neg hi, List.getElem_append_right (by omega)]
        simp only [Weighable.limits, List.getElem_ofFn, Fin.getElem_fin]
        rw [weighable_entries Q others hp he (hq _ (List.getElem_mem hlt)).1 hpe]
        simp [FieldConstraint])
    rw [sum_append_index] at h2
    have h3 : ∀ i : Fin rs.length, Request.relief ((rs ++ Weighable.limits qs v)[i.1]'(by simp; omega)) (v' ⟨i, by simp; omega⟩) = 0 := by
      intro i
      simp only [v', dif_pos i.2, List.getElem_append_left i.2, Request.relief]
      split <;> ring
    have h4 : ∀ i : Fin qs.length, Request.relief ((rs ++ Weighable.limits qs v)[rs.length + i.1]'(by simp [Weighable.limits])) (v' (at' i)) =
        Weighable.value Q others qs[i] e - v i := by
      intro i
      simp [v', at', Request.relief, Weighable.limits]
    have h5 : ∑ i : Fin (Weighable.limits qs v).length, price ⟨rs.length + i, by simp⟩ *
        Request.relief ((rs ++ Weighable.limits qs v)[rs.length + i.1]'(by simp)) (v' ⟨rs.length + i, by simp⟩) =
          ∑ i, price (at' i) * (Weighable.value Q others qs[i] e - v i) := by
      rw [← (finCongr hlen).sum_comp]
      exact Finset.sum_congr rfl fun i _ => by rw [← h4]; rfl
    simp only [Fin.getElem_fin, h3, mul_zero, Finset.sum_const_zero, zero_add] at h2
    rwa [h5] at h2
  refine ⟨w, hw, fun e => ⟨?_, C164_weights_give_limits Q others hp he (fun q h => (hq q h).1) hw⟩⟩
  rintro ⟨g1, g2, g3⟩
  obtain ⟨g4, g5⟩ := (userFeasible_append Q).1 g2
  rw [feasible_limits Q others hp he (fun q h => (hq q h).1) _ g1] at g5
  have h2 : userObjective (shippedRegistry FieldProblem.fns others) objs Q e = userObjective (shippedRegistry FieldProblem.fns others) objs Q d :=
    le_antisymm (g3 d hd.1 hd.2.1) (hd.2.2 e g1 g2)
  have h3 := key e g1 g4
  have h4 : ∀ i, 0 ≤ price (at' i) * (v i - Weighable.value Q others qs[i] e) := fun i => mul_nonneg (h0 _) (sub_nonneg.2 (g5 i))
  have h5 : ∀ i, price (at' i) * (v i - Weighable.value Q others qs[i] e) = 0 := by
    have : ∑ i, price (at' i) * (v i - Weighable.value Q others qs[i] e) = - ∑ i, price (at' i) * (Weighable.value Q others qs[i] e - v i) := by
      rw [← Finset.sum_neg_distrib]
      exact Finset.sum_congr rfl fun i _ => by ring
    have h6 := (Finset.sum_eq_zero_iff_of_nonneg fun i _ => h4 i).1 (le_antisymm (by rw [this]; linarith) (Finset.sum_nonneg fun i _ => h4 i))
    exact fun i => h6 i (Finset.mem_univ i)
  refine ⟨⟨g1, g4, fun k hk hkf => ?_⟩, fun i => ⟨g5 i, fun hi => ?_⟩⟩
  · have h6 := key k hk hkf
    rw [userObjective_weighted, userObjective_weighted, hwt, hwt]
    have h7 : ∑ i, price (at' i) * Weighable.value Q others qs[i] e = ∑ i, price (at' i) * v i :=
      Finset.sum_congr rfl fun i _ => by linarith [h5 i]
    simp only [mul_sub, Finset.sum_sub_distrib] at h6
    linarith
  · rcases mul_eq_zero.1 (h5 i) with h6 | h6
    · exact absurd (by simp [w, h6]) hi
    · linarith

/-- The weighted quantities are convex objectives. -/
theorem weighted_convex {objs : List (String × UnitArg × ℝ)} (h : ConvexObjectives objs) {qs : List Weighable}
    (hq : ∀ q ∈ qs, q.name ∈ objectiveNames ∧ ∃ u, q.unit = .scalar u ∧ u ≠ 0) {w : Fin qs.length → ℝ} (hw : ∀ i, 0 ≤ w i) :
    ConvexObjectives (objs ++ Weighable.objectives qs w) := by
  intro o ho
  rcases List.mem_append.1 ho with ho | ho
  · exact h o ho
  · obtain ⟨i, rfl⟩ := List.mem_ofFn.1 ho
    exact ⟨(hq qs[i] (List.getElem_mem _)).1, (hq qs[i] (List.getElem_mem _)).2, hw i⟩

theorem weighable_size {q : Weighable} (h : ∃ u, q.unit = .scalar u ∧ u ≠ 0) : 0 < q.unit.size := by
  obtain ⟨u, hu, h0⟩ := h
  rw [hu]
  exact abs_pos.2 h0

/-- **C164 (one solution).** Let in addition the winding surface be resolved and let the objectives contain `f_K` with a positive weight. For
limits that some potential satisfies strictly there are weights, none negative, such that the problem with the weights and the problem with the limits
have the same solutions. -/
theorem C164_limits_are_weights {a b : ℕ} (hres : Resolved Q a b) {objs : List (String × UnitArg × ℝ)} (h : ConvexObjectives objs)
    (hK : ∃ o ∈ objs, o.1 = "f_K" ∧ 0 < o.2.2)
    {rs : List Request} {qs : List Weighable} {v : Fin qs.length → ℝ} {sm : Option String}
    (hq : ∀ q ∈ qs, q.name ∈ objectiveNames ∧ ∃ u, q.unit = .scalar u ∧ u ≠ 0)
    (hrs : ∀ r ∈ rs ++ Weighable.limits qs v, r.name ∈ affineNames ++ convexNames ∧
      LegalUse (shippedRegistry FieldProblem.fns others) sm r.name r.unit r.type)
    {z : Dofs} (hz : Pot Q z) (hstrict : StrictlyFeasible (shippedRegistry FieldProblem.fns others) (rs ++ Weighable.limits qs v) Q z) :
    ∃ w : Fin qs.length → ℝ, (∀ i, 0 ≤ w i) ∧ ∀ e, BestForLimits Q others objs rs qs v e ↔
      UserMinimiser (shippedRegistry FieldProblem.fns others) (objs ++ Weighable.objectives qs w) rs Q (Pot Q) e := by
  obtain ⟨c, hc, hone⟩ := C125_exactly_one_solution Q others hres h hK hrs ⟨z, hz, hstrict.feasible⟩
  have hd : BestForLimits Q others objs rs qs v (phiOnly (.array c)) := (hone _).2 (by simp [phiOnly])
  obtain ⟨w, hw, hsame⟩ := C164_limits_give_weights Q others hres.plasma hres.eval_nonneg h
    (fun q hq' => ⟨(hq q hq').1, weighable_size (hq q hq').2⟩) hrs hz hstrict hd
  have hd' := (hsame _).1 hd
  obtain ⟨c', hc', hone'⟩ := C125_exactly_one_solution Q others hres (weighted_convex h hq hw)
    (by obtain ⟨o, ho, ho'⟩ := hK; exact ⟨o, List.mem_append_left _ ho, ho'⟩)
    (fun r hr => hrs r (List.mem_append_left _ hr)) ⟨_, hd'.1.1, hd'.1.2.1⟩
  have hcc := (hone' _).1 hd'.1
  simp only [phiOnly] at hcc
  refine ⟨w, hw, fun e => (hone e).trans ?_⟩
  rw [hone', ← hcc]
  simp

/-- **C164 (one solution, the other direction).** With the values that the weighted problem reaches as limits, the two problems have the same
solution. -/
theorem C164_weights_are_limits {a b : ℕ} (hres : Resolved Q a b) {objs : List (String × UnitArg × ℝ)} (h : ConvexObjectives objs)
    (hK : ∃ o ∈ objs, o.1 = "f_K" ∧ 0 < o.2.2)
    {rs : List Request} {qs : List Weighable} {sm : Option String}
    (hq : ∀ q ∈ qs, q.name ∈ objectiveNames ∧ ∃ u, q.unit = .scalar u ∧ u ≠ 0)
    (hrs : ∀ r ∈ rs, r.name ∈ affineNames ++ convexNames ∧ LegalUse (shippedRegistry FieldProblem.fns others) sm r.name r.unit r.type)
    {w : Fin qs.length → ℝ} (hw : ∀ i, 0 ≤ w i) {d : Dofs}
    (hd : UserMinimiser (shippedRegistry FieldProblem.fns others) (objs ++ Weighable.objectives qs w) rs Q (Pot Q) d) (e : Dofs) :
    BestForLimits Q others objs rs qs (fun i => Weighable.value Q others qs[i] d) e ↔
      UserMinimiser (shippedRegistry FieldProblem.fns others) (objs ++ Weighable.objectives qs w) rs Q (Pot Q) e := by
  rw [C164_same_solutions Q others hres.plasma hres.eval_nonneg (fun q hq' => ⟨(hq q hq').1, weighable_size (hq q hq').2⟩) hw hd]
  refine ⟨fun h => h.1, fun h' => ⟨h', ?_⟩⟩
  obtain ⟨c, hc, hone⟩ := C125_exactly_one_solution Q others hres (weighted_convex h hq hw)
    (by obtain ⟨o, ho, ho'⟩ := hK; exact ⟨o, List.mem_append_left _ ho, ho'⟩) hrs ⟨d, hd.1, hd.2.1⟩
  have h1 := (hone d).1 hd
  have h2 := (hone e).1 h'
  have h3 : ∀ q ∈ qs, Weighable.value Q others q e = Weighable.value Q others q d := by
    intro q hq'
    obtain ⟨f, hf, -⟩ := objective_value Q hres.plasma hres.eval_nonneg q.name (hq q hq').1
    rw [Weighable.value, Weighable.value, rawOf_shipped Q others hf h1, rawOf_shipped Q others hf h2]
  exact fun i => ⟨(h3 _ (List.getElem_mem _)).le, fun _ => h3 _ (List.getElem_mem _)⟩

/-- **C164 (calls).** A call with limits, and a call that has the right weights in their place: the problems passed to the solver have minimisers,
and all minimisers of both have the same potential. -/
theorem C164_calls {A B : ℕ} (R : Resolved Q A B) (hB : ∀ c, Q.bnormal c ≠ []) {a : QuadcoilArgs} (ha : ConvexCall a) {phiUnit : ℝ}
    (hu : phiUnit ≠ 0) (hinit : ∀ p, a.phiInit = some p → p.length = HasQp.ndofs Q) {S : Setup}
    (hs : quadcoilSetup (shippedRegistry FieldProblem.fns others) Q a phiUnit = .ok S) {rs : List Request} {qs : List Weighable}
    {v : Fin qs.length → ℝ} (hq : ∀ q ∈ qs, q.name ∈ objectiveNames ∧ ∃ u, q.unit = .scalar u ∧ u ≠ 0)
    (hreq : a.requests = rs ++ Weighable.limits qs v) {z : Dofs} (hz : Pot Q z)
    (hstrict : StrictlyFeasible (shippedRegistry FieldProblem.fns others) a.requests Q z) :
    ∃ w : Fin qs.length → ℝ, (∀ i, 0 ≤ w i) ∧ ∀ {b : QuadcoilArgs} (_ : ConvexCall b) (_ : b.objectives = a.objectives ++ Weighable.objectives qs w)
      (_ : b.requests = rs) {phiUnit' : ℝ} (_ : phiUnit' ≠ 0) (_ : ∀ p, b.phiInit = some p → p.length = HasQp.ndofs Q) {S' : Setup}
      (_ : quadcoilSetup (shippedRegistry FieldProblem.fns others) Q b phiUnit' = .ok S'),
      ∃ c : List ℝ, c.length = HasQp.ndofs Q ∧
        (∃ x, FlatMinimiser S x) ∧ (∀ x, FlatMinimiser S x → dofsOf S.template S.phiUnit x "phi" = .array c) ∧
        (∃ x, FlatMinimiser S' x) ∧ ∀ x, FlatMinimiser S' x → dofsOf S'.template S'.phiUnit x "phi" = .array c := by
  have hlegal := ((C131_setup_succeeds_iff_legal others Q a phiUnit).1 ⟨S, hs⟩).2.1.2.2.2
  obtain ⟨w, hw, hsame⟩ := C164_limits_are_weights Q others R ha.objectives ha.current hq
    (rs := rs) (v := v) (sm := a.smoothing) (by
      rw [← hreq]
      exact fun r hr => ⟨(ha.constraints r hr).1, (hlegal r hr).1⟩) hz (by rwa [← hreq])
  refine ⟨w, hw, ?_⟩
  intro b hb hobj hbreq phiUnit' hu' hinit' S' hs'
  obtain ⟨c, hcl, hex, hall, huser⟩ := C129_solver_problem_has_one_potential Q others R hB ha hu hinit hs ⟨z, hz, hstrict.feasible⟩
  obtain ⟨c', hcl', hex', hall', huser'⟩ := C129_solver_problem_has_one_potential Q others R hB hb hu' hinit' hs'
    ⟨z, hz, by rw [hbreq]; have := hstrict.feasible; rw [hreq] at this; exact ((userFeasible_append Q).1 this).1⟩
  have h1 := (hsame (phiOnly (.array c))).1 (by
    rw [BestForLimits, ← hreq, huser]
    simp [phiOnly])
  rw [← hobj, ← hbreq, huser'] at h1
  simp only [phiOnly, if_true] at h1
  have hcc : c' = c := by simpa using h1.symm
  subst hcc
  exact ⟨c', hcl, hex, fun x hx => (hall x hx).1, hex', fun x hx => (hall' x hx).1⟩

/-- **C164 (trade-off).** A larger weight on one quantity does not make it larger, and does not make the other objectives smaller. This
needs no convexity. -/
theorem C164_trade_off {objs : List (String × UnitArg × ℝ)} {rs : List Request} {q : Weighable} (hq : 0 < q.unit.size)
    {w w' : ℝ} (hw : 0 ≤ w) (hww : w < w') {d e : Dofs}
    (hd : UserMinimiser (shippedRegistry FieldProblem.fns others) (objs ++ [(q.name, q.unit, w)]) rs Q (Pot Q) d)
    (he : UserMinimiser (shippedRegistry FieldProblem.fns others) (objs ++ [(q.name, q.unit, w')]) rs Q (Pot Q) e) :
    Weighable.value Q others q e ≤ Weighable.value Q others q d ∧
      userObjective (shippedRegistry FieldProblem.fns others) objs Q d ≤ userObjective (shippedRegistry FieldProblem.fns others) objs Q e := by
  have hobj : ∀ (w : ℝ) (d : Dofs), userObjective (shippedRegistry FieldProblem.fns others) (objs ++ [(q.name, q.unit, w)]) Q d =
      userObjective (shippedRegistry FieldProblem.fns others) objs Q d + w * (Weighable.value Q others q d / q.unit.size) := by
    intro w d
    simp [userObjective, Weighable.value]
  have h1 := hd.2.2 e he.1 he.2.1
  have h2 := he.2.2 d hd.1 hd.2.1
  rw [hobj, hobj] at h1 h2
  have h3 : Weighable.value Q others q e / q.unit.size ≤ Weighable.value Q others q d / q.unit.size := by
    by_contra hc
    push Not at hc
    nlinarith
  refine ⟨(div_le_div_iff_of_pos_right hq).1 h3, ?_⟩
  nlinarith [mul_le_mul_of_nonneg_left h3 hw]

end Verif
