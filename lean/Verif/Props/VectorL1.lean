import Verif.Props.ApproxLimit
import Verif.Props.Units
import Verif.Spec.ToyQp
import Mathlib.Data.List.GetD

/-!
# The L1 norm of a vector field, and the reference values behind the DESC units (C21, C95)
-/

namespace Verif

open Filter Topology

section
variable {P : Type} [HasQp P]

/-- Sum of the absolute values of the components of every vector, times the area that belongs to it: the L1 norm of a vector field
on a grid, written with indices. -/
noncomputable def l1NormVec (qp : P) (vs : List (List ℝ)) : ℝ :=
  (∑ i ∈ Finset.range (min (HasQp.da qp).length vs.length),
    (HasQp.da qp).getD i 0 * ∑ k ∈ Finset.range (vs.getD i []).length, |(vs.getD i []).getD k 0|) * HasQp.nfp qp

omit [HasQp P] in
theorem sum_zipWith_range (ds es : List ℝ) : (List.zipWith (· * ·) ds es).sum =
    ∑ i ∈ Finset.range (min ds.length es.length), ds.getD i 0 * es.getD i 0 := by
  induction ds generalizing es with
  | nil => simp
  | cons d ds ih =>
    cases es with
    | nil => simp
    | cons e es =>
      simp only [List.zipWith_cons_cons, List.sum_cons, ih, List.length_cons, Nat.succ_min_succ, Finset.sum_range_succ', List.getD_cons_succ,
        List.getD_cons_zero]
      ring

omit [HasQp P] in
theorem sum_map_range (f : ℝ → ℝ) (v : List ℝ) : (v.map f).sum = ∑ k ∈ Finset.range v.length, f (v.getD k 0) := by
  induction v with
  | nil => simp
  | cons x v ih => simp only [List.map_cons, List.sum_cons, ih, List.length_cons, Finset.sum_range_succ', List.getD_cons_succ,
      List.getD_cons_zero]; ring

theorem l1Integral_vec (qp : P) (f : ℝ → ℝ) (vs : List (List ℝ)) :
    Quantity.l1Integral qp (vs.map fun v => (v.map f).sum) = (∑ i ∈ Finset.range (min (HasQp.da qp).length vs.length),
      (HasQp.da qp).getD i 0 * ∑ k ∈ Finset.range (vs.getD i []).length, f ((vs.getD i []).getD k 0)) * HasQp.nfp qp := by
  rw [Quantity.l1Integral, sum_zipWith_range, List.length_map]
  congr 1
  refine Finset.sum_congr rfl fun i hi => ?_
  have hi' : i < vs.length := lt_of_lt_of_le (Finset.mem_range.1 hi) (min_le_right _ _)
  have h1 : (vs.map fun v => (v.map f).sum).getD i 0 = ((vs.getD i []).map f).sum := by
    rw [List.getD_eq_getElem (vs.map fun v => (v.map f).sum) 0 (by simpa using hi'), List.getElem_map, List.getD_eq_getElem _ _ hi']
  rw [h1, sum_map_range]

/-- **C21 (vector fields).** The L1 quantity of a vector field, of which the package has one (`f_l1_force_cyl`), is the area weighted sum
of the absolute values of all components. The smoothed form over its unit is never below it and tends to it. -/
theorem C21_approx_l1_vector_limit_partial (reg : Registry P) (name uc aux : String) (func : P → Dofs → List (List ℝ)) (pd : Bool)
    (hreg : reg name = some (.quantity (Quantity.generateL1Vec func aux pd))) (u : ℝ)
    (a : ℝ → Added P) (h : ∀ eps, addQuantity reg name (.scalar u) uc (some "approx") ⟨eps⟩ = .ok (a eps))
    (qp : P) (dofs : Dofs) (hd : ∀ d ∈ HasQp.da qp, 0 ≤ d) (hn : 0 ≤ HasQp.nfp qp) :
    (Quantity.generateL1Vec func aux pd).call qp dofs = .scalar (l1NormVec qp (func qp (phiOnly (dofs "phi")))) ∧
    ∃ v : ℝ → ℝ, (∀ eps, (a eps).val qp dofs = .scalar (v eps)) ∧
      (∀ eps, 0 < eps → l1NormVec qp (func qp dofs) / |u| ≤ v eps) ∧
      Tendsto v (𝓝[>] 0) (𝓝 (l1NormVec qp (func qp dofs) / |u|)) := by
  refine ⟨?_, fun eps => Quantity.l1Integral qp ((func qp dofs).map fun v => (v.map fun x => absLse x eps).sum) / |u|, ?_, ?_, ?_⟩
  · simp only [Quantity.call, Quantity.generateL1Vec]
    rw [l1Integral_vec]
    rfl
  · intro eps
    rw [addQuantity_approx hreg (h eps)]
    simp [addedOf, Quantity.generateL1Vec, Val.map2]
  · intro eps he
    refine div_le_div_of_nonneg_right ?_ (abs_nonneg u)
    rw [l1Integral_vec, l1NormVec]
    refine mul_le_mul_of_nonneg_right (Finset.sum_le_sum fun i hi => mul_le_mul_of_nonneg_left
      (Finset.sum_le_sum fun k _ => le_absLse he) ?_) hn
    have hi' : i < (HasQp.da qp).length := lt_of_lt_of_le (Finset.mem_range.1 hi) (min_le_left _ _)
    rw [List.getD_eq_getElem _ _ hi']
    exact hd _ (List.getElem_mem hi')
  · refine Tendsto.div_const ?_ _
    simp only [l1Integral_vec]
    exact Tendsto.mul_const _ (tendsto_finsetSum _ fun i _ => Tendsto.const_mul _ (tendsto_finsetSum _ fun k _ => tendsto_absLse _))

end

/-- The hypotheses hold, for instance, for the vectors `(3, -4)` and `(0, 5)` at the two points of the toy grid. -/
example : ∃ (reg : Registry ToyQp) (func : ToyQp → Dofs → List (List ℝ)) (a : ℝ → Added ToyQp),
    reg "f" = some (.quantity (Quantity.generateL1Vec func "p" false)) ∧
    (∀ eps, addQuantity reg "f" (.scalar 2) "f" (some "approx") ⟨eps⟩ = .ok (a eps)) ∧
    (∀ d ∈ HasQp.da (⟨0⟩ : ToyQp), 0 ≤ d) ∧ 0 ≤ HasQp.nfp (⟨0⟩ : ToyQp) ∧ 0 < l1NormVec (⟨0⟩ : ToyQp) (func ⟨0⟩ (phiOnly (.scalar 0))) := by
  let func : ToyQp → Dofs → List (List ℝ) := fun _ _ => [[3, -4], [0, 5]]
  let q : Quantity ToyQp := Quantity.generateL1Vec func "p" false
  refine ⟨fun _ => some (.quantity q), func, fun eps => addedOf q (some "approx") ⟨eps⟩ fun _ => Val.scalar |2|, rfl, fun eps =>
    addQuantity_ok.2 ⟨_, _, rfl, by simp [knownSmoothing], by simp [q, Quantity.generateL1Vec, Quantity.generateL1], rfl, rfl⟩, ?_, ?_, ?_⟩
  · simp [HasQp.da]
  · simp [HasQp.nfp]
  · norm_num [l1NormVec, HasQp.da, HasQp.nfp, func, Finset.sum_range_succ]

/-! ## Reference values -/

/-- Powers of the reference field, of `mu_0`, of the major and of the minor radius. -/
structure UnitPowers where
  B : ℤ
  mu0 : ℤ
  R0 : ℤ
  a : ℤ

/-- The number with the given powers. -/
noncomputable def UnitPowers.at (p : UnitPowers) (mu0 : ℝ) (s : Scales) : ℝ := s.B ^ p.B * mu0 ^ p.mu0 * s.R0 ^ p.R0 * s.a ^ p.a

/-- What is measured at a point: current density, its directional derivative, field, force (as the package has it, see C95), potential. -/
inductive PointKind
  | current | gradCurrent | field | force | potential | pure

/-- Reference values at a point: the current density of an infinite solenoid with the reference field, `mu_0 K = B`; the others
follow from it with the minor radius as the length. -/
def PointKind.powers : PointKind → UnitPowers
  | .current => ⟨1, -1, 0, 0⟩
  | .gradCurrent => ⟨2, -2, 0, -1⟩
  | .field => ⟨1, 0, 0, 0⟩
  | .force => ⟨2, -1, 0, 2⟩
  | .potential => ⟨1, -1, 0, 1⟩
  | .pure => ⟨0, 0, 0, 0⟩

/-- What a quantity reports: which kind of value, to which power, and whether it is integrated over the surface, which brings a factor
`R0 a`. -/
def unitTable : List (String × PointKind × ℤ × ℤ) :=
  [("K", .current, 1, 0), ("K2", .current, 2, 0), ("f_max_K2", .current, 2, 0), ("f_huber_K", .current, 1, 1),
   ("K_theta", .current, 1, 0), ("f_K", .current, 2, 1), ("K_dot_grad_K", .gradCurrent, 1, 0), ("K_dot_grad_K_cyl", .gradCurrent, 1, 0),
   ("f_max_K_dot_grad_K_cyl", .gradCurrent, 1, 0), ("winding_surface_B", .field, 1, 0), ("Bnormal", .field, 1, 0),
   ("Bnormal2", .field, 2, 0), ("f_B", .field, 2, 1), ("f_B_normalized_by_Bnormal_IG", .pure, 1, 0), ("f_max_Bnormal", .field, 1, 0),
   ("f_max_Bnormal2", .field, 2, 0), ("f_max_force_cyl", .force, 1, 0), ("f_l1_force_cyl", .force, 1, 1), ("f_max_force2_cyl", .force, 2, 0),
   ("Phi", .potential, 1, 0), ("Phi_with_net_current", .potential, 1, 0), ("Phi2", .potential, 2, 0), ("f_max_Phi", .potential, 1, 0),
   ("f_max_Phi2", .potential, 2, 0), ("f_max_Phi4", .potential, 4, 0), ("f_l1_Phi", .potential, 1, 1), ("f_Phi", .potential, 2, 1)]

/-- The powers of one line of the table. -/
def rowPowers (k : PointKind) (p area : ℤ) : UnitPowers :=
  ⟨p * k.powers.B, p * k.powers.mu0, p * k.powers.R0 + area, p * k.powers.a + area⟩

/-- **C95 (reference values).** The unit of every quantity is the power of its point value, times `R0 a` for integrals; in
particular the unit of the current density is that of an infinite solenoid with the reference field. -/
theorem C95_reference_partial (mu0 : ℝ) (s : Scales) (hmu0 : mu0 ≠ 0) (hR : s.R0 ≠ 0) (ha : s.a ≠ 0) :
    List.Forall₂ (fun nu row => nu.1 = row.1 ∧ nu.2 = (rowPowers row.2.1 row.2.2.1 row.2.2.2).at mu0 s) (descUnit mu0 s) unitTable ∧
      ∀ U V, ("K", U) ∈ descUnit mu0 s → ("Phi", V) ∈ descUnit mu0 s → mu0 * U = s.B ∧ V = U * s.a := by
  constructor
  · unfold descUnit unitTable
    repeat' first
      | exact List.Forall₂.nil
      | refine List.Forall₂.cons ⟨rfl, ?_⟩ ?_
    all_goals
      simp only [rowPowers, PointKind.powers, UnitPowers.at, kUnit, phiDescUnit, forceUnit]
      norm_num [zpow_neg, zpow_ofNat]
      try field_simp
      try simp
  · intro U V hU hV
    simp [descUnit] at hU hV
    subst hU hV
    simp only [phiDescUnit, kUnit]
    exact ⟨by field_simp, trivial⟩

/-- The hypotheses hold for a device with field 2, major radius 10 and minor radius 3. -/
example : ("K", (2 : ℝ) / 4) ∈ descUnit 4 ⟨2, 10, 3⟩ ∧ ("Phi", (2 : ℝ) / 4 * 3) ∈ descUnit 4 ⟨2, 10, 3⟩ := by
  simp [descUnit, kUnit, phiDescUnit]

end Verif
