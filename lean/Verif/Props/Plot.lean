import Verif.Model.Plot
import Verif.Props.Approx
import Verif.Props.Parsing
import Verif.Spec.Constraint
import Mathlib.Data.Nat.Cast.Order.Ring
import Mathlib.Tactic.FieldSimp

/-!
# C102, C103, C104: saved grids and plots
-/

namespace Verif

/-! ## C102: saved grids -/

/-- VTK numbers the points of a structured grid with the first index running fastest. -/
def VtkGrid.pointAt {β γ : Type} (g : VtkGrid β γ) (a b : ℕ) : Option β := g.points[a + g.dims.1 * b]?

/-- The value stored for the grid point `(a, b)`. -/
def VtkGrid.valueAt {β γ : Type} (g : VtkGrid β γ) (a b : ℕ) : Option γ := g.values[a + g.dims.1 * b]?

/-- Neighbours in a rectangular grid: one of the two indices differs by one. -/
def GridNeighbours (p q : ℕ × ℕ) : Prop :=
  (p.1 = q.1 ∧ (p.2 + 1 = q.2 ∨ q.2 + 1 = p.2)) ∨ (p.2 = q.2 ∧ (p.1 + 1 = q.1 ∨ q.1 + 1 = p.1))

theorem ravelRows_length {β : Type} (m n : ℕ) (a : ℕ → ℕ → β) : (ravelRows m n a).length = m * n := by
  simp [ravelRows, List.length_flatMap]

theorem ravelRows_get {β : Type} (m n : ℕ) (a : ℕ → ℕ → β) {i j : ℕ} (hi : i < m) (hj : j < n) :
    (ravelRows m n a)[j + n * i]? = some (a i j) := by
  induction m with
  | zero => omega
  | succ m ih =>
    have hs : ravelRows (m + 1) n a = ravelRows m n a ++ (List.range n).map fun j => a m j := by
      simp [ravelRows, List.range_succ, List.flatMap_append]
    rw [hs]
    rcases Nat.lt_or_eq_of_le (Nat.lt_succ_iff.mp hi) with h | rfl
    · rw [List.getElem?_append_left, ih h]
      rw [ravelRows_length]
      calc j + n * i < n + n * i := by omega
        _ = n * (i + 1) := by ring
        _ ≤ n * m := Nat.mul_le_mul_left n h
        _ = m * n := Nat.mul_comm _ _
    · rw [List.getElem?_append_right (by rw [ravelRows_length, Nat.mul_comm]; omega), ravelRows_length, Nat.mul_comm i n,
        Nat.add_sub_cancel]
      simp [hj]

/-- **C102 for two of the three functions.** The point at VTK position `(a, b)` is the sample in row `b` and column `a`, so
neighbours in the saved grid are neighbours on the surface; the value stored there is that of the same sample.
Missing: `gamma_and_field_to_vtk`, see below. -/
theorem C102_grids_partial {β γ : Type} (m n : ℕ) (gamma : ℕ → ℕ → β) (f : ℕ → ℕ → γ) {a b : ℕ} (ha : a < n) (hb : b < m) :
    (gammaToVtk m n gamma).dims = (n, m) ∧ (gammaToVtk m n gamma).pointAt a b = some (gamma b a) ∧
      (gammaAndScalarFieldToVtk m n gamma f).dims = (n, m) ∧
      (gammaAndScalarFieldToVtk m n gamma f).pointAt a b = some (gamma b a) ∧
      (gammaAndScalarFieldToVtk m n gamma f).valueAt a b = some (f b a) :=
  ⟨rfl, ravelRows_get m n gamma hb ha, rfl, ravelRows_get m n gamma hb ha, ravelRows_get m n f hb ha⟩

/-- `gamma_and_field_to_vtk` on square grids, and the values of the field in general: each saved point carries its own value. -/
theorem C102_field_partial {β γ : Type} (m n : ℕ) (gamma : ℕ → ℕ → β) (f : ℕ → ℕ → γ) :
    (∀ k : ℕ, ((gammaAndFieldToVtk m n gamma f).points[k]?).isSome →
      ∃ i j, (gammaAndFieldToVtk m n gamma f).points[k]? = some (gamma i j) ∧
        (gammaAndFieldToVtk m n gamma f).values[k]? = some (f i j)) ∧
    (m = n → ∀ a b, a < n → b < m → (gammaAndFieldToVtk m n gamma f).pointAt a b = some (gamma b a)) := by
  constructor
  · intro k hk
    replace hk : k < m * n := by
      rw [← ravelRows_length m n gamma]
      by_contra hlt
      have : (ravelRows m n gamma)[k]? = none := List.getElem?_eq_none (Nat.le_of_not_lt hlt)
      simp [gammaAndFieldToVtk, this] at hk
    have hn : 0 < n := Nat.pos_of_ne_zero (by rintro rfl; simp at hk)
    have hdiv : k / n < m := Nat.div_lt_of_lt_mul (by rw [Nat.mul_comm]; exact hk)
    have hmod : k % n < n := Nat.mod_lt _ hn
    have hk' : k % n + n * (k / n) = k := Nat.mod_add_div k n
    refine ⟨k / n, k % n, ?_, ?_⟩
    · have := ravelRows_get m n gamma hdiv hmod
      rwa [hk'] at this
    · have := ravelRows_get m n f hdiv hmod
      rwa [hk'] at this
  · rintro rfl a b ha hb
    exact ravelRows_get m m gamma hb ha

/-- **C102 is false** for `gamma_and_field_to_vtk`: on every grid that is not square, with at least two points in both directions,
two neighbours in the saved grid are not neighbours on the surface. -/
theorem C102_field_violated_partial {γ : Type} {m n : ℕ} (hm : 2 ≤ m) (hn : 2 ≤ n) (hne : m ≠ n) (f : ℕ → ℕ → γ) :
    ∃ (a b a' b' : ℕ) (p q : ℕ × ℕ),
      let g := gammaAndFieldToVtk m n (fun i j => (i, j)) f
      a < g.dims.1 ∧ a' < g.dims.1 ∧ b < g.dims.2 ∧ b' < g.dims.2 ∧ GridNeighbours (a, b) (a', b') ∧
        g.pointAt a b = some p ∧ g.pointAt a' b' = some q ∧ ¬ GridNeighbours p q := by
  rcases Nat.lt_or_gt_of_ne hne with h | h
  · refine ⟨0, 0, 0, 1, (0, 0), (0, m), ?_, ?_, ?_, ?_, ?_, ?_, ?_, ?_⟩
    · simp only [gammaAndFieldToVtk]; omega
    · simp only [gammaAndFieldToVtk]; omega
    · simp only [gammaAndFieldToVtk]; omega
    · simp only [gammaAndFieldToVtk]; omega
    · simp [GridNeighbours]
    · have := ravelRows_get m n (fun i j : ℕ => ((i, j) : ℕ × ℕ)) (i := 0) (j := 0) (by omega) (by omega)
      simpa [VtkGrid.pointAt, gammaAndFieldToVtk] using this
    · have := ravelRows_get m n (fun i j : ℕ => ((i, j) : ℕ × ℕ)) (i := 0) (j := m) (by omega) (by omega)
      simpa [VtkGrid.pointAt, gammaAndFieldToVtk] using this
    · simp only [GridNeighbours]; omega
  · refine ⟨n - 1, 0, n, 0, (0, n - 1), (1, 0), ?_, ?_, ?_, ?_, ?_, ?_, ?_, ?_⟩
    · simp only [gammaAndFieldToVtk]; omega
    · simp only [gammaAndFieldToVtk]; omega
    · simp only [gammaAndFieldToVtk]; omega
    · simp only [gammaAndFieldToVtk]; omega
    · right; exact ⟨rfl, Or.inl (by simp only; omega)⟩
    · have := ravelRows_get m n (fun i j : ℕ => ((i, j) : ℕ × ℕ)) (i := 0) (j := n - 1) (by omega) (by omega)
      simpa [VtkGrid.pointAt, gammaAndFieldToVtk] using this
    · have := ravelRows_get m n (fun i j : ℕ => ((i, j) : ℕ × ℕ)) (i := 1) (j := 0) (by omega) (by omega)
      simpa [VtkGrid.pointAt, gammaAndFieldToVtk] using this
    · simp only [GridNeighbours]; omega

/-- The file name ends in `.vts` and a name that ends so is kept. -/
theorem C102_name (name : List Char) : (∃ pre, vtsName name = pre ++ ['.', 'v', 't', 's']) ∧
    (∀ pre, name = pre ++ ['.', 'v', 't', 's'] → vtsName name = name) := by
  constructor
  · unfold vtsName
    split_ifs with h
    · exact ⟨name, rfl⟩
    · push Not at h
      exact ⟨name.take (name.length - 4), by rw [← h, List.take_append_drop]⟩
  · rintro pre rfl
    unfold vtsName
    rw [if_neg]
    simp

example : (gammaToVtk 2 3 fun i j => (i, j)).pointAt 2 1 = some (1, 2) := by decide
example : vtsName "ws".toList = "ws.vts".toList := by decide

/-! ## C103: the plotted constraint -/

section
variable {P : Type} [HasQp P]

theorem parse_one {reg : Registry P} {name type : String} {unit : UnitArg} {value : ℝ} {sm : Option String} {sp : SmoothingParams}
    {p : Parsed P} (h : parseConstraints reg [name] [type] [unit] [value] sm sp = .ok p) :
    parseStep reg sm sp ⟨[], [], []⟩ ⟨name, type, unit, value⟩ = .ok p := by
  unfold parseConstraints at h
  rw [if_neg (by simp)] at h
  obtain ⟨b, hb, hrest⟩ := (foldlM_except_cons _ _ _ _ _).1 h
  have hbp : b = p := by
    have : (Except.ok b : Except PyErr (Parsed P)) = .ok p := hrest
    cases this
    rfl
  rw [← hbp]
  exact hb

/-- **C103 for inequalities** of smooth quantities: if the plotted function is not positive at a point, then the constraint holds
there. Missing: equalities, see below. -/
theorem C103_inequality_partial (reg : Registry P) (name type : String) (func : P → Dofs → Val) (compat : List String)
    (hreg : reg name = some (.quantity (Quantity.generateC2 func compat))) (htype : type = "<=" ∨ type = ">=")
    (hcompat : type ∈ compat) {u : ℝ} (hu : u ≠ 0) (value : ℝ) :
    ∃ f, plotConstraint reg name type (.scalar u) value = .ok f ∧
      ∀ qp dofs, AllNonpos (f qp dofs).entries → FieldConstraint type value (func qp dofs).entries := by
  have hok : ∃ p, parseConstraints reg [name] [type] [.scalar u] [value] (some "approx") ⟨1e-10⟩ = .ok p := by
    rw [C25_constraints_rejected_iff_illegal]
    refine ⟨rfl, rfl, rfl, fun i h1 _ _ => ?_⟩
    obtain rfl : i = 0 := by simpa using h1
    refine ⟨⟨⟨_, hreg, by simpa [Quantity.generateC2] using hcompat⟩, by simp, by simp⟩, ?_⟩
    rcases htype with rfl | rfl <;> simp
  obtain ⟨p, hp⟩ := hok
  have h17 := C17_approx_conservative reg [name] [type] [.scalar u] [value] ⟨1e-10⟩ (by norm_num) p hp
    (by intro x hx; simp only [List.mem_singleton] at hx; exact ⟨u, hx, hu⟩)
    (by intro x hx; simp only [List.mem_singleton] at hx; exact ⟨func, compat, hx ▸ hreg⟩)
  have hfil : (zipRequests [name] [type] [.scalar u] [value]).filter Request.isIneq = [⟨name, type, .scalar u, value⟩] := by
    rcases htype with rfl | rfl <;> simp [zipRequests, Request.isIneq]
  rw [hfil] at h17
  have hne : type ≠ "=" := by rcases htype with rfl | rfl <;> decide
  cases hg : p.g with
  | nil => rw [hg] at h17; cases h17
  | cons g l =>
    rw [hg] at h17
    cases h17 with
    | cons h1 _ =>
      refine ⟨g, ?_, fun qp dofs hn => ?_⟩
      · unfold plotConstraint
        rw [hp]
        simp [bind, Except.bind, hne, hg, firstOf]
      · have := (h1 qp dofs).1 hn
        rw [holds_iff hreg] at this
        exact this

/-- **C103 is false**: equality constraints cannot be plotted. With the type `==` that the solver accepts the function looks
into the empty list of inequalities; the type `=` that it tests for is refused by `_parse_constraints`. -/
theorem C103_equality_violated_partial (reg : Registry P) (name : String) (unit : UnitArg) (value : ℝ) :
    (∀ f, plotConstraint reg name "==" unit value ≠ .ok f) ∧ (∀ f, plotConstraint reg name "=" unit value ≠ .ok f) ∧
      (LegalUse reg (some "approx") name unit "==" → plotConstraint reg name "==" unit value = .error .indexError) := by
  have key : ∀ p, parseConstraints reg [name] ["=="] [unit] [value] (some "approx") ⟨1e-10⟩ = .ok p → p.g = [] := by
    intro p hp
    obtain ⟨a, ha, hc⟩ := parseStep_ok.1 (parse_one hp)
    obtain ⟨q, u, -, -, -, -, rfl⟩ := addQuantity_ok.1 ha
    simp only [String.reduceEq, false_and, or_false, true_and] at hc
    rw [hc]
    simp [addedOf]
  have hidx : ∀ p, parseConstraints reg [name] ["=="] [unit] [value] (some "approx") ⟨1e-10⟩ = .ok p →
      plotConstraint reg name "==" unit value = .error .indexError := by
    intro p hp
    unfold plotConstraint
    rw [hp]
    simp [bind, Except.bind, key p hp, firstOf]
  refine ⟨fun f hf => ?_, fun f hf => ?_, fun hl => ?_⟩
  · cases hp : parseConstraints reg [name] ["=="] [unit] [value] (some "approx") ⟨1e-10⟩ with
    | error e =>
      unfold plotConstraint at hf
      rw [hp] at hf
      simp [bind, Except.bind] at hf
    | ok p =>
      rw [hidx p hp] at hf
      cases hf
  · cases hp : parseConstraints reg [name] ["="] [unit] [value] (some "approx") ⟨1e-10⟩ with
    | error e =>
      unfold plotConstraint at hf
      rw [hp] at hf
      simp [bind, Except.bind] at hf
    | ok p =>
      obtain ⟨a, ha, hc⟩ := parseStep_ok.1 (parse_one hp)
      simp at hc
  · have hok : ∃ p, parseConstraints reg [name] ["=="] [unit] [value] (some "approx") ⟨1e-10⟩ = .ok p := by
      rw [C25_constraints_rejected_iff_illegal]
      refine ⟨rfl, rfl, rfl, fun i h1 _ _ => ?_⟩
      obtain rfl : i = 0 := by simpa using h1
      exact ⟨hl, by simp⟩
    obtain ⟨p, hp⟩ := hok
    exact hidx p hp

end

/-- **C103.** Outside of constraint mode the plotted numbers are the numbers that calling the quantity returns, in the unit given. -/
theorem C103_value_partial {P : Type} (reg : Registry P) (name : String) (unit : ℝ) (hu : unit ≠ 0) (qp : P) (dofs : Dofs)
    (q : Quantity P) (hq : reg name = some (.quantity q)) :
    ∃ v, plotValue reg name unit qp dofs = .ok v ∧ v.entries.map (fun x => unit * x) = (q.call qp dofs).entries := by
  have hg : getQuantity reg name = .ok q := by simp [getQuantity, hq]
  refine ⟨_, by rw [plotValue, hg]; rfl, ?_⟩
  cases q.call qp dofs with
  | scalar a => simp [Val.map, Val.entries, mul_div_cancel₀ _ hu]
  | array l => simp [Val.map, Val.entries, Function.comp_def, mul_div_cancel₀ _ hu]

/-- Both cases occur: `K_theta` of the toy registry supports all three types. -/
example (value : ℝ) : ∃ f, plotConstraint toyRegistry "K_theta" "<=" (.scalar 2) value = .ok f ∧
    ∀ qp dofs, AllNonpos (f qp dofs).entries → FieldConstraint "<=" value (toyKTheta qp dofs).entries :=
  C103_inequality_partial toyRegistry "K_theta" "<=" toyKTheta _ rfl (Or.inl rfl) (by simp) (by norm_num) value

example (value : ℝ) : plotConstraint toyRegistry "K_dot_grad_K" "==" (.scalar 1) value = .error .indexError :=
  (C103_equality_violated_partial toyRegistry "K_dot_grad_K" (.scalar 1) value).2.2
    ⟨⟨_, rfl, by simp [Quantity.generateC2]⟩, by simp, by simp⟩

/-! ## C104: the plotted window -/

/-- **C104 for nonzero coefficients.** The axis runs from `(1 - range) phi` to `(1 + range) phi`, the coefficient is its middle,
and the values differ. Missing: the coefficient 0. -/
theorem C104_window_partial {phi range : ℝ} (hphi : phi ≠ 0) (hr : 0 < range) {n : ℕ} (hn : 2 ≤ n) :
    plotAxis phi range n 0 = (1 - range) * phi ∧ plotAxis phi range n (n - 1) = (1 + range) * phi ∧
      (∀ k, plotAxis phi range n k + plotAxis phi range n (n - 1 - k) = 2 * phi ∨ n - 1 < k) ∧
      Function.Injective (plotAxis phi range n) := by
  have hn' : (2 : ℝ) ≤ n := by exact_mod_cast hn
  have hne : (n : ℝ) - 1 ≠ 0 := by linarith
  have hc : ((n - 1 : ℕ) : ℝ) = n - 1 := by rw [Nat.cast_sub (by omega)]; norm_num
  refine ⟨by simp [plotAxis, linspaceEnd], ?_, fun k => ?_, fun a b hab => ?_⟩
  · unfold plotAxis linspaceEnd
    rw [hc]
    field_simp
    ring
  · rcases Nat.lt_or_ge (n - 1) k with h | h
    · exact Or.inr h
    · left
      have hk : ((n - 1 - k : ℕ) : ℝ) = n - 1 - k := by rw [Nat.cast_sub h, hc]
      unfold plotAxis linspaceEnd
      rw [hk]
      field_simp
      ring
  · unfold plotAxis linspaceEnd at hab
    have hs : ((1 + range) * phi - (1 - range) * phi) / ((n : ℝ) - 1) ≠ 0 := by
      apply div_ne_zero _ hne
      have : (1 + range) * phi - (1 - range) * phi = 2 * range * phi := by ring
      rw [this]
      exact mul_ne_zero (by positivity) hphi
    have := mul_right_cancel₀ hs (add_left_cancel hab)
    exact_mod_cast this

/-- **C104 is false** for a coefficient that is 0: the window is a single point. -/
theorem C104_zero_violated_partial (range : ℝ) (n k : ℕ) : plotAxis 0 range n k = 0 := by
  simp [plotAxis, linspaceEnd]

/-- The other coefficients are kept; the two that are plotted get the values of the axes. -/
theorem C104_other_coefficients (phi : List ℝ) {i j : ℕ} (hi : i < phi.length) (hj : j < phi.length) (hij : i ≠ j) (x y : ℝ) :
    (plotPhi phi i j x y)[i]? = some x ∧ (plotPhi phi i j x y)[j]? = some y ∧
      ∀ k, k ≠ i → k ≠ j → (plotPhi phi i j x y)[k]? = phi[k]? := by
  unfold plotPhi
  refine ⟨?_, ?_, fun k h1 h2 => ?_⟩
  · rw [List.getElem?_set_ne (Ne.symm hij), List.getElem?_set_self hi]
  · rw [List.getElem?_set_self (by simpa using hj)]
  · rw [List.getElem?_set_ne (Ne.symm h2), List.getElem?_set_ne (Ne.symm h1)]

example : Function.Injective (plotAxis 3 (1 / 10) 5) := (C104_window_partial (by norm_num) (by norm_num) (by norm_num)).2.2.2

end Verif
