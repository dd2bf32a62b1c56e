import Verif.Props.Parsing
import Verif.Spec.ToyQp

/-!
# C119: the trade-off between objectives follows the weights
-/

namespace Verif

variable {P : Type} [HasQp P]

/-- One objective as the user sees it: its name, unit and value at each point. -/
structure Item where
  name : String
  unit : ℝ
  value : Dofs → ℝ

/-- A point of the feasible set where the parsed total objective is least. -/
def IsLeast' (o : ParsedObj P) (qp : P) (S : Dofs → Prop) (x : Dofs) : Prop :=
  S x ∧ ∀ y, S y → ∀ a b, o.f qp x = .scalar a → o.f qp y = .scalar b → a ≤ b

theorem total_value (reg : Registry P) (items : List Item) (w : List ℝ) (hw : w.length = items.length) (sm : Option String)
    (sp : SmoothingParams) (o : ParsedObj P) (qp : P) (dofs : Dofs)
    (h : parseObjectives reg (.many (items.map Item.name)) (.many (items.map fun t => .scalar t.unit)) (.many w) sm sp = .ok o)
    (hunit : ∀ t ∈ items, t.unit ≠ 0)
    (hval : ∀ t ∈ items, ∃ q, reg t.name = some (.quantity q) ∧ q.rawF qp dofs = .scalar (t.value dofs) ∧
      (sm = none ∨ ∃ func compat, q = Quantity.generateC2 func compat)) :
    o.f qp dofs = .scalar (List.zipWith (fun t a => a * (t.value dofs / |t.unit|)) items w).sum := by
  have e1 : (List.zipWith (fun (t : Item) a => (⟨t.name, t.unit, a, t.value dofs⟩ : Term)) items w).map Term.name = items.map Item.name := by
    apply List.ext_getElem
    · simp [hw]
    · intro i _ _
      simp
  have e2 : (List.zipWith (fun (t : Item) a => (⟨t.name, t.unit, a, t.value dofs⟩ : Term)) items w).map (fun t => UnitArg.scalar t.unit) =
      items.map fun t => .scalar t.unit := by
    apply List.ext_getElem
    · simp [hw]
    · intro i _ _
      simp
  have e3 : (List.zipWith (fun (t : Item) a => (⟨t.name, t.unit, a, t.value dofs⟩ : Term)) items w).map Term.weight = w := by
    apply List.ext_getElem
    · simp [hw]
    · intro i _ _
      simp
  have hmem : ∀ t ∈ List.zipWith (fun (t : Item) a => (⟨t.name, t.unit, a, t.value dofs⟩ : Term)) items w,
      ∃ u ∈ items, t.name = u.name ∧ t.unit = u.unit ∧ t.value = u.value dofs := by
    intro t ht
    obtain ⟨i, hi, rfl⟩ := List.mem_iff_getElem.1 ht
    simp only [List.getElem_zipWith]
    exact ⟨items[i]'(by simp at hi; omega), List.getElem_mem _, rfl, rfl, rfl⟩
  have := C24_objective_is_weighted_sum reg
    (List.zipWith (fun (t : Item) a => (⟨t.name, t.unit, a, t.value dofs⟩ : Term)) items w) sm sp o qp dofs
    (by rw [e1, e2, e3]; exact h)
    (by
      intro t ht
      obtain ⟨u, hu, -, e, -⟩ := hmem t ht
      rw [e]
      exact hunit u hu)
    (by
      intro t ht
      obtain ⟨u, hu, n1, -, n3⟩ := hmem t ht
      rw [n1, n3]
      exact hval u hu)
  rw [this]
  congr 2
  rw [List.map_zipWith]

/-- **C119 (monotone response).** Let the same objectives be requested with two weight vectors `w` and `w'`, and let `x` and `y` be
minimisers of the parsed totals over the same set. Then the change of the values is opposed to the change of the weights. -/
theorem C119_monotone (reg : Registry P) (items : List Item) (w w' : List ℝ) (hw : w.length = items.length)
    (hw' : w'.length = items.length) (sm : Option String) (sp : SmoothingParams) (o o' : ParsedObj P) (qp : P) (S : Dofs → Prop)
    (h : parseObjectives reg (.many (items.map Item.name)) (.many (items.map fun t => .scalar t.unit)) (.many w) sm sp = .ok o)
    (h' : parseObjectives reg (.many (items.map Item.name)) (.many (items.map fun t => .scalar t.unit)) (.many w') sm sp = .ok o')
    (hunit : ∀ t ∈ items, t.unit ≠ 0)
    (hval : ∀ dofs, S dofs → ∀ t ∈ items, ∃ q, reg t.name = some (.quantity q) ∧ q.rawF qp dofs = .scalar (t.value dofs) ∧
      (sm = none ∨ ∃ func compat, q = Quantity.generateC2 func compat)) (x y : Dofs) (hx : IsLeast' o qp S x)
    (hy : IsLeast' o' qp S y) :
    (List.zipWith (fun t ww => (ww.2 - ww.1) * ((t.value y - t.value x) / |t.unit|)) items (w.zip w')).sum ≤ 0 := by
  have a1 := total_value reg items w hw sm sp o qp x h hunit (hval x hx.1)
  have a2 := total_value reg items w hw sm sp o qp y h hunit (hval y hy.1)
  have b1 := total_value reg items w' hw' sm sp o' qp x h' hunit (hval x hx.1)
  have b2 := total_value reg items w' hw' sm sp o' qp y h' hunit (hval y hy.1)
  have c1 := hx.2 y hy.1 _ _ a1 a2
  have c2 := hy.2 x hx.1 _ _ b2 b1
  have key : ∀ (l : List Item) (u v : List ℝ), u.length = l.length → v.length = l.length →
      (List.zipWith (fun t ww => (ww.2 - ww.1) * ((t.value y - t.value x) / |t.unit|)) l (u.zip v)).sum =
        ((List.zipWith (fun t a => a * (t.value y / |t.unit|)) l v).sum - (List.zipWith (fun t a => a * (t.value x / |t.unit|)) l v).sum) -
        ((List.zipWith (fun t a => a * (t.value y / |t.unit|)) l u).sum - (List.zipWith (fun t a => a * (t.value x / |t.unit|)) l u).sum) := by
    intro l
    induction l with
    | nil => intro u v _ _; simp
    | cons t l ih =>
      intro u v hu hv
      cases u with
      | nil => simp at hu
      | cons a u =>
        cases v with
        | nil => simp at hv
        | cons b v =>
          have := ih u v (by simpa using hu) (by simpa using hv)
          simp only [List.zip_cons_cons, List.zipWith_cons_cons, List.sum_cons, this]
          ring
  rw [key items w w' hw hw']
  linarith

/-- **C119 (raising one weight).** If only one weight is raised, the value of that objective at the new minimiser is not larger, and
the weighted sum of the others is not smaller. -/
theorem C119_raise_one (reg : Registry P) (pre post : List Item) (it : Item) (u v : List ℝ) (a a' : ℝ) (hu : u.length = pre.length)
    (hv : v.length = post.length) (ha : a < a') (h0 : 0 ≤ a) (sm : Option String) (sp : SmoothingParams) (o o' : ParsedObj P) (qp : P)
    (S : Dofs → Prop)
    (h : parseObjectives reg (.many ((pre ++ it :: post).map Item.name)) (.many ((pre ++ it :: post).map fun t => .scalar t.unit))
      (.many (u ++ a :: v)) sm sp = .ok o)
    (h' : parseObjectives reg (.many ((pre ++ it :: post).map Item.name)) (.many ((pre ++ it :: post).map fun t => .scalar t.unit))
      (.many (u ++ a' :: v)) sm sp = .ok o')
    (hunit : ∀ t ∈ pre ++ it :: post, t.unit ≠ 0)
    (hval : ∀ dofs, S dofs → ∀ t ∈ pre ++ it :: post, ∃ q, reg t.name = some (.quantity q) ∧
      q.rawF qp dofs = .scalar (t.value dofs) ∧ (sm = none ∨ ∃ func compat, q = Quantity.generateC2 func compat)) (x y : Dofs)
    (hx : IsLeast' o qp S x) (hy : IsLeast' o' qp S y) :
    it.value y ≤ it.value x ∧
      (List.zipWith (fun t c => c * (t.value x / |t.unit|)) (pre ++ post) (u ++ v)).sum ≤
        (List.zipWith (fun t c => c * (t.value y / |t.unit|)) (pre ++ post) (u ++ v)).sum := by
  have hl : ∀ b : ℝ, (u ++ b :: v).length = (pre ++ it :: post).length := by intro b; simp [hu, hv]
  have key := C119_monotone reg (pre ++ it :: post) (u ++ a :: v) (u ++ a' :: v) (hl a) (hl a') sm sp o o' qp S h h' hunit hval x y hx hy
  have hz : ∀ (l : List Item) (z : List ℝ),
      (List.zipWith (fun (t : Item) ww => (ww.2 - ww.1) * ((t.value y - t.value x) / |t.unit|)) l (z.zip z)).sum = 0 := by
    intro l
    induction l with
    | nil => simp
    | cons t l ih =>
      intro z
      cases z with
      | nil => simp
      | cons b z => simp [ih z]
  rw [List.zip_append rfl, List.zip_cons_cons, List.zipWith_append (by simp [hu]), List.zipWith_cons_cons, List.sum_append,
    List.sum_cons, hz, hz, zero_add, add_zero] at key
  have hpos : 0 < |it.unit| := abs_pos.2 (hunit it (by simp))
  have hle : it.value y ≤ it.value x := by
    have h1 : 0 < a' - a := by linarith
    have h2 : (it.value y - it.value x) / |it.unit| ≤ 0 := by
      by_contra hc
      push Not at hc
      simp only at key
      nlinarith [mul_pos h1 hc]
    rw [div_le_iff₀ hpos, zero_mul] at h2
    linarith
  refine ⟨hle, ?_⟩
  have a1 := total_value reg _ _ (hl a) sm sp o qp x h hunit (hval x hx.1)
  have a2 := total_value reg _ _ (hl a) sm sp o qp y h hunit (hval y hy.1)
  have c1 := hx.2 y hy.1 _ _ a1 a2
  rw [List.zipWith_append (by simp [hu]), List.zipWith_append (by simp [hu]), List.zipWith_cons_cons, List.zipWith_cons_cons,
    List.sum_append, List.sum_append, List.sum_cons, List.sum_cons] at c1
  rw [List.zipWith_append (by simp [hu]), List.zipWith_append (by simp [hu]), List.sum_append, List.sum_append]
  have h3 : a * (it.value y / |it.unit|) ≤ a * (it.value x / |it.unit|) :=
    mul_le_mul_of_nonneg_left (div_le_div_of_nonneg_right hle hpos.le) h0
  linarith

/-! ## A case: two competing quadratic objectives of one unknown -/

/-- The first coefficient. -/
noncomputable def headDof (d : Dofs) : ℝ := (d "phi").entries.headD 0

/-- Two objectives that cannot both be small. -/
noncomputable def rivalRegistry : Registry ToyQp := fun name =>
  if name = "f_A" then some (.quantity (Quantity.generateC2 (fun _ d => Val.scalar (headDof d ^ 2)) ["f"]))
  else if name = "f_B" then some (.quantity (Quantity.generateC2 (fun _ d => Val.scalar ((headDof d - 1) ^ 2)) ["f"]))
  else none

noncomputable def rivals : List Item := [⟨"f_A", 1, fun d => headDof d ^ 2⟩, ⟨"f_B", -1, fun d => (headDof d - 1) ^ 2⟩]

/-- With weights `1, b` the minimiser is `b / (1 + b)`; raising `b` from 1 to 3 moves it from 1/2 to 3/4. -/
example (sp : SmoothingParams) (qp : ToyQp) (b : ℝ) (hb : 0 < b) : ∃ o,
    parseObjectives rivalRegistry (.many (rivals.map Item.name)) (.many (rivals.map fun t => .scalar t.unit)) (.many [1, b]) none sp = .ok o ∧
    (∀ dofs, ∀ t ∈ rivals, ∃ q, rivalRegistry t.name = some (.quantity q) ∧ q.rawF qp dofs = .scalar (t.value dofs) ∧
      ((none : Option String) = none ∨ ∃ func compat, q = Quantity.generateC2 func compat)) ∧
    IsLeast' o qp (fun _ => True) (fun _ => Val.array [b / (1 + b)]) := by
  have hval : ∀ dofs, ∀ t ∈ rivals, ∃ q, rivalRegistry t.name = some (.quantity q) ∧ q.rawF qp dofs = .scalar (t.value dofs) ∧
      ((none : Option String) = none ∨ ∃ func compat, q = Quantity.generateC2 func compat) := by
    intro dofs t ht
    simp only [rivals, List.mem_cons, List.not_mem_nil, or_false] at ht
    rcases ht with rfl | rfl
    · exact ⟨_, rfl, rfl, Or.inl rfl⟩
    · exact ⟨_, rfl, rfl, Or.inl rfl⟩
  have hok : ∃ o, parseObjectives rivalRegistry (.many (rivals.map Item.name)) (.many (rivals.map fun t => .scalar t.unit))
      (.many [1, b]) none sp = .ok o := ⟨_, rfl⟩
  obtain ⟨o, ho⟩ := hok
  refine ⟨o, ho, hval, trivial, ?_⟩
  intro y _ a c ha hc
  have hu : ∀ t ∈ rivals, t.unit ≠ 0 := by simp [rivals]
  have h1 := total_value rivalRegistry rivals [1, b] rfl none sp o qp (fun _ => Val.array [b / (1 + b)]) ho hu (hval _)
  have h2 := total_value rivalRegistry rivals [1, b] rfl none sp o qp y ho hu (hval _)
  rw [ha] at h1
  rw [hc] at h2
  simp only [Val.scalar.injEq, rivals, List.zipWith_cons_cons, List.zipWith_nil_left, List.sum_cons, List.sum_nil, abs_neg, abs_one,
    div_one, one_mul, add_zero] at h1 h2
  rw [h1, h2]
  have hd : headDof (fun _ => Val.array [b / (1 + b)]) = b / (1 + b) := rfl
  rw [hd]
  have hb' : (1 + b) ≠ 0 := by positivity
  have e : headDof y ^ 2 + b * (headDof y - 1) ^ 2 - ((b / (1 + b)) ^ 2 + b * (b / (1 + b) - 1) ^ 2) =
      (1 + b) * (headDof y - b / (1 + b)) ^ 2 := by
    field_simp
    ring
  have : 0 ≤ (1 + b) * (headDof y - b / (1 + b)) ^ 2 := by positivity
  linarith

end Verif
