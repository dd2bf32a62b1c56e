import Verif.Lemmas.Flatten
import Verif.Model.Problem

/-!
# The shapes of all values depend on the shapes of the unknowns only
-/

namespace Verif

namespace SameShape

protected theorem refl : ∀ v : Val, SameShape v v
  | .scalar _ => trivial
  | .array _ => rfl

protected theorem symm : ∀ {v w : Val}, SameShape v w → SameShape w v
  | .scalar _, .scalar _, _ => trivial
  | .array _, .array _, h => Eq.symm h
  | .scalar _, .array _, h => h
  | .array _, .scalar _, h => h

protected theorem trans : ∀ {u v w : Val}, SameShape u v → SameShape v w → SameShape u w
  | .scalar _, .scalar _, .scalar _, _, _ => trivial
  | .array _, .array _, .array _, h, h' => Eq.trans h h'
  | .scalar _, .array _, _, h, _ => h.elim
  | .array _, .scalar _, _, h, _ => h.elim
  | .scalar _, .scalar _, .array _, _, h => h.elim
  | .array _, .array _, .scalar _, _, h => h.elim

theorem map : ∀ {v w : Val} (_ : SameShape v w) (f g : ℝ → ℝ), SameShape (v.map f) (w.map g)
  | .scalar _, .scalar _, _, _, _ => trivial
  | .array _, .array _, h, _, _ => by simpa [SameShape, Val.map] using h

theorem map2 : ∀ {v v' w w' : Val} (_ : SameShape v v') (_ : SameShape w w') (f : ℝ → ℝ → ℝ), SameShape (Val.map2 f v w) (Val.map2 f v' w')
  | .scalar _, .scalar _, .scalar _, .scalar _, _, _, _ => trivial
  | .scalar _, .scalar _, .array _, .array _, _, h, _ => by simpa [SameShape, Val.map2] using h
  | .array _, .array _, .scalar _, .scalar _, h, _, _ => by simpa [SameShape, Val.map2] using h
  | .array _, .array _, .array _, .array _, h, h', _ => by
    simp only [SameShape] at h h'
    simp [SameShape, Val.map2, h, h']

theorem isScalar : ∀ {v w : Val}, SameShape v w → v.isScalar = w.isScalar
  | .scalar _, .scalar _, _ => rfl
  | .array _, .array _, _ => rfl

theorem array_entries {v w : Val} (h : SameShape v w) : SameShape (.array v.entries) (.array w.entries) := h.length

end SameShape

/-- The unknowns have the same shapes. -/
def SameShapes (d d' : Dofs) : Prop := ∀ k, SameShape (d k) (d' k)

/-- The shape of the value depends on the shapes of the unknowns only. -/
def Static (f : Dofs → Val) : Prop := ∀ d d', SameShapes d d' → SameShape (f d) (f d')

/-- The shapes of all forms of a quantity depend on the shapes of the unknowns only. -/
structure StaticForms {P : Type} (q : Quantity P) (qp : P) : Prop where
  raw : Static (q.rawF qp)
  approx : ∀ U sp, Static fun d => q.approxF qp d U sp
  slackF : ∀ U, Static fun d => q.slackF qp d U
  slackG : ∀ fn ∈ q.slackG, ∀ U, Static fun d => fn qp d U
  slackH : ∀ fn ∈ q.slackH, ∀ U, Static fun d => fn qp d U

section generators
variable {P : Type} {qp : P}

theorem Static.div {f : Dofs → Val} (hf : Static f) (U : Val) : Static fun d => Val.map2 (· / ·) (f d) U :=
  fun d d' h => (hf d d' h).map2 (.refl U) _

theorem static_scalar (f : Dofs → ℝ) : Static fun d => .scalar (f d) := fun _ _ _ => trivial

theorem static_c2 {f : P → Dofs → Val} {comp : List String} (hf : Static (f qp)) : StaticForms (Quantity.generateC2 f comp) qp where
  raw := hf
  approx U _ := hf.div U
  slackF U := hf.div U
  slackG fn h := by simp [Quantity.generateC2] at h
  slackH fn h := by simp [Quantity.generateC2] at h

theorem static_slackIneq {f p : Dofs → Val} (hf : Static f) (hp : Static p) (U : Val) (pd : Bool) :
    Static fun d => Quantity.slackIneq (f d) U (p d) pd := by
  intro d d' h
  have h1 := (hf d d' h).array_entries
  have h2 := (h1.map2 (.refl U) (· / ·)).map2 (hp d d' h) (· - ·)
  unfold Quantity.slackIneq
  simp only
  split
  · exact h2
  · have h3 := ((h1.map (fun x => -x) (fun x => -x)).map2 (.refl U) (· / ·)).map2 (hp d d' h) (· - ·)
    change (_ ++ _ : List ℝ).length = (_ ++ _ : List ℝ).length
    rw [List.length_append, List.length_append, h2.length, h3.length]

theorem static_key (k : String) : Static fun d => d k := fun _ _ h => h k

theorem static_linf {f : P → Dofs → Val} {aux : String} {pd sq : Bool} (hf : Static (f qp)) :
    StaticForms (Quantity.generateLinf f aux pd sq) qp where
  raw d d' h := by
    simp only [Quantity.generateLinf]
    split <;> trivial
  approx U sp d d' h := by
    simp only [Quantity.generateLinf]
    split <;> trivial
  slackF U d d' h := by
    simp only [Quantity.generateLinf]
    split
    · exact (h aux).map _ _
    · exact h aux
  slackG fn h U := by
    simp only [Quantity.generateLinf, Option.mem_some_iff] at h
    subst h
    exact static_slackIneq hf (static_key aux) _ _
  slackH fn h := by simp [Quantity.generateLinf] at h

theorem static_linf4 {f : P → Dofs → Val} {aux : String} (hf : Static (f qp)) : StaticForms (Quantity.generateLinf4 f aux) qp where
  raw d d' h := trivial
  approx U sp d d' h := trivial
  slackF U d d' h := (h aux).map _ _
  slackG fn h U := by
    simp only [Quantity.generateLinf4, Option.mem_some_iff] at h
    subst h
    exact fun d d' h => (((hf d d' h).map _ _).map2 (.refl _) _).map2 (h aux) _
  slackH fn h := by simp [Quantity.generateLinf4] at h

variable [HasQp P]

theorem static_l1 {f : P → Dofs → Val} {aux : String} {pd : Bool} (hf : Static (f qp)) : StaticForms (Quantity.generateL1 f aux pd) qp where
  raw d d' h := trivial
  approx U sp := (static_scalar _).div U
  slackF U d d' h := trivial
  slackG fn h U := by
    simp only [Quantity.generateL1, Option.mem_some_iff] at h
    subst h
    exact static_slackIneq hf (static_key aux) _ _
  slackH fn h := by simp [Quantity.generateL1] at h

theorem static_l1Vec {f : P → Dofs → List (List ℝ)} {aux : String} {pd : Bool} (hf : Static fun d => Val.array (f qp d).flatten) :
    StaticForms (Quantity.generateL1Vec f aux pd) qp where
  raw d d' h := trivial
  approx U sp := (static_scalar _).div U
  slackF U d d' h := trivial
  slackG := (static_l1 (pd := pd) (aux := aux) (f := fun qp d => Val.array (f qp d).flatten) hf).slackG
  slackH fn h := by simp [Quantity.generateL1Vec, Quantity.generateL1] at h

theorem static_huber {f : P → Dofs → List (List ℝ)} : StaticForms (Quantity.generateHuber f) qp where
  raw d d' h := trivial
  approx U sp d d' h := trivial
  slackF U d d' h := trivial
  slackG fn h := by simp [Quantity.generateHuber] at h
  slackH fn h := by simp [Quantity.generateHuber] at h

end generators

theorem bnormal_length (Q : FieldProblem) (c : List ℝ) : (Q.bnormal c).length = min Q.plasmaGrid.length Q.bPlasma.length := by
  simp [FieldProblem.bnormal]
  rfl

/-- The shapes of all shipped quantities depend on the shapes of the unknowns only. -/
theorem shipped_static (Q : FieldProblem) : ∀ nq ∈ shipped FieldProblem.fns, StaticForms nq.2 Q := by
  have hK : Static fun d => Val.array (FieldProblem.fns.K Q d).flatten := fun d d' _ => by
    simp [SameShape, FieldProblem.fns, List.length_flatten, Function.comp_def, V3.toList]
  have hF : Static fun d => Val.array (FieldProblem.fns.forceCyl Q d).flatten := fun d d' _ => by
    simp [SameShape, FieldProblem.fns, List.length_flatten, Function.comp_def, V3.toList, List.map_flatMap]
  have hm : ∀ {f : FieldProblem → Dofs → List ℝ}, (∀ d d', (f Q d).length = (f Q d').length) → Static (arr f Q) := fun h d d' _ => h d d'
  intro nq h
  simp only [shipped, List.mem_cons, List.not_mem_nil, or_false] at h
  rcases h with rfl | rfl | rfl | rfl | rfl | rfl | rfl | rfl | rfl | rfl | rfl | rfl | rfl | rfl | rfl | rfl | rfl | rfl | rfl | rfl |
    rfl | rfl | rfl | rfl | rfl | rfl | rfl
  · exact static_c2 hK
  · exact static_c2 (hm fun d d' => by simp [FieldProblem.fns])
  · exact static_linf (hm fun d d' => by simp [FieldProblem.fns])
  · exact static_huber
  · exact static_c2 (hm fun d d' => by simp [FieldProblem.fns])
  · exact static_c2 (static_scalar _)
  · exact static_c2 (hm fun d d' => by simp [FieldProblem.fns, V3.toList])
  · exact static_c2 (hm fun d d' => by simp [FieldProblem.fns, V3.toList])
  · exact static_linf (hm fun d d' => by simp [FieldProblem.fns, V3.toList])
  · exact static_c2 (hm fun d d' => by simp [FieldProblem.fns, V3.toList])
  · exact static_c2 (hm fun d d' => by simp [FieldProblem.fns, bnormal_length])
  · exact static_c2 (hm fun d d' => by simp [FieldProblem.fns, bnormal_length])
  · exact static_c2 (static_scalar _)
  · exact static_c2 (static_scalar _)
  · exact static_linf (hm fun d d' => by simp [FieldProblem.fns, bnormal_length])
  · exact static_linf (hm fun d d' => by simp [FieldProblem.fns, bnormal_length])
  · exact static_linf hF
  · exact static_l1Vec hF
  · exact static_linf hF
  · exact static_c2 (hm fun d d' => by simp [FieldProblem.fns])
  · exact static_c2 (hm fun d d' => by simp [FieldProblem.fns])
  · exact static_c2 (hm fun d d' => by simp [FieldProblem.fns])
  · exact static_linf (hm fun d d' => by simp [FieldProblem.fns])
  · exact static_linf (hm fun d d' => by simp [FieldProblem.fns])
  · exact static_linf4 (hm fun d d' => by simp [FieldProblem.fns])
  · exact static_l1 (hm fun d d' => by simp [FieldProblem.fns])
  · exact static_c2 (static_scalar _)

/-- The unknowns made from flat vectors of the right length all have the same shapes. -/
theorem dofsOf_sameShapes {t : List (String × Val)} {u : ℝ} {x y : List ℝ} (hx : x.length = (ravel t).length)
    (hy : y.length = (ravel t).length) {s : Val} (hs : t.lookup "phi_scaled" = some s) : SameShapes (dofsOf t u x) (dofsOf t u y) := by
  intro k
  by_cases h1 : k = "phi"
  · subst h1
    obtain ⟨w, hw, -, h3⟩ := unravelLike_lookup (x := x) hs
    obtain ⟨w', hw', -, h3'⟩ := unravelLike_lookup (x := y) hs
    rw [dofsOf_phi hw, dofsOf_phi hw']
    exact ((h3 hx).trans (h3' hy).symm).map _ _
  · by_cases h2 : k = "phi_scaled"
    · subst h2
      have : ∀ x, dofsOf t u x "phi_scaled" = .scalar 0 := by
        intro x
        obtain ⟨w, hw, -⟩ := unravelLike_lookup (x := x) hs
        simp only [dofsOf, toDofs, unravelUnscale, hw, Option.map_some, Option.getD_some]
        rw [List.lookup_eq_none_iff.2]
        · rfl
        · intro p hp
          have := (List.mem_filter.1 hp).2
          have hne : p.1 ≠ "phi_scaled" := of_decide_eq_true this
          exact bne_iff_ne.2 hne.symm
      rw [this, this]
      trivial
    · rw [dofsOf_other hs h1 h2, dofsOf_other hs h1 h2]
      cases hk : t.lookup k with
      | none =>
        have : ∀ x, (unravelLike t x).lookup k = none := by
          intro x
          rw [List.lookup_eq_none_iff] at hk ⊢
          intro p hp
          have hm : p.1 ∈ t.map Prod.fst := unravelLike_keys t x ▸ List.mem_map_of_mem hp
          obtain ⟨p', hp', he⟩ := List.mem_map.1 hm
          rw [← he]
          exact hk p' hp'
        rw [this, this]
        trivial
      | some v =>
        obtain ⟨w, hw, -, h3⟩ := unravelLike_lookup (x := x) hk
        obtain ⟨w', hw', -, h3'⟩ := unravelLike_lookup (x := y) hk
        rw [hw, hw']
        exact (h3 hx).trans (h3' hy).symm

end Verif
