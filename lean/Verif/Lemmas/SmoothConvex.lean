import Verif.Lemmas.Growth
import Verif.Lemmas.Flatten
import Mathlib.Analysis.Calculus.FDeriv.Add
import Mathlib.Analysis.Calculus.FDeriv.Mul
import Mathlib.Analysis.Calculus.FDeriv.Pow
import Mathlib.Analysis.Calculus.FDeriv.Prod

/-! Functions that are convex and differentiable, and how the flat vector is cut into the potential and the auxiliary variables. -/

namespace Verif

variable {N L : ℕ}

/-- Convex and differentiable. -/
structure SmoothConvex (f : (Fin N → ℝ) → ℝ) : Prop where
  convex : ConvexFn f
  diff : Differentiable ℝ f

theorem ConvexFn.on {f : (Fin N → ℝ) → ℝ} (h : ConvexFn f) : ConvexOn ℝ Set.univ f := by
  refine ⟨convex_univ, fun x _ y _ a b ha hb hab => ?_⟩
  obtain rfl : b = 1 - a := by linarith
  exact h x y a ha (by linarith)

theorem IsAffineFn.smoothConvex {f : (Fin N → ℝ) → ℝ} (h : IsAffineFn f) : SmoothConvex f := by
  refine ⟨fun x y a _ _ => (h x y a).le, ?_⟩
  obtain ⟨T, hT⟩ := h.linear
  rw [funext hT]
  exact (LinearMap.toContinuousLinearMap T).differentiable.add_const _

theorem IsAffineFn.coord (i : Fin N) : IsAffineFn fun x : Fin N → ℝ => x i := fun _ _ _ => rfl

theorem IsAffineFn.const (b : ℝ) : IsAffineFn fun _ : Fin N → ℝ => b := fun _ _ a => by ring

theorem IsAffineFn.add {f g : (Fin N → ℝ) → ℝ} (hf : IsAffineFn f) (hg : IsAffineFn g) : IsAffineFn fun x => f x + g x :=
  fun x y a => by
    simp only [hf x y a, hg x y a]
    ring

theorem IsAffineFn.const_mul {f : (Fin N → ℝ) → ℝ} (hf : IsAffineFn f) (w : ℝ) : IsAffineFn fun x => w * f x :=
  fun x y a => by
    simp only [hf x y a]
    ring

theorem IsAffineFn.neg {f : (Fin N → ℝ) → ℝ} (hf : IsAffineFn f) : IsAffineFn fun x => -f x :=
  fun x y a => by
    simp only [hf x y a]
    ring

/-- Affine functions of coordinates of the argument. -/
theorem IsAffineFn.comp_coords {f : (Fin L → ℝ) → ℝ} (hf : IsAffineFn f) (j : Fin L → Fin N) (u : ℝ) :
    IsAffineFn fun x : Fin N → ℝ => f fun l => x (j l) * u := by
  intro x y a
  refine (congrArg f (funext fun l => ?_)).trans (hf _ _ a)
  ring

theorem SmoothConvex.comp_coords {f : (Fin L → ℝ) → ℝ} (hf : SmoothConvex f) (j : Fin L → Fin N) (u : ℝ) :
    SmoothConvex fun x : Fin N → ℝ => f fun l => x (j l) * u := by
  constructor
  · intro x y a h0 h1
    refine le_trans (le_of_eq (congrArg f (funext fun l => ?_))) (hf.convex _ _ a h0 h1)
    ring
  · refine hf.diff.comp (differentiable_pi.2 fun l => ?_)
    exact (differentiable_apply (j l)).mul_const u

theorem SmoothConvex.add {f g : (Fin N → ℝ) → ℝ} (hf : SmoothConvex f) (hg : SmoothConvex g) : SmoothConvex fun x => f x + g x := by
  refine ⟨fun x y a h0 h1 => ?_, hf.diff.add hg.diff⟩
  have := hf.convex x y a h0 h1
  have := hg.convex x y a h0 h1
  linarith

theorem SmoothConvex.const_mul {f : (Fin N → ℝ) → ℝ} (hf : SmoothConvex f) {w : ℝ} (hw : 0 ≤ w) : SmoothConvex fun x => w * f x := by
  refine ⟨fun x y a h0 h1 => ?_, hf.diff.const_mul w⟩
  have := mul_le_mul_of_nonneg_left (hf.convex x y a h0 h1) hw
  linarith

theorem SmoothConvex.add_const {f : (Fin N → ℝ) → ℝ} (hf : SmoothConvex f) (b : ℝ) : SmoothConvex fun x => f x + b :=
  hf.add (IsAffineFn.const b).smoothConvex

theorem IsAffineFn.sq {f : (Fin N → ℝ) → ℝ} (hf : IsAffineFn f) : SmoothConvex fun x => f x ^ 2 := by
  refine ⟨fun x y a h0 h1 => ?_, hf.smoothConvex.diff.pow 2⟩
  simp only [hf x y a]
  nlinarith [mul_nonneg (mul_nonneg h0 (by linarith : 0 ≤ 1 - a)) (sq_nonneg (f x - f y))]

theorem SmoothConvex.list_sum (fs : List ((Fin N → ℝ) → ℝ)) (h : ∀ f ∈ fs, SmoothConvex f) :
    SmoothConvex fun x => (fs.map fun f => f x).sum := by
  induction fs with
  | nil => simpa using (IsAffineFn.const (N := N) 0).smoothConvex
  | cons f fs ih =>
    simp only [List.map_cons, List.sum_cons]
    exact (h f (by simp)).add (ih fun f hf => h f (by simp [hf]))

theorem SmoothConvex.wsum (ws : List ℝ) (hw : ∀ w ∈ ws, 0 ≤ w) (fs : List ((Fin N → ℝ) → ℝ)) (h : ∀ f ∈ fs, SmoothConvex f) :
    SmoothConvex fun x => (List.zipWith (· * ·) ws (fs.map fun f => f x)).sum := by
  induction ws generalizing fs with
  | nil => simpa using (IsAffineFn.const (N := N) 0).smoothConvex
  | cons w ws ih =>
    cases fs with
    | nil => simpa using (IsAffineFn.const (N := N) 0).smoothConvex
    | cons f fs =>
      simp only [List.map_cons, List.zipWith_cons_cons, List.sum_cons]
      exact ((h f (by simp)).const_mul (hw w (by simp))).add
        (ih (fun w hw' => hw w (by simp [hw'])) fs fun f hf => h f (by simp [hf]))

/-! ## Lists of functions -/

/-- The list-valued `F` has a fixed number of entries, each with the property `p`. -/
def EachFn (p : ((Fin N → ℝ) → ℝ) → Prop) (F : (Fin N → ℝ) → List ℝ) : Prop :=
  ∃ fs : List ((Fin N → ℝ) → ℝ), (∀ x, F x = fs.map fun f => f x) ∧ ∀ f ∈ fs, p f

variable {p q : ((Fin N → ℝ) → ℝ) → Prop}

theorem EachFn.nil : EachFn p fun _ => [] := ⟨[], fun _ => rfl, by simp⟩

theorem EachFn.single {f : (Fin N → ℝ) → ℝ} (h : p f) : EachFn p fun x => [f x] := ⟨[f], fun _ => rfl, by simpa using h⟩

theorem EachFn.append {F G : (Fin N → ℝ) → List ℝ} (hF : EachFn p F) (hG : EachFn p G) : EachFn p fun x => F x ++ G x := by
  obtain ⟨fs, e, h⟩ := hF
  obtain ⟨gs, e', h'⟩ := hG
  refine ⟨fs ++ gs, fun x => by simp only [e, e', List.map_append], fun f hf => ?_⟩
  rcases List.mem_append.1 hf with hf | hf
  · exact h f hf
  · exact h' f hf

theorem EachFn.map {F : (Fin N → ℝ) → List ℝ} (hF : EachFn p F) (op : (Fin N → ℝ) → ℝ → ℝ) (h : ∀ f, p f → q fun x => op x (f x)) :
    EachFn q fun x => (F x).map (op x) := by
  obtain ⟨fs, e, h'⟩ := hF
  refine ⟨fs.map fun f x => op x (f x), fun x => ?_, fun g hg => ?_⟩
  · simp only [e, List.map_map]
    rfl
  · obtain ⟨f, hf, rfl⟩ := List.mem_map.1 hg
    exact h f (h' f hf)

theorem EachFn.mono {F : (Fin N → ℝ) → List ℝ} (hF : EachFn p F) (h : ∀ f, p f → q f) : EachFn q F := by
  obtain ⟨fs, e, h'⟩ := hF
  exact ⟨fs, e, fun f hf => h f (h' f hf)⟩

theorem EachFn.flatMap {β : Type} (l : List β) (F : β → (Fin N → ℝ) → List ℝ) (h : ∀ b ∈ l, EachFn p (F b)) :
    EachFn p fun x => l.flatMap fun b => F b x := by
  induction l with
  | nil => exact EachFn.nil
  | cons b l ih =>
    simp only [List.flatMap_cons]
    exact (h b (by simp)).append (ih fun b hb => h b (by simp [hb]))

theorem EachFn.tuple {F : (Fin N → ℝ) → List ℝ} (hF : EachFn p F) : ∃ (n : ℕ) (G : (Fin N → ℝ) → Fin n → ℝ),
    (∀ x, F x = List.ofFn (G x)) ∧ ∀ j, p fun x => G x j := by
  obtain ⟨fs, e, h⟩ := hF
  refine ⟨fs.length, fun x j => fs[j] x, fun x => ?_, fun j => h _ (List.getElem_mem _)⟩
  rw [e]
  apply List.ext_getElem
  · simp
  · intro i h1 h2
    simp

/-! ## Cutting the flat vector -/

/-- A number in the dictionary is one of the entries of the flat vector. -/
theorem unravel_scalar {t : List (String × Val)} {k : String} {v : ℝ} (h : t.lookup k = some (.scalar v)) :
    ∃ i < (ravel t).length, ∀ x : List ℝ, x.length = (ravel t).length →
      (unravelLike t x).lookup k = some (.scalar (x.getD i 0)) := by
  induction t with
  | nil => simp at h
  | cons a t ih =>
    obtain ⟨ka, va⟩ := a
    rw [lookup_cons_ite] at h
    by_cases hk : k = ka
    · rw [if_pos hk] at h
      cases h
      refine ⟨0, by simp [ravel, Val.entries], fun x _ => ?_⟩
      rw [unravelLike, lookup_cons_ite, if_pos hk]
      cases x <;> rfl
    · rw [if_neg hk] at h
      obtain ⟨i, hi, hx⟩ := ih h
      cases va with
      | scalar y =>
        refine ⟨i + 1, by simp only [ravel, List.flatMap_cons, Val.entries, List.length_append, List.length_singleton] at hi ⊢; omega,
          fun x hl => ?_⟩
        rw [unravelLike, lookup_cons_ite, if_neg hk, hx]
        · simp [List.getD_eq_getElem?_getD]
        · simp only [ravel, List.flatMap_cons, Val.entries, List.length_append, List.length_drop, List.length_singleton] at hl ⊢
          omega
      | array ys =>
        refine ⟨ys.length + i, by simp only [ravel, List.flatMap_cons, Val.entries, List.length_append] at hi ⊢; omega,
          fun x hl => ?_⟩
        rw [unravelLike, lookup_cons_ite, if_neg hk, hx]
        · simp [List.getD_eq_getElem?_getD]
        · simp only [ravel, List.flatMap_cons, Val.entries, List.length_append, List.length_drop] at hl ⊢
          omega

/-- An array in the dictionary is a segment of the flat vector. -/
theorem unravel_array {t : List (String × Val)} {k : String} {v : List ℝ} (h : t.lookup k = some (.array v)) :
    ∃ i, i + v.length ≤ (ravel t).length ∧ ∀ x : List ℝ, x.length = (ravel t).length →
      (unravelLike t x).lookup k = some (.array ((x.drop i).take v.length)) := by
  induction t with
  | nil => simp at h
  | cons a t ih =>
    obtain ⟨ka, va⟩ := a
    rw [lookup_cons_ite] at h
    by_cases hk : k = ka
    · rw [if_pos hk] at h
      cases h
      refine ⟨0, by simp [ravel, Val.entries], fun x _ => ?_⟩
      rw [unravelLike, lookup_cons_ite, if_pos hk, List.drop_zero]
    · rw [if_neg hk] at h
      obtain ⟨i, hi, hx⟩ := ih h
      cases va with
      | scalar y =>
        refine ⟨1 + i, by simp only [ravel, List.flatMap_cons, Val.entries, List.length_append, List.length_singleton] at hi ⊢; omega,
          fun x hl => ?_⟩
        rw [unravelLike, lookup_cons_ite, if_neg hk, hx]
        · simp [Nat.add_comm]
        · simp only [ravel, List.flatMap_cons, Val.entries, List.length_append, List.length_drop, List.length_singleton] at hl ⊢
          omega
      | array ys =>
        refine ⟨ys.length + i, by simp only [ravel, List.flatMap_cons, Val.entries, List.length_append] at hi ⊢; omega,
          fun x hl => ?_⟩
        rw [unravelLike, lookup_cons_ite, if_neg hk, hx]
        · simp
        · simp only [ravel, List.flatMap_cons, Val.entries, List.length_append, List.length_drop] at hl ⊢
          omega

/-- The same for vectors given by their entries. -/
theorem unravel_scalar_fin {t : List (String × Val)} {k : String} {v : ℝ} (h : t.lookup k = some (.scalar v)) (hN : (ravel t).length = N) :
    ∃ i : Fin N, ∀ x : Fin N → ℝ, (unravelLike t (List.ofFn x)).lookup k = some (.scalar (x i)) := by
  obtain ⟨i, hi, hx⟩ := unravel_scalar h
  refine ⟨⟨i, hN ▸ hi⟩, fun x => ?_⟩
  rw [hx _ (by simp [hN])]
  have : i < N := hN ▸ hi
  simp [List.getD_eq_getElem?_getD, this]

theorem unravel_array_fin {t : List (String × Val)} {k : String} {v : List ℝ} (h : t.lookup k = some (.array v))
    (hN : (ravel t).length = N) (hL : v.length = L) :
    ∃ j : Fin L → Fin N, Function.Injective j ∧
      ∀ x : Fin N → ℝ, (unravelLike t (List.ofFn x)).lookup k = some (.array (List.ofFn fun l => x (j l))) := by
  obtain ⟨i, hi, hx⟩ := unravel_array h
  rw [hN, hL] at hi
  refine ⟨fun l => ⟨i + l, by omega⟩, fun a b hab => ?_, fun x => ?_⟩
  · simp only [Fin.mk.injEq] at hab
    omega
  · rw [hx _ (by simp [hN]), hL]
    congr 2
    apply List.ext_getElem
    · simp
      omega
    · intro k h1 h2
      simp

end Verif
