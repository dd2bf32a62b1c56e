import Verif.Props.CallGradient
import Verif.Props.CallExamples

/-!
# C151: examples
-/

namespace Verif

open Filter Topology

/-- A torus inside a torus is a usual call. -/
theorem torusCall_usual {b : ℝ} (hb : ∃ t ∈ (torusCall b).described.bnormal [0], t ≠ 0) : UsualCall [] (torusCall b) where
  grids := torusCall_grids b
  one := by simp [torusCall]
  plasma_size := by simp [torusCall, SurfaceShape.size]
  winding_size := by simp [torusCall, CallArgs.described, SurfaceShape.size]
  plasma_regular := fun q _ => torus_normal 2 (1 / 2) q.1 q.2 (by norm_num) (by norm_num)
  winding_regular := fun q _ => (circularTorus_regular q.1 q.2).1
  apart := fun q _ r _ => torus_disjoint 2 (1 / 2) 1 q.1 q.2 r.1 r.2 (by norm_num) (by norm_num) (by norm_num) (by norm_num) (by norm_num)
  field := hb
  net := .inl (by simp [torusCall])
  unit := .inr ⟨rfl, by simp [torusCall], fun _ => by norm_num [torusCall, minorRadius]⟩
  metrics := torusCall_metrics b
  generator := fun d hd => by simp [torusCall] at hd

/-- For some plasma field the gradients of `f_B` and `f_K` returned for the torus are as accurate as wanted when gradient descent ends with
a small gradient. -/
example : ∃ b, ∀ w > 0, ∀ name ∈ ["f_B", "f_K"], ∃ (S : Setup) (D : List ℝ), D.length = ((torusCall b).standard w).yFlat.length ∧
    ∀ ε > 0, ∃ η > 0, ∃ (R : CallOut) (i : InnerResult ℝ) (x : Fin 1 → ℝ),
      quadcoilCall (gradientDescent realGrad (1 / 4)) realGrad (shippedRegistry FieldProblem.fns []) ((torusCall b).standard w) = .ok (some R) ∧
      R.results = .inner i ∧ i.x = List.ofFn x ∧ (Num.norm i.grad < η →
        ∃ v, ((torusCall b).standard w).SolvesVihp (shippedRegistry FieldProblem.fns []) S name x v ∧
          List.Forall₂ (fun s t => |s - t| < ε) (((torusCall b).standard w).dfdyArr (shippedRegistry FieldProblem.fns []) S name x v) D) := by
  obtain ⟨b, hb⟩ := torusCall_field
  refine ⟨b, fun w hw name hname => ?_⟩
  obtain ⟨S, best, -, -, -, h⟩ := C151_call_partial [] (torusCall_usual hb) hw
  obtain ⟨D, -, -, hD⟩ := h name (by simp only [List.mem_cons, List.not_mem_nil, or_false] at hname ⊢; tauto)
  refine ⟨S, List.ofFn D, by simp, fun ε hε => ?_⟩
  obtain ⟨η, hη, hrun⟩ := hD ε hε
  obtain ⟨R, i, x, h1, h2, h3, h4⟩ := hrun (gradientDescent_count _ _) (gradientDescent_value _ _) (fun _ _ _ _ _ => rfl)
    (gradientDescent_shape realGrad (fun f p => by simp [realGrad]) (1 / 4))
  refine ⟨η, hη, R, i, x, h1, h2, h3, fun hi => ?_⟩
  obtain ⟨⟨v, hv, -⟩, h5⟩ := h4 hi
  exact ⟨v, hv, h5 v hv⟩

/-- The flat vector of the inputs of the torus with another plasma field gives the call with that field. -/
example (b c w : ℝ) : ((torusCall b).standard w).atY ((torusCall c).standard w).yFlat = (torusCall c).standard w :=
  C151_every_input ⟨rfl, rfl, by simp [torusCall, CallArgs.standard], rfl, rfl, by simp [torusCall, CallArgs.standard],
    ⟨[1, w], [1, w], rfl, rfl, rfl⟩, rfl, fun _ => rfl⟩

/-- The order of the inputs of the torus. -/
example (b w : ℝ) : ((torusCall b).standard w).yDict.map Prod.fst =
    ["Bnormal_plasma", "net_poloidal_current_amperes", "net_toroidal_current_amperes", "objective_weight", "plasma_dofs", "winding_dofs"] := by
  have h1 : ((torusCall b).standard w).yInserted.map Prod.fst = ["plasma_dofs", "net_poloidal_current_amperes",
    "net_toroidal_current_amperes", "objective_weight", "Bnormal_plasma", "winding_dofs"] := rfl
  have hp : (((torusCall b).standard w).yDict.map Prod.fst).Perm (((torusCall b).standard w).yInserted.map Prod.fst) :=
    (List.mergeSort_perm _ _).map _
  have hs : (((torusCall b).standard w).yDict.map Prod.fst).Pairwise (· ≤ ·) := by
    rw [List.pairwise_map]
    have := List.pairwise_mergeSort (le := fun p q : String × Val => decide (p.1 ≤ q.1))
      (fun p q r h1 h2 => decide_eq_true (String.le_trans (of_decide_eq_true h1) (of_decide_eq_true h2)))
      (fun p q => by rcases String.le_total p.1 q.1 with h | h <;> simp [h]) ((torusCall b).standard w).yInserted
    exact this.imp fun h => of_decide_eq_true h
  refine List.Perm.eq_of_pairwise (le := fun p q : String => p ≤ q) (fun p q _ _ h h2 => String.le_antisymm h h2) hs (by decide) (hp.trans ?_)
  rw [h1]
  decide

end Verif
