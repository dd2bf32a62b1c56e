import Verif.Props.CallTolerances

/-!
# C107: the order of the flat vector, and C87: the weights of the force integral
-/

namespace Verif

/-- **C107 (order).** The flat vector that is passed to the solver and returned lists the arrays in the order of their sorted names. -/
theorem C107_flat_order {P : Type} [HasQp P] {reg : Registry P} {qp : P} {a : QuadcoilArgs} {phiUnit : ℝ} {S : Setup}
    (h : quadcoilSetup reg qp a phiUnit = .ok S) :
    (S.template.map Prod.fst).Pairwise (· ≤ ·) ∧ S.x0 = S.template.flatMap fun e => e.2.entries := by
  obtain ⟨o, c, -, -, -, ht, hx, -⟩ := quadcoilSetup_ok h
  refine ⟨?_, hx⟩
  rw [ht, List.pairwise_map]
  have := List.pairwise_mergeSort (le := fun a b : String × Val => decide (a.1 ≤ b.1))
    (fun a b c h1 h2 => by
      simp only [decide_eq_true_eq] at h1 h2 ⊢
      exact String.le_trans h1 h2)
    (fun a b => by
      simp only [Bool.or_eq_true, decide_eq_true_eq]
      exact String.le_total _ _)
  refine (this _).imp fun {a b} h => ?_
  simpa using h

/-- **C87 (weights).** On an equidistant winding grid over a fraction `L` of the torus the weight of a source is the area of its cell: the cell
in the parameters times the length of the normal at the source. -/
theorem C87_winding_weights (Q : FieldProblem) (L : ℝ) {m n : ℕ} (hm : 2 ≤ m) (hn : 2 ≤ n) (hP : Q.wPhis = linspace0 L m)
    (hT : Q.wThetas = linspace0 1 n) {p t : ℕ} (hp : p < m) (ht : t < n) :
    Q.windingDa p t = L / m * (1 / n) * (Q.cp.surf.normal Q.cp.wdofs (p * (L / m)) (t * (1 / n))).norm := by
  have hpt : ∀ (M : ℝ) {k N : ℕ}, k < N → (linspace0 M N).getD k 0 = k * (M / N) := fun M k N hk => by
    rw [List.getD_eq_getElem _ _ (by simpa [linspace0] using hk)]
    simp [linspace0]
  rw [FieldProblem.windingDa, hP, hT, gridStep_linspace0 _ _ hm, gridStep_linspace0 _ _ hn, hpt L hp, hpt 1 ht]

/-- The torus has such grids. -/
example : resolvedTorus.windingDa 1 0 = 1 / 2 * (1 / 2) * (circularTorus.surf.normal circularTorus.wdofs (1 / 2) 0).norm := by
  rw [C87_winding_weights resolvedTorus 1 le_rfl le_rfl rfl rfl (by norm_num) (by norm_num)]
  simp [resolvedTorus, torusProblem]

/-- With a bound on the largest potential there are two arrays: the auxiliary variable and the scaled potential. -/
example : ∃ S, quadcoilSetup (shippedRegistry FieldProblem.fns []) resolvedTorus (smoothArgs (some "slack")) 7 = .ok S ∧
    (S.template.map Prod.fst).Pairwise (· ≤ ·) := by
  obtain ⟨S, hS⟩ := smoothArgs_ok (some "slack") (.inr rfl)
  exact ⟨S, hS, (C107_flat_order hS).1⟩

end Verif
