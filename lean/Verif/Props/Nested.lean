import Verif.Props.Mirror

/-!
# C117: a finer representation of the potential is never worse
-/

namespace Verif

open Real CpParams

/-- Every mode of the half plane is in the table, with both functions if the potential is not stellarator symmetric. -/
theorem mem_rows_iff (P : CpParams) (r : ℤ × ℤ × ℤ) :
    r ∈ P.rows ↔ (r.2.2 = 1 ∧ IsMode P.mpol P.ntor r.1 r.2.1) ∨
      (P.stellsym = false ∧ r.2.2 = -1 ∧ (IsMode P.mpol P.ntor r.1 r.2.1 ∨ (r.1 = 0 ∧ r.2.1 = 0))) := by
  obtain ⟨m, n, s⟩ := r
  have hm : ∀ m n : ℤ, (m, n) ∈ modePairs (makeMn P.mpol P.ntor true) ↔ IsMode P.mpol P.ntor m n := by
    intro m n
    rw [mem_makeMn_stellsym, IsMode]
  cases hs : P.stellsym with
  | true =>
    rw [rows_stellsym P hs]
    simp only [List.mem_map, Prod.mk.injEq, Prod.exists, hm]
    constructor
    · rintro ⟨a, b, h, rfl, rfl, rfl⟩
      exact Or.inl ⟨rfl, h⟩
    · rintro (⟨rfl, h⟩ | ⟨h, -⟩)
      · exact ⟨m, n, h, rfl, rfl, rfl⟩
      · simp at h
  | false =>
    rw [rows_general P hs]
    simp only [List.mem_append, List.mem_cons, List.mem_map, Prod.mk.injEq, Prod.exists, hm]
    constructor
    · rintro (⟨a, b, h, rfl, rfl, rfl⟩ | ⟨rfl, rfl, rfl⟩ | ⟨a, b, h, rfl, rfl, rfl⟩)
      · exact Or.inl ⟨rfl, h⟩
      · exact Or.inr ⟨trivial, rfl, Or.inr ⟨rfl, rfl⟩⟩
      · exact Or.inr ⟨trivial, rfl, Or.inl h⟩
    · rintro (⟨rfl, h⟩ | ⟨-, rfl, h | ⟨rfl, rfl⟩⟩)
      · exact Or.inl ⟨m, n, h, rfl, rfl, rfl⟩
      · exact Or.inr (Or.inr ⟨m, n, h, rfl, rfl, rfl⟩)
      · exact Or.inr (Or.inl ⟨rfl, rfl, rfl⟩)

/-- A sum over one table as a sum over a larger one. -/
theorem app_embed {β : Type} [DecidableEq β] (R R' : List β) (hR' : R'.Nodup) (hsub : ∀ r ∈ R, r ∈ R') (c : List ℝ)
    (hc : c.length = R.length) : ∃ c' : List ℝ, c'.length = R'.length ∧ ∀ f : β → ℝ, app (R'.map f) c' = app (R.map f) c := by
  obtain ⟨x, rfl⟩ := eq_ofFn c hc
  let x' : Fin R'.length → ℝ := fun j => ∑ i : Fin R.length, if R[i] = R'[j] then x i else 0
  refine ⟨List.ofFn x', by simp, fun f => ?_⟩
  rw [app_map_ofFn R' rfl, app_map_ofFn R rfl]
  simp only [x', Finset.mul_sum]
  rw [Finset.sum_comm]
  refine Finset.sum_congr rfl fun i _ => ?_
  obtain ⟨j, hj, hji⟩ := List.mem_iff_getElem.1 (hsub R[i] (List.getElem_mem _))
  rw [Finset.sum_eq_single ⟨j, hj⟩]
  · simp only [Fin.getElem_fin] at hji ⊢
    rw [if_pos hji.symm, hji]
  · intro k _ hk
    rw [if_neg, mul_zero]
    intro h
    apply hk
    rw [← hji] at h
    exact Fin.ext ((hR'.getElem_inj_iff.1 h).symm)
  · intro h
    exact absurd (Finset.mem_univ _) h

/-- The same problem with another resolution and symmetry of the potential. -/
def withModes (Q : FieldProblem) (mpol ntor : ℕ) (stellsym : Bool) : FieldProblem :=
  { Q with cp := { Q.cp with mpol := mpol, ntor := ntor, stellsym := stellsym } }

/-- **C117 (embedding).** Every potential is also a potential of every larger resolution, with the same current, normal field,
`f_B` and `f_K`. Dropping stellarator symmetry counts as enlarging. -/
theorem C117_embedding (Q : FieldProblem) (mpol ntor : ℕ) (stellsym : Bool) (hm : Q.cp.mpol ≤ mpol) (hn : Q.cp.ntor ≤ ntor)
    (hs : stellsym = true → Q.cp.stellsym = true) (c : List ℝ)
    (hc : c.length = (cpNdofs Q.cp.stellsym Q.cp.mpol Q.cp.ntor).1) :
    ∃ c' : List ℝ, c'.length = (cpNdofs stellsym mpol ntor).1 ∧
      (∀ p t, (withModes Q mpol ntor stellsym).cp.Phi c' p t = Q.cp.Phi c p t) ∧
      (∀ p t, (withModes Q mpol ntor stellsym).cp.K c' p t = Q.cp.K c p t) ∧
      (withModes Q mpol ntor stellsym).fB c' = Q.fB c ∧ (withModes Q mpol ntor stellsym).fK c' = Q.fK c := by
  have hmode : ∀ m n, IsMode Q.cp.mpol Q.cp.ntor m n → IsMode mpol ntor m n := by
    intro m n h
    simp only [IsMode] at h ⊢
    omega
  have hsub : ∀ r ∈ Q.cp.rows, r ∈ (withModes Q mpol ntor stellsym).cp.rows := by
    intro r hr
    rw [mem_rows_iff] at hr ⊢
    rcases hr with ⟨h1, h2⟩ | ⟨h0, h1, h2⟩
    · exact Or.inl ⟨h1, hmode _ _ h2⟩
    · refine Or.inr ⟨?_, h1, h2.imp (hmode _ _) id⟩
      show stellsym = false
      cases stellsym
      · rfl
      · rw [hs rfl] at h0
        simp at h0
  obtain ⟨c', hl, hf⟩ := app_embed Q.cp.rows _ (rows_nodup (withModes Q mpol ntor stellsym).cp) hsub c (by rw [hc, rows_length])
  have hPhi : ∀ p t, (withModes Q mpol ntor stellsym).cp.Phi c' p t = Q.cp.Phi c p t := by
    intro p t
    rw [Phi, Phi, trig, trig]
    exact hf _
  have hK : ∀ p t, (withModes Q mpol ntor stellsym).cp.K c' p t = Q.cp.K c p t := by
    intro p t
    have e1 : app ((withModes Q mpol ntor stellsym).cp.opPhi p t) c' = app (Q.cp.opPhi p t) c := by
      rw [opPhi_eq, opPhi_eq]
      exact hf _
    have e2 : app ((withModes Q mpol ntor stellsym).cp.opTheta p t) c' = app (Q.cp.opTheta p t) c := by
      rw [opTheta_eq, opTheta_eq]
      exact hf _
    rw [K_eq, K_eq, e1, e2]
    rfl
  obtain ⟨h1, h2⟩ := objectives_of_K Q (withModes Q mpol ntor stellsym) rfl rfl rfl rfl rfl rfl rfl rfl c c' fun p t => (hK p t).symm
  refine ⟨c', ?_, hPhi, hK, h1.symm, h2.symm⟩
  rw [hl, rows_length]
  rfl

/-- **C117 (refinement).** The optimum of `f_B + w f_K` does not increase with the resolution of the potential. -/
theorem C117_refinement (Q : FieldProblem) (mpol ntor : ℕ) (stellsym : Bool) (hm : Q.cp.mpol ≤ mpol) (hn : Q.cp.ntor ≤ ntor)
    (hs : stellsym = true → Q.cp.stellsym = true) (w : ℝ) (c c' : List ℝ)
    (hc : IsBest (regObjective Q w) (cpNdofs Q.cp.stellsym Q.cp.mpol Q.cp.ntor).1 c)
    (hc' : IsBest (regObjective (withModes Q mpol ntor stellsym) w) (cpNdofs stellsym mpol ntor).1 c') :
    regObjective (withModes Q mpol ntor stellsym) w c' ≤ regObjective Q w c := by
  obtain ⟨d, hd, -, -, h1, h2⟩ := C117_embedding Q mpol ntor stellsym hm hn hs c hc.1
  calc _ ≤ regObjective (withModes Q mpol ntor stellsym) w d := hc'.2 d hd
    _ = _ := by rw [regObjective, h1, h2, regObjective]

/-- A potential of one mode in a larger table that is not symmetric. -/
example (x : ℝ) : ∃ c' : List ℝ, c'.length = 15 ∧
    ∀ p t, (withModes torusProblem 2 1 false).cp.Phi c' p t = torusProblem.cp.Phi [x] p t := by
  obtain ⟨c', h1, h2, -⟩ := C117_embedding torusProblem 2 1 false (by decide) (by decide) (by simp) [x] rfl
  exact ⟨c', h1, h2⟩

end Verif
