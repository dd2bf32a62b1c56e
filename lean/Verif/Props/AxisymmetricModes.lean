import Verif.Props.AxisymmetricUser

/-!
# C182: for an axisymmetric problem `ntor = 0` suffices
-/

namespace Verif

open Real CpParams

/-- The same problem without toroidal modes. -/
def withoutToroidal (Q : FieldProblem) : FieldProblem := withModes Q Q.cp.mpol 0 Q.cp.stellsym

/-- The axisymmetric part of a potential in the table without toroidal modes. -/
theorem Phi_withoutToroidal (Q : FieldProblem) {e : List ℝ} (he : e.length = Q.cp.rows.length) :
    ∃ c : List ℝ, c.length = (withoutToroidal Q).cp.rows.length ∧
      ∀ p x, (withoutToroidal Q).cp.Phi c p x = Q.cp.Phi (axisymmetricPart Q.cp e) p x := by
  have filt : ∀ (R : List (ℤ × ℤ × ℤ)) (e : List ℝ), e.length = R.length → ∃ d : List ℝ, d.length = (R.filter fun r => r.2.1 = 0).length ∧
      ∀ f : ℤ × ℤ × ℤ → ℝ, app ((R.filter fun r => r.2.1 = 0).map f) d =
        app (R.map f) (List.zipWith (fun (r : ℤ × ℤ × ℤ) x => if r.2.1 = 0 then x else 0) R e) := by
    intro R
    induction R with
    | nil => exact fun e _ => ⟨[], rfl, fun f => by simp [app]⟩
    | cons r R ih =>
      intro e he
      cases e with
      | nil => simp at he
      | cons x e =>
        obtain ⟨d, hd, hf⟩ := ih e (by simpa using he)
        by_cases h0 : r.2.1 = 0
        · refine ⟨x :: d, by simp [h0, hd], fun f => ?_⟩
          have := hf f
          simp only [app] at this
          simp [app, h0, this]
        · refine ⟨d, by simp [h0, hd], fun f => ?_⟩
          have := hf f
          simp only [app] at this
          simp [app, h0, this]
  obtain ⟨d, hd, hf⟩ := filt Q.cp.rows e he
  obtain ⟨c, hc, hg⟩ := app_embed (Q.cp.rows.filter fun r => r.2.1 = 0) (withoutToroidal Q).cp.rows (rows_nodup _) (by
    intro r hr
    obtain ⟨h1, h2⟩ := List.mem_filter.1 hr
    have h2 : r.2.1 = 0 := by simpa using h2
    have hm : IsMode Q.cp.mpol Q.cp.ntor r.1 r.2.1 → IsMode Q.cp.mpol 0 r.1 r.2.1 := by
      simp only [IsMode, h2]
      omega
    rw [mem_rows_iff] at h1 ⊢
    rcases h1 with ⟨h3, h4⟩ | ⟨h3, h4, h5⟩
    · exact Or.inl ⟨h3, hm h4⟩
    · exact Or.inr ⟨h3, h4, h5.imp hm id⟩) d hd
  refine ⟨c, hc, fun p x => ?_⟩
  rw [Phi, Phi, trig, trig, axisymmetricPart, ← hf, ← hg]
  rfl

/-- Every potential without toroidal modes in the larger table. -/
theorem Phi_withToroidal (Q : FieldProblem) {c : List ℝ} (hc : c.length = (withoutToroidal Q).cp.rows.length) :
    ∃ e : List ℝ, e.length = Q.cp.rows.length ∧ ∀ p x, (withoutToroidal Q).cp.Phi c p x = Q.cp.Phi e p x := by
  obtain ⟨e, he, hp, -⟩ := C117_embedding (withoutToroidal Q) Q.cp.mpol Q.cp.ntor Q.cp.stellsym le_rfl (Nat.zero_le _) (fun h => h) c
    (by rw [hc, rows_length])
  exact ⟨e, by rw [he, rows_length], fun p x => (hp p x).symm⟩

section
variable {others : List String} {objs : List (String × UnitArg × ℝ)} {rs : List Request} {sm : Option String}

theorem withoutToroidal_lists {Q : FieldProblem} {k : ℕ} (h : IsAxisymmetricData Q k) (hobj : ConvexObjectives objs)
    (hrs : ∀ r ∈ rs, r.name ∈ affineNames ++ convexNames) (hor : ∀ r ∈ rs, r.name ∉ orientedNames) {c e : List ℝ}
    (hce : ∀ p x, (withoutToroidal Q).cp.Phi c p x = Q.cp.Phi e p x) :
    listObjective others objs (withoutToroidal Q) c = listObjective others objs Q e ∧
      (ListFeasible others rs (withoutToroidal Q) c ↔ ListFeasible others rs Q e) := by
  obtain ⟨a, -, hw⟩ := h.winding_grid
  have zero := modes_tiled h.nfp hw Q.cp.mpol 0 Q.cp.stellsym (c := zeroPotential Q) (e := zeroPotential (withoutToroidal Q)) fun p x => by
    rw [CpParams.Phi, CpParams.Phi, zeroPotential, zeroPotential, app_zero_list, app_zero_list]
  exact (modes_tiled h.nfp hw Q.cp.mpol 0 Q.cp.stellsym hce).lists zero (objective_numbers hobj)
    (fun r hr => convex_tiled _ (hrs r hr) (hor r hr)) fun r hr e => rfl

/-- **C182 (`ntor = 0` suffices).** For every admissible potential of an axisymmetric problem there is an admissible potential of the problem
with `ntor = 0` that is not worse; and a solution with `ntor = 0` is a solution of the problem. -/
theorem C182_ntor_zero {Q : FieldProblem} {k : ℕ} (h : IsAxisymmetricData Q k) (hk : Q.cp.ntor < k) (hobj : ConvexObjectives objs)
    (hrs : ∀ r ∈ rs, r.name ∈ affineNames ++ convexNames ∧ LegalUse (shippedRegistry FieldProblem.fns others) sm r.name r.unit r.type)
    (hor : ∀ r ∈ rs, r.name ∉ orientedNames)
    (hp : 0 ≤ gridStep Q.plasma.phis * gridStep Q.plasma.thetas) (he : 0 ≤ gridStep Q.ePhis * gridStep Q.eThetas) :
    (∀ e : List ℝ, e.length = Q.cp.rows.length → ListFeasible others rs Q e → ∃ c : List ℝ, c.length = (withoutToroidal Q).cp.rows.length ∧
      ListFeasible others rs (withoutToroidal Q) c ∧ listObjective others objs (withoutToroidal Q) c ≤ listObjective others objs Q e) ∧
    ∀ d, UserMinimiser (shippedRegistry FieldProblem.fns others) objs rs (withoutToroidal Q) (Pot (withoutToroidal Q)) d →
      ∃ e : List ℝ, UserMinimiser (shippedRegistry FieldProblem.fns others) objs rs Q (Pot Q) (phiOnly (.array e)) ∧
        ∀ p x, Q.cp.Phi e p x = (withoutToroidal Q).cp.Phi (coefs d) p x := by
  have hphi : ∀ c : List ℝ, phiOnly (.array c) "phi" = .array c := fun c => by simp [phiOnly]
  have first : ∀ e : List ℝ, e.length = Q.cp.rows.length → ListFeasible others rs Q e → ∃ c : List ℝ,
      c.length = (withoutToroidal Q).cp.rows.length ∧ ListFeasible others rs (withoutToroidal Q) c ∧
        listObjective others objs (withoutToroidal Q) c ≤ listObjective others objs Q e := by
    intro e hel hf
    obtain ⟨c, hc, hPhi⟩ := Phi_withoutToroidal Q hel
    obtain ⟨g1, g2⟩ := C182_user_no_gain (objs := objs) h hk hobj hrs hor hp he hel hf
    obtain ⟨k1, k2⟩ := withoutToroidal_lists (others := others) h hobj (fun r hr => (hrs r hr).1) hor hPhi
    exact ⟨c, hc, k2.2 g1, k1.trans_le g2⟩
  refine ⟨first, ?_⟩
  rintro d ⟨⟨c, hdc, hcl⟩, hf, hmin⟩
  have hcd : coefs d = c := by rw [coefs, hdc]; rfl
  have hlen : c.length = (withoutToroidal Q).cp.rows.length := by rw [rows_length]; exact hcl
  obtain ⟨e, hel, hPhi⟩ := Phi_withToroidal Q hlen
  obtain ⟨k1, k2⟩ := withoutToroidal_lists (others := others) h hobj (fun r hr => (hrs r hr).1) hor hPhi
  have hf' := (feasible_congr (withoutToroidal Q) others hrs (d := d) (e := phiOnly (.array c)) (by rw [hdc, hphi])).1 hf
  refine ⟨e, ⟨⟨_, hphi _, by rw [hel, rows_length]; rfl⟩, k2.1 hf', ?_⟩, fun p x => by rw [hcd, hPhi]⟩
  rintro d' ⟨b, hdb, hbl⟩ hfb
  have hbl' : b.length = Q.cp.rows.length := by rw [rows_length]; exact hbl
  obtain ⟨c', hc', f', o'⟩ := first b hbl' ((feasible_congr Q others hrs (d := d') (e := phiOnly (.array b)) (by rw [hdb, hphi])).1 hfb)
  have hm := hmin (phiOnly (.array c')) ⟨_, hphi _, by rw [hc', rows_length]; rfl⟩ f'
  rw [objective_congr (withoutToroidal Q) others hobj hp he (d := d) (e := phiOnly (.array c)) (by rw [hdc, hphi])] at hm
  rw [objective_congr Q others hobj hp he (d := d') (e := phiOnly (.array b)) (by rw [hdb, hphi])]
  exact k1.symm.trans_le (hm.trans o')

end

/-- The circular torus with a bound on the normal field: the potential with the single mode `m = 1`, `n = 0` suffices. -/
example (others : List String) (d : Dofs) (hd : UserMinimiser (shippedRegistry FieldProblem.fns others) [("f_B", .scalar 1, 1)]
    [⟨"f_max_Bnormal", "<=", .scalar 1, 2⟩] (withoutToroidal bandTorus) (Pot (withoutToroidal bandTorus)) d) :
    ∃ e : List ℝ, e.length = 4 ∧ (coefs d).length = 1 ∧ UserMinimiser (shippedRegistry FieldProblem.fns others) [("f_B", .scalar 1, 1)]
      [⟨"f_max_Bnormal", "<=", .scalar 1, 2⟩] bandTorus (Pot bandTorus) (phiOnly (.array e)) := by
  obtain ⟨e, he, -⟩ := (C182_ntor_zero (sm := none) bandTorus_axisymmetric (by decide) (by
      intro o ho
      simp only [List.mem_cons, List.not_mem_nil, or_false] at ho
      subst ho
      exact ⟨by simp [objectiveNames], ⟨1, rfl, one_ne_zero⟩, zero_le_one⟩) (by
      intro r hr
      simp only [List.mem_cons, List.not_mem_nil, or_false] at hr
      subst hr
      exact ⟨by simp [affineNames, convexNames], ⟨_, rfl, by simp [Quantity.generateLinf]⟩, Or.inl rfl, by simp⟩) (by
      intro r hr
      simp only [List.mem_cons, List.not_mem_nil, or_false] at hr
      subst hr
      simp [orientedNames]) bandTorus_resolving.plasma bandTorus_resolving.eval_nonneg).2 d hd
  refine ⟨e, ?_, ?_, he⟩
  · obtain ⟨⟨c, hc, hl⟩, -⟩ := he
    simp only [phiOnly, if_true, Val.array.injEq] at hc
    rw [hc, hl]
    decide
  · obtain ⟨⟨c, hc, hl⟩, -⟩ := hd
    rw [coefs, hc]
    exact hl.trans (by decide)

end Verif
