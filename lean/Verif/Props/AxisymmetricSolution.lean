import Verif.Props.TokamakField
import Verif.Props.Mirror
import Verif.Lemmas.Turned
import Verif.Lemmas.OriginModes
import Mathlib.Algebra.Order.Chebyshev

/-!
# C182: an axisymmetric problem has an axisymmetric solution
-/

namespace Verif

open Real CpParams

/-! ## Turning the potential by a multiple of the grid step -/

theorem period_sum_shift (s : ℝ) (A j : ℕ) (thetas : List ℝ) (F : ℝ × ℝ → ℝ) (hp : ∀ p t, F (p + s, t) = F (p, t)) :
    ((gridPoints (linspace0 s A) thetas).map fun q => F (q.1 + s * (j / A), q.2)).sum = ((gridPoints (linspace0 s A) thetas).map F).sum := by
  rw [gridPoints_sum, gridPoints_sum, linspace0_scale s A, List.map_map, List.map_map]
  simp only [Function.comp_def, ← mul_add]
  exact circle_sum_shift (fun x => (thetas.map fun t => F (s * x, t)).sum) (fun x => by simp only [mul_add, mul_one, hp]) A j

theorem turned_of_axisymmetric {Q : FieldProblem} {k : ℕ} (h : IsAxisymmetricData Q k) (hk : k ≠ 0) (j : ℕ) (c c' : List ℝ)
    (hc : ∀ p x, Q.cp.Phi c' (p + j / (Q.cp.surf.nfp * k)) x = Q.cp.Phi c p x) : Turned (j / (Q.cp.surf.nfp * k)) Q Q c c' := by
  obtain ⟨a, ha, hw⟩ := h.winding_grid
  have m : MovedSurface (j / (Q.cp.surf.nfp * k)) 0 ⟨Q.cp.surf, Q.cp.wdofs, [], []⟩ ⟨Q.cp.surf, Q.cp.wdofs, [], []⟩ :=
    ⟨fun p x => by rw [add_zero]; exact h.winding.turn p _ x, rfl, rfl⟩
  refine ⟨⟨m.dash, rfl, rfl⟩, hc, fun p x => h.plasma.turn p _ x, h.nfp, ⟨_, j * a, hw, ?_⟩, rfl, rfl⟩
  have h1 : (a : ℝ) ≠ 0 := by exact_mod_cast ha
  have h2 : (k : ℝ) ≠ 0 := by exact_mod_cast hk
  have h3 : (Q.cp.surf.nfp : ℝ) ≠ 0 := by exact_mod_cast h.nfp
  push_cast
  field_simp

theorem objectives_turn {Q : FieldProblem} {k : ℕ} (h : IsAxisymmetricData Q k) (hk : k ≠ 0) (j : ℕ) (c c' : List ℝ)
    (hc : ∀ p x, Q.cp.Phi c' (p + j / (Q.cp.surf.nfp * k)) x = Q.cp.Phi c p x) : Q.fB c' = Q.fB c ∧ Q.fK c' = Q.fK c := by
  have T := turned_of_axisymmetric h hk j c c' hc
  have h2 : (k : ℝ) ≠ 0 := by exact_mod_cast hk
  have h3 : (Q.cp.surf.nfp : ℝ) ≠ 0 := by exact_mod_cast h.nfp
  have hstep : ∀ a : ℕ, a ≠ 0 → (1 / Q.cp.surf.nfp : ℝ) * ((j * a : ℕ) / (k * a : ℕ)) = j / (Q.cp.surf.nfp * k) := by
    intro a ha
    have h1 : (a : ℝ) ≠ 0 := by exact_mod_cast ha
    push_cast
    field_simp
  constructor
  · obtain ⟨a, ha, hA⟩ := h.plasma_grid
    obtain ⟨a', -, hw⟩ := h.winding_grid
    obtain ⟨b, hb⟩ := h.plasma_field
    have key : ∀ d, Q.fB d = ((gridPoints Q.plasma.phis Q.plasma.thetas).map fun q => (Q.bnWinding d q + b q.2) ^ 2 / 2 *
        (gridStep Q.plasma.phis * gridStep Q.plasma.thetas * (Q.plasma.shape.normal Q.plasma.dofs q.1 q.2).norm)).sum * Q.cp.nfp := by
      intro d
      rw [fB_eq, hb, GridSurface.da]
      generalize gridStep Q.plasma.phis * gridStep Q.plasma.thetas = st
      generalize gridPoints Q.plasma.phis Q.plasma.thetas = L
      congr 2
      induction L with
      | nil => simp
      | cons q L ih => simp only [List.map_cons, List.zip_cons_cons, List.zipWith_cons_cons, ih]
    rw [key, key]
    congr 1
    generalize gridStep Q.plasma.phis * gridStep Q.plasma.thetas = st
    rw [hA, ← period_sum_shift (1 / Q.cp.surf.nfp) (k * a) (j * a)]
    · congr 1
      refine List.map_congr_left fun q _ => ?_
      have e := (T.samePlasmaPoint q.1 q.2 0)
      simp only [hstep a ha]
      rw [e.field, h.plasma.turn_normal, rotZ_norm]
    · intro p t
      have e := normal_periodic Q.plasma.shape (by rw [h.same_nfp]; exact h.nfp) Q.plasma.dofs p t
      rw [h.same_nfp] at e
      simp only [C48_normal_field_periodic Q h.nfp h.same_nfp (k * a') hw, e.1]
  · obtain ⟨a, ha, hA⟩ := h.eval_grid
    have key : ∀ d, Q.fK d = ((gridPoints Q.ePhis Q.eThetas).map fun q => Q.cp.K2 d q.1 q.2 / 2 *
        (gridStep Q.ePhis * gridStep Q.eThetas * (Q.cp.surf.normal Q.cp.wdofs q.1 q.2).norm)).sum * Q.cp.nfp := by
      intro d
      rw [fK_eq, GridSurface.da, FieldProblem.evalSurface, List.zipWith_map, List.zipWith_self]
    rw [key, key]
    congr 1
    generalize gridStep Q.ePhis * gridStep Q.eThetas = st
    rw [hA, ← period_sum_shift (1 / Q.cp.surf.nfp) (k * a) (j * a)]
    · congr 1
      refine List.map_congr_left fun q _ => ?_
      simp only [hstep a ha, K2, T.K, rotZ_normSq, T.normal, rotZ_norm]
    · intro p t
      have e := normal_periodic Q.cp.surf h.nfp Q.cp.wdofs p t
      have eK := Q.cp.K_field_period h.nfp c' p t 1
      simp only [Int.cast_one] at eK
      simp only [K2, eK, rotZ_normSq, e.1]

/-! ## The mean of the turned potentials -/

/-- The coefficients of the modes that do not depend on the toroidal angle. -/
def axisymmetricPart (P : CpParams) (c : List ℝ) : List ℝ := List.zipWith (fun r x => if r.2.1 = 0 then x else 0) P.rows c

theorem mean_of_turned (P : CpParams) (hn : P.surf.nfp ≠ 0) {k : ℕ} (hk : P.ntor < k) (c : List ℝ) (p x : ℝ) :
    ∑ j ∈ Finset.range k, P.Phi c (p - j / (P.surf.nfp * k)) x = k * P.Phi (axisymmetricPart P c) p x := by
  have hk0 : k ≠ 0 := by omega
  have h2 : (k : ℝ) ≠ 0 := by exact_mod_cast hk0
  have h3 : (P.surf.nfp : ℝ) ≠ 0 := by exact_mod_cast hn
  have key : ∀ (R : List (ℤ × ℤ × ℤ)) (d : List ℝ), (∀ r ∈ R, -(P.ntor : ℤ) ≤ r.2.1 ∧ r.2.1 ≤ P.ntor) →
      ∑ j ∈ Finset.range k, app (R.map fun r => sinOrCos (P.angle (p - j / (P.surf.nfp * k)) x r) r.2.2) d =
        k * app (R.map fun r => sinOrCos (P.angle p x r) r.2.2) (List.zipWith (fun r y => if r.2.1 = 0 then y else 0) R d) := by
    intro R
    induction R with
    | nil => simp [app]
    | cons r R ih =>
      intro d hR
      cases d with
      | nil => simp [app]
      | cons y d =>
        have hc : ∀ (u v : ℝ) (a b : List ℝ), app (u :: a) (v :: b) = u * v + app a b := fun u v a b => by simp [app]
        simp only [List.map_cons, List.zipWith_cons_cons, hc, Finset.sum_add_distrib, mul_add]
        rw [ih d fun r hr => hR r (List.mem_cons_of_mem _ hr), ← Finset.sum_mul]
        congr 1
        have hang : ∀ j : ℕ, P.angle (p - j / (P.surf.nfp * k)) x r = P.angle p x r + 2 * π * j * r.2.1 / k := by
          intro j
          simp only [angle, nfp]
          field_simp
          ring
        by_cases h0 : r.2.1 = 0
        · simp [hang, h0]
          ring
        · have hd : ¬ (k : ℤ) ∣ r.2.1 := by
            intro hd
            have := hR r (by simp)
            exact h0 (Int.eq_zero_of_abs_lt_dvd hd (by rw [abs_lt]; constructor <;> omega))
          have hs : ∑ j ∈ Finset.range k, sinOrCos (P.angle (p - j / (P.surf.nfp * k)) x r) r.2.2 = 0 := by
            simp only [hang, sinOrCos]
            split_ifs
            · simp only [sin_add, Finset.sum_add_distrib, ← Finset.mul_sum, cos_sum k hk0, sin_sum k hk0, if_neg hd]
              ring
            · simp only [cos_add, Finset.sum_sub_distrib, ← Finset.mul_sum, cos_sum k hk0, sin_sum k hk0, if_neg hd]
              ring
          rw [hs, if_neg h0]
          ring
  refine key P.rows c fun r hr => ?_
  rcases (mem_rows P r hr).2 with h | ⟨-, rfl⟩
  · simp only [IsMode] at h
    omega
  · simp

/-- A quadratic objective of the mean is at most the mean of the objectives. -/
theorem regObjective_mean (Q : FieldProblem) (w : ℝ) (hw : 0 ≤ w) (hp : 0 ≤ gridStep Q.plasma.phis * gridStep Q.plasma.thetas)
    (he : 0 ≤ gridStep Q.ePhis * gridStep Q.eThetas) {L k : ℕ} (hk : k ≠ 0) (x : ℕ → Fin L → ℝ) :
    (k : ℝ) * regObjective Q w (List.ofFn fun i => (∑ j ∈ Finset.range k, x j i) / k) ≤
      ∑ j ∈ Finset.range k, regObjective Q w (List.ofFn (x j)) := by
  have h2 : (0 : ℝ) < k := by exact_mod_cast Nat.pos_of_ne_zero hk
  simp only [regObjective_eq]
  have key : ∀ T : List (ℝ × ((Fin L → ℝ) → ℝ)), (∀ t ∈ T, IsAffineFn t.2) → (∀ t ∈ T, 0 ≤ t.1) →
      (k : ℝ) * (T.map fun t => t.1 * t.2 (fun i => (∑ j ∈ Finset.range k, x j i) / k) ^ 2).sum ≤
        ∑ j ∈ Finset.range k, (T.map fun t => t.1 * t.2 (x j) ^ 2).sum := by
    intro T
    induction T with
    | nil => simp
    | cons t T ih =>
      intro h1 h3
      have := ih (fun t ht => h1 t (List.mem_cons_of_mem _ ht)) fun t ht => h3 t (List.mem_cons_of_mem _ ht)
      simp only [List.map_cons, List.sum_cons, Finset.sum_add_distrib, mul_add]
      refine add_le_add ?_ this
      obtain ⟨T', hT'⟩ := (h1 t (by simp)).linear
      have hm : t.2 (fun i => (∑ j ∈ Finset.range k, x j i) / k) = (∑ j ∈ Finset.range k, t.2 (x j)) / k := by
        have e : (fun i => (∑ j ∈ Finset.range k, x j i) / k) = (k : ℝ)⁻¹ • ∑ j ∈ Finset.range k, x j := by
          funext i
          simp [div_eq_inv_mul]
        rw [e, hT', map_smul, map_sum]
        simp only [hT' (x _), Finset.sum_add_distrib, Finset.sum_const, Finset.card_range, smul_eq_mul, nsmul_eq_mul]
        field_simp
      have hsq : (∑ j ∈ Finset.range k, t.2 (x j)) ^ 2 ≤ k * ∑ j ∈ Finset.range k, t.2 (x j) ^ 2 := by
        have := sq_sum_le_card_mul_sum_sq (s := Finset.range k) (f := fun j => t.2 (x j))
        rwa [Finset.card_range] at this
      rw [hm, ← Finset.mul_sum]
      have h0 := h3 t (by simp)
      calc (k : ℝ) * (t.1 * ((∑ j ∈ Finset.range k, t.2 (x j)) / k) ^ 2)
          = t.1 * ((∑ j ∈ Finset.range k, t.2 (x j)) ^ 2 / k) := by field_simp
        _ ≤ t.1 * ∑ j ∈ Finset.range k, t.2 (x j) ^ 2 := by
            refine mul_le_mul_of_nonneg_left ?_ h0
            rw [div_le_iff₀ h2, mul_comm _ (k : ℝ)]
            exact hsq
  exact key _ (regTerms_affine Q w L) (regTerms_nonneg Q w L hw hp he)

/-! ## Potentials in the general basis -/

/-- The same problem with a potential without symmetry. -/
def unsymmetrised (Q : FieldProblem) : FieldProblem := { Q with cp := { Q.cp with stellsym := false } }

theorem Phi_embed (Q : FieldProblem) (c : List ℝ) (hc : c.length = Q.cp.rows.length) :
    ∃ e : List ℝ, e.length = (unsymmetrised Q).cp.rows.length ∧ ∀ p x, (unsymmetrised Q).cp.Phi e p x = Q.cp.Phi c p x := by
  cases hs : Q.cp.stellsym with
  | false =>
    have : unsymmetrised Q = Q := by
      rcases Q with ⟨cp⟩
      rcases cp with ⟨⟩
      simp only at hs
      subst hs
      rfl
    exact ⟨c, by rw [this, hc], fun p x => by rw [this]⟩
  | true =>
    have h1 : Q.cp.rows = (modePairs (makeMn Q.cp.mpol Q.cp.ntor true)).map fun t => (t.1, t.2, 1) := rows_stellsym Q.cp hs
    have h2 := rows_general (unsymmetrised Q).cp rfl
    have hn : c.length = (modePairs (makeMn Q.cp.mpol Q.cp.ntor true)).length := by rw [hc, h1, List.length_map]
    refine ⟨c ++ List.replicate (c.length + 1) 0, ?_, fun p x => ?_⟩
    · rw [h2]
      simp [unsymmetrised, hn]
    · rw [Phi, Phi, trig, trig, h1, h2, List.map_append, app_append _ _ _ _ (by simp [unsymmetrised, hn]), app_replicate_zero, add_zero]
      rfl

theorem K_of_Phi {P P' : CpParams} (hsurf : P'.surf = P.surf) (hd : P'.wdofs = P.wdofs) (hG : P'.G = P.G) (hI : P'.I = P.I)
    {c c' : List ℝ} (h : ∀ p x, P'.Phi c' p x = P.Phi c p x) (p x : ℝ) : P.K c p x = P'.K c' p x := by
  have f1 : (fun p => P'.Phi c' p x) = fun p => P.Phi c p x := funext fun p => h p x
  have f2 : P'.Phi c' p = P.Phi c p := funext fun x => h p x
  have e1 := P'.Phi_phi c' p x
  have e2 := P'.Phi_theta c' p x
  rw [f1] at e1
  rw [f2] at e2
  rw [K_eq, K_eq, e1.unique (P.Phi_phi c p x), e2.unique (P.Phi_theta c p x), hG, hI]
  simp only [invN, N, dg1, dg2, hsurf, hd]

theorem regObjective_unsymmetrised (Q : FieldProblem) (w : ℝ) {c e : List ℝ} (h : ∀ p x, (unsymmetrised Q).cp.Phi e p x = Q.cp.Phi c p x) :
    regObjective (unsymmetrised Q) w e = regObjective Q w c := by
  have hK : ∀ p x, Q.cp.K c p x = (unsymmetrised Q).cp.K e p x :=
    K_of_Phi (P := Q.cp) (P' := (unsymmetrised Q).cp) rfl rfl rfl rfl h
  obtain ⟨h1, h2⟩ := objectives_of_K Q (unsymmetrised Q) rfl rfl rfl rfl rfl rfl rfl rfl c e hK
  rw [regObjective, regObjective, h1, h2]

theorem Phi_mean (P : CpParams) {k : ℕ} (x : ℕ → Fin P.rows.length → ℝ) (p t : ℝ) :
    P.Phi (List.ofFn fun i => (∑ j ∈ Finset.range k, x j i) / k) p t = (∑ j ∈ Finset.range k, P.Phi (List.ofFn (x j)) p t) / k := by
  simp only [Phi, trig, app_map_ofFn _ rfl]
  rw [Finset.sum_comm, Finset.sum_div]
  refine Finset.sum_congr rfl fun i _ => ?_
  rw [← Finset.mul_sum, mul_div_assoc]

/-! ## The solutions -/

theorem axisymmetricPart_length (P : CpParams) (c : List ℝ) (hc : c.length = P.rows.length) : (axisymmetricPart P c).length = P.rows.length := by
  simp [axisymmetricPart, hc]

/-- **C182 (toroidal modes buy nothing).** In an axisymmetric problem, leaving out all modes that depend on the toroidal angle does not
increase `f_B + w f_K`. -/
theorem C182_no_gain (Q : FieldProblem) {k : ℕ} (h : IsAxisymmetricData Q k) (hk : Q.cp.ntor < k) (w : ℝ) (hw : 0 ≤ w)
    (hp : 0 ≤ gridStep Q.plasma.phis * gridStep Q.plasma.thetas) (he : 0 ≤ gridStep Q.ePhis * gridStep Q.eThetas) (c : List ℝ)
    (hc : c.length = (cpNdofs Q.cp.stellsym Q.cp.mpol Q.cp.ntor).1) :
    regObjective Q w (axisymmetricPart Q.cp c) ≤ regObjective Q w c := by
  rw [← rows_length] at hc
  have hk0 : k ≠ 0 := by omega
  have h2 : (0 : ℝ) < k := by exact_mod_cast Nat.pos_of_ne_zero hk0
  obtain ⟨e, hel, he1⟩ := Phi_embed Q c hc
  have hU : IsAxisymmetricData (unsymmetrised Q) k := ⟨h.nfp, h.winding, h.plasma, h.same_nfp, h.winding_grid, h.eval_grid, h.plasma_grid,
    h.plasma_field⟩
  have hex : ∀ j : ℕ, ∃ x : Fin (unsymmetrised Q).cp.rows.length → ℝ, ∀ p y,
      (unsymmetrised Q).cp.Phi (List.ofFn x) (p + j / (Q.cp.surf.nfp * k)) y = (unsymmetrised Q).cp.Phi e p y := by
    intro j
    obtain ⟨e', hl, h'⟩ := moved_potential_exists (unsymmetrised Q).cp (s := j / (Q.cp.surf.nfp * k)) (t := 0)
      (fun hf => absurd hf (by simp [unsymmetrised])) e hel
    obtain ⟨x, rfl⟩ := eq_ofFn e' (hl.trans hel)
    exact ⟨x, fun p y => by rw [← h' p y, add_zero]⟩
  choose x hx using hex
  have hmean := regObjective_mean (unsymmetrised Q) w hw hp he hk0 x
  have hsame : ∀ j, regObjective (unsymmetrised Q) w (List.ofFn (x j)) = regObjective Q w c := by
    intro j
    obtain ⟨e1, e2⟩ := objectives_turn hU hk0 j e _ (hx j)
    rw [regObjective, e1, e2]
    exact regObjective_unsymmetrised Q w he1
  have hpart : regObjective (unsymmetrised Q) w (List.ofFn fun i => (∑ j ∈ Finset.range k, x j i) / k) =
      regObjective Q w (axisymmetricPart Q.cp c) := by
    refine regObjective_unsymmetrised Q w fun p y => ?_
    rw [Phi_mean, div_eq_iff h2.ne', mul_comm, ← mean_of_turned Q.cp h.nfp hk c p y]
    refine Finset.sum_congr rfl fun j _ => ?_
    have := hx j (p - j / (Q.cp.surf.nfp * k)) y
    rw [sub_add_cancel] at this
    rw [this, he1]
  rw [hpart] at hmean
  simp only [hsame, Finset.sum_const, Finset.card_range, nsmul_eq_mul] at hmean
  exact le_of_mul_le_mul_left hmean h2

/-- **C182 (an axisymmetric solution).** So an axisymmetric problem has a solution in which the coefficients of all modes that depend on the
toroidal angle are 0. -/
theorem C182_some_solution (Q : FieldProblem) {k : ℕ} (h : IsAxisymmetricData Q k) (hk : Q.cp.ntor < k) (w : ℝ) (hw : 0 ≤ w)
    (hp : 0 ≤ gridStep Q.plasma.phis * gridStep Q.plasma.thetas) (he : 0 ≤ gridStep Q.ePhis * gridStep Q.eThetas) :
    ∃ c, IsBest (regObjective Q w) (cpNdofs Q.cp.stellsym Q.cp.mpol Q.cp.ntor).1 c ∧
      ∀ (i : ℕ) (hi : i < Q.cp.rows.length), Q.cp.rows[i].2.1 ≠ 0 → c[i]? = some 0 := by
  obtain ⟨c, hc⟩ := C113_minimiser_exists Q w hw (cpNdofs Q.cp.stellsym Q.cp.mpol Q.cp.ntor).1 hp he
  refine ⟨axisymmetricPart Q.cp c, ⟨?_, fun d hd => (C182_no_gain Q h hk w hw hp he c hc.1).trans (hc.2 d hd)⟩, fun i hi h0 => ?_⟩
  · rw [← rows_length]
    exact axisymmetricPart_length _ _ (by rw [hc.1, rows_length])
  · have hl : i < c.length := by rw [hc.1, ← rows_length]; exact hi
    rw [axisymmetricPart, List.getElem?_eq_getElem (by simp; omega)]
    simp [h0]

/-- **C182.** With a positive weight and a resolving evaluation grid, in every solution of an axisymmetric problem the coefficients of all modes
that depend on the toroidal angle are 0: the potential does not depend on the toroidal angle, and the current turns with it. -/
theorem C182_all_solutions (Q : FieldProblem) {k : ℕ} (h : IsAxisymmetricData Q k) (hk : Q.cp.ntor < k) (w : ℝ) (hw : 0 < w)
    {A B : ℕ} (hA2 : 2 ≤ A) (hB2 : 2 ≤ B) (hA : 2 * Q.cp.ntor < A) (hB : 2 * Q.cp.mpol < B)
    (heP : Q.ePhis = linspace0 (1 / Q.cp.surf.nfp) A) (heT : Q.eThetas = linspace0 1 B)
    (hp : 0 ≤ gridStep Q.plasma.phis * gridStep Q.plasma.thetas)
    (hN : ∀ q ∈ periodGrid Q.cp A B, Q.cp.N q.1 q.2 ≠ 0) (c : List ℝ)
    (hc : IsBest (regObjective Q w) (cpNdofs Q.cp.stellsym Q.cp.mpol Q.cp.ntor).1 c) :
    (∀ (i : ℕ) (hi : i < Q.cp.rows.length), Q.cp.rows[i].2.1 ≠ 0 → c[i]? = some 0) ∧
      (∀ phi theta, Q.cp.Phi c phi theta = Q.cp.Phi c 0 theta) ∧
      ∀ phi theta, Q.cp.K c phi theta = rotZ (2 * π * phi) (Q.cp.K c 0 theta) := by
  have he : 0 < gridStep Q.ePhis * gridStep Q.eThetas := by
    rw [heP, heT, gridStep_linspace0 _ _ hA2, gridStep_linspace0 _ _ hB2]
    have : 0 < Q.cp.surf.nfp := Nat.pos_of_ne_zero h.nfp
    positivity
  have hcl : c.length = Q.cp.rows.length := by rw [hc.1, rows_length]
  have hbest : IsBest (regObjective Q w) (cpNdofs Q.cp.stellsym Q.cp.mpol Q.cp.ntor).1 (axisymmetricPart Q.cp c) := by
    refine ⟨?_, fun d hd => (C182_no_gain Q h hk w hw.le hp he.le c hc.1).trans (hc.2 d hd)⟩
    rw [← rows_length]
    exact axisymmetricPart_length _ _ hcl
  have hK : ∀ q ∈ periodGrid Q.cp A B, Q.cp.K c q.1 q.2 = Q.cp.K (axisymmetricPart Q.cp c) q.1 q.2 := by
    intro q hq
    refine C113_minimiser_current Q w hw _ h.nfp hp he c _ hc hbest q ?_ (hN q hq)
    rw [heP, heT]
    exact hq
  have hagree := (C113_current_determines_potential Q.cp h.nfp hA hB hN c _ hc.1 hbest.1).2.1 hK
  have hzero : ∀ (i : ℕ) (hi : i < Q.cp.rows.length), Q.cp.rows[i].2.1 ≠ 0 → c[i]? = some 0 := by
    intro i hi h0
    rw [hagree i (fun hci => h0 (by rw [(rows_constant Q.cp i hi).2 hci])), axisymmetricPart, List.getElem?_eq_getElem (by simp; omega)]
    simp [h0]
  have hpart : axisymmetricPart Q.cp c = c := by
    refine List.ext_getElem (by rw [axisymmetricPart_length _ _ hcl, hcl]) fun i h1 h2 => ?_
    simp only [axisymmetricPart, List.getElem_zipWith]
    split_ifs with h0
    · rfl
    · have := hzero i (by omega) h0
      rw [List.getElem?_eq_getElem h2, Option.some.injEq] at this
      exact this.symm
  have hPhi : ∀ phi theta, Q.cp.Phi c phi theta = Q.cp.Phi c 0 theta := by
    intro p t
    have key : ∀ (R : List (ℤ × ℤ × ℤ)) (d : List ℝ),
        app (R.map fun r => sinOrCos (Q.cp.angle p t r) r.2.2) (List.zipWith (fun r y => if r.2.1 = 0 then y else 0) R d) =
          app (R.map fun r => sinOrCos (Q.cp.angle 0 t r) r.2.2) (List.zipWith (fun r y => if r.2.1 = 0 then y else 0) R d) := by
      intro R
      induction R with
      | nil => simp [app]
      | cons r R ih =>
        intro d
        cases d with
        | nil => simp [app]
        | cons y d =>
          have hc : ∀ (u v : ℝ) (a b : List ℝ), app (u :: a) (v :: b) = u * v + app a b := fun u v a b => by simp [app]
          simp only [List.map_cons, List.zipWith_cons_cons, hc, ih]
          congr 1
          split_ifs with h0
          · simp [angle, h0]
          · simp
    have := key Q.cp.rows c
    rw [← hpart]
    exact this
  refine ⟨hzero, hPhi, fun p t => ?_⟩
  have m : MovedSurface p 0 ⟨Q.cp.surf, Q.cp.wdofs, [], []⟩ ⟨Q.cp.surf, Q.cp.wdofs, [], []⟩ :=
    ⟨fun p' x => by rw [add_zero]; exact h.winding.turn p' _ x, rfl, rfl⟩
  have hm : MovedCp p 0 Q.cp Q.cp := ⟨m.dash, rfl, rfl⟩
  have := hm.K (movedOps (c := c) (c' := c) fun p' x => by rw [add_zero, hPhi, hPhi p']) 0 t
  rwa [zero_add, add_zero] at this

/-- **C182 (default grids).** The default grids have 32 common steps per field period, and no plasma field (the default) is one that does not
depend on the toroidal angle. So the theorems above hold for every vacuum problem on axisymmetric surfaces with the default grids and
`ntor < 32`. -/
theorem C182_default_grids (Q : FieldProblem) (hn : Q.cp.surf.nfp ≠ 0) (h : Axisymmetric Q.cp.surf Q.cp.wdofs)
    (hp : Axisymmetric Q.plasma.shape Q.plasma.dofs) (hs : Q.plasma.shape.nfp = Q.cp.surf.nfp)
    (hw : Q.wPhis = defaultWindingPhi Q.cp.surf.nfp) (he : Q.ePhis = defaultEvalPhi Q.cp.surf.nfp (defaultWindingPhi Q.cp.surf.nfp))
    (hq : Q.plasma.phis = defaultPlasmaPhi Q.cp.surf.nfp)
    (hb : Q.bPlasma = List.replicate (gridPoints Q.plasma.phis Q.plasma.thetas).length 0) : IsAxisymmetricData Q 32 where
  nfp := hn
  winding := h
  plasma := hp
  same_nfp := hs
  winding_grid := ⟨1, one_ne_zero, by rw [hw, defaultWindingPhi, mul_one, mul_comm]⟩
  eval_grid := ⟨1, one_ne_zero, by rw [he, mul_one]; exact (C46_default_grid _ hn).1⟩
  plasma_grid := ⟨1, one_ne_zero, by rw [hq, defaultPlasmaPhi]⟩
  plasma_field := ⟨fun _ => 0, by rw [hb, List.map_const']⟩

/-- The circular torus with toroidal modes in the potential and a plasma field that depends on the poloidal angle. -/
noncomputable def bandTorus : FieldProblem where
  cp := { circularTorus with ntor := 1 }
  wPhis := linspace0 1 6
  wThetas := linspace0 1 3
  ePhis := linspace0 1 3
  eThetas := linspace0 1 3
  plasma := ⟨circularTorus.surf, [2, 1 / 2, 1 / 2], linspace0 1 3, linspace0 1 3⟩
  bPlasma := (gridPoints (linspace0 1 3) (linspace0 1 3)).map fun q => Real.sin (2 * π * q.2)

theorem bandTorus_axisymmetric : IsAxisymmetricData bandTorus 3 where
  nfp := one_ne_zero
  winding := torus_axisymmetric 2 1
  plasma := torus_axisymmetric 2 (1 / 2)
  same_nfp := rfl
  winding_grid := ⟨2, by norm_num, rfl⟩
  eval_grid := ⟨1, by norm_num, by simp [bandTorus, circularTorus]⟩
  plasma_grid := ⟨1, by norm_num, by simp [bandTorus, circularTorus]⟩
  plasma_field := ⟨fun t => Real.sin (2 * π * t), rfl⟩

theorem bandTorus_steps : 0 ≤ gridStep bandTorus.plasma.phis * gridStep bandTorus.plasma.thetas ∧
    0 ≤ gridStep bandTorus.ePhis * gridStep bandTorus.eThetas := by
  simp only [bandTorus, gridStep_linspace0 _ _ (by norm_num : 2 ≤ 3)]
  norm_num

/-- It has the four modes `(0, 1)`, `(1, -1)`, `(1, 0)` and `(1, 1)`; only the third is used. -/
example : bandTorus.cp.rows = [(0, 1, 1), (1, -1, 1), (1, 0, 1), (1, 1, 1)] := by decide

example (a b c d : ℝ) : regObjective bandTorus 0 [0, 0, c, 0] ≤ regObjective bandTorus 0 [a, b, c, d] :=
  C182_no_gain bandTorus bandTorus_axisymmetric (by decide) 0 le_rfl bandTorus_steps.1 bandTorus_steps.2 [a, b, c, d] rfl

example := C182_some_solution bandTorus bandTorus_axisymmetric (by decide) 0 le_rfl bandTorus_steps.1 bandTorus_steps.2

example (c : List ℝ) (hc : IsBest (regObjective bandTorus 1) 4 c) : c[0]? = some 0 ∧ c[1]? = some 0 ∧ c[3]? = some 0 := by
  have := (C182_all_solutions bandTorus bandTorus_axisymmetric (by decide) 1 one_pos (A := 3) (B := 3) (by norm_num) (by norm_num) (by decide)
    (by decide) (by simp [bandTorus, circularTorus]) rfl bandTorus_steps.1 (fun q _ => torus_normal 2 1 q.1 q.2 one_pos one_lt_two) c hc).1
  exact ⟨this 0 (by decide) (by decide), this 1 (by decide) (by decide), this 3 (by decide) (by decide)⟩

example : IsAxisymmetricData { bandTorus with
    wPhis := defaultWindingPhi 1
    ePhis := defaultEvalPhi 1 (defaultWindingPhi 1)
    plasma := ⟨circularTorus.surf, [2, 1 / 2, 1 / 2], defaultPlasmaPhi 1, linspace0 1 3⟩
    bPlasma := List.replicate (gridPoints (defaultPlasmaPhi 1) (linspace0 1 3)).length 0 } 32 :=
  C182_default_grids _ one_ne_zero (torus_axisymmetric 2 1) (torus_axisymmetric 2 (1 / 2)) rfl rfl rfl rfl rfl

end Verif
