import Verif.Props.AxisymmetricSolution
import Verif.Props.Periods
import Verif.Props.UpToConstant

/-!
# C182: axisymmetric solutions of problems with constraints
-/

namespace Verif

open Real CpParams

/-! ## The grids in `k` equal parts -/

theorem linspace0_copies (s : ℝ) (k a : ℕ) (hk : k ≠ 0) : linspace0 s (k * a) = shiftedCopies k (s / k) (linspace0 (s / k) a) := by
  have hk' : (k : ℝ) ≠ 0 := by exact_mod_cast hk
  have key : ∀ m : ℕ, (List.range (m * a)).map (fun j : ℕ => (j : ℝ) * (s / ((k * a : ℕ) : ℝ))) =
      (List.range m).flatMap fun i : ℕ => ((List.range a).map fun j : ℕ => (j : ℝ) * (s / k / a)).map fun p => p + (i : ℝ) * (s / k) := by
    intro m
    induction m with
    | zero => simp
    | succ m ih =>
      rw [add_mul, one_mul, List.range_add, List.map_append, ih, List.range_succ, List.flatMap_append, List.flatMap_singleton, List.map_map,
        List.map_map]
      congr 1
      refine List.map_congr_left fun j hj => ?_
      have ha : (a : ℝ) ≠ 0 := by
        have := List.mem_range.1 hj
        exact_mod_cast (by omega : a ≠ 0)
      simp only [Function.comp_apply]
      push_cast
      field_simp
      ring
  exact key k

theorem IsAxisymmetricData.tiled {Q : FieldProblem} {k : ℕ} (h : IsAxisymmetricData Q k) (hk : k ≠ 0) {c r : List ℝ}
    (hr : ∀ p x, Q.cp.Phi r (p + 1 / (Q.cp.surf.nfp * k)) x = Q.cp.Phi c p x) : TiledProblem 1 Q Q c r := by
  have hn' : (Q.cp.surf.nfp : ℝ) ≠ 0 := by exact_mod_cast h.nfp
  have hk' : (k : ℝ) ≠ 0 := by exact_mod_cast hk
  have t1 : Turned (1 / (Q.cp.surf.nfp * k)) Q Q c r := by
    have := turned_of_axisymmetric h hk 1 c r (by simpa using hr)
    simpa using this
  have tN : Turned (k / (Q.cp.surf.nfp * k)) Q Q r r := by
    refine turned_of_axisymmetric h hk k r r fun p x => ?_
    have e : (k : ℝ) / (Q.cp.surf.nfp * k) = (1 : ℕ) / Q.cp.surf.nfp := by
      push_cast
      field_simp
    rw [e, SameDevice.Phi_period Q.cp h.nfp]
  obtain ⟨n, hn⟩ := Nat.exists_eq_succ_of_ne_zero hk
  have hs : (1 / Q.cp.surf.nfp : ℝ) / k = 1 / (Q.cp.surf.nfp * k) := by field_simp
  have hstep : ∀ (p : ℝ) (i : ℕ), p + ((i + 1 : ℕ) : ℝ) * (1 / (Q.cp.surf.nfp * k)) =
      p + (i : ℝ) * (1 / (Q.cp.surf.nfp * k)) + 1 / (Q.cp.surf.nfp * k) := by
    intro p i
    push_cast
    ring
  have hlast : ∀ p : ℝ, p + (n : ℝ) * (1 / (Q.cp.surf.nfp * k)) + 1 / (Q.cp.surf.nfp * k) = p + k / (Q.cp.surf.nfp * k) := by
    intro p
    have : (k : ℝ) = n + 1 := by rw [hn]; push_cast; ring
    rw [add_assoc, ← add_one_mul, ← this, mul_one_div]
  refine ⟨one_ne_zero, by rw [one_mul], rfl, ?_, rfl, ?_, rfl⟩
  · obtain ⟨a, -, ha⟩ := h.eval_grid
    have e : Q.evalGrid = (List.range (n + 1)).flatMap fun i : ℕ => (gridPoints (linspace0 (1 / (Q.cp.surf.nfp * k)) a) Q.eThetas).map
        fun q => (q.1 + (i : ℝ) * (1 / (Q.cp.surf.nfp * k)), q.2) := by
      rw [FieldProblem.evalGrid, ha, linspace0_copies _ _ _ hk, gridPoints_copies, hs, hn]
    rw [e]
    refine tiles_cyclic n _ (fun (i : ℕ) (q : ℝ × ℝ) => (q.1 + (i : ℝ) * (1 / (Q.cp.surf.nfp * k)), q.2)) (fun i _ q _ => ?_) fun q _ => ?_
    · simp only [hstep]
      exact t1.samePoint _ _
    · have a := t1.samePoint (q.1 + (n : ℝ) * (1 / (Q.cp.surf.nfp * k))) q.2
      rw [hlast] at a
      simpa using a.trans (tN.samePoint q.1 q.2).symm
  · obtain ⟨a, -, ha⟩ := h.plasma_grid
    obtain ⟨b, hb⟩ := h.plasma_field
    have e : Q.plasmaGrid.zip Q.bPlasma = (List.range (n + 1)).flatMap fun i : ℕ =>
        ((gridPoints (linspace0 (1 / (Q.cp.surf.nfp * k)) a) Q.plasma.thetas).map fun q => (q, b q.2)).map
          fun x => ((x.1.1 + (i : ℝ) * (1 / (Q.cp.surf.nfp * k)), x.1.2), x.2) := by
      have z : ∀ (l : List (ℝ × ℝ)) (f : ℝ × ℝ → ℝ), l.zip (l.map f) = l.map fun q => (q, f q) := by
        intro l f
        induction l with
        | nil => rfl
        | cons q l ih => simp [ih]
      rw [hb, FieldProblem.plasmaGrid, z, ha, linspace0_copies _ _ _ hk, gridPoints_copies, hs, List.map_flatMap, ← Nat.succ_eq_add_one, ← hn]
      simp only [List.map_map, Function.comp_def]
    rw [e]
    refine tiles_cyclic n _ (fun (i : ℕ) (x : (ℝ × ℝ) × ℝ) => ((x.1.1 + (i : ℝ) * (1 / (Q.cp.surf.nfp * k)), x.1.2), x.2)) (fun i _ q _ => ?_)
      fun q _ => ?_
    · simp only [hstep]
      exact t1.samePlasmaPoint _ _ _
    · have a := t1.samePlasmaPoint (q.1.1 + (n : ℝ) * (1 / (Q.cp.surf.nfp * k))) q.1.2 q.2
      rw [hlast] at a
      simpa using a.trans (tN.samePlasmaPoint q.1.1 q.1.2 q.2).symm

/-- The same potential with another table of modes. -/
theorem modes_tiled {Q : FieldProblem} (hn : Q.cp.surf.nfp ≠ 0) {l : ℕ} (hw : Q.wPhis = linspace0 1 l) (m n : ℕ) (s : Bool) {c e : List ℝ}
    (he : ∀ p x, (withModes Q m n s).cp.Phi e p x = Q.cp.Phi c p x) : TiledProblem 1 Q (withModes Q m n s) c e := by
  have z : ∀ v : V3, rotZ (2 * π * 0) v = v := fun v => by ext <;> simp [rotZ]
  have t : Turned 0 Q (withModes Q m n s) c e :=
    ⟨⟨fun a b p x => by rw [z, add_zero, add_zero]; rfl, rfl, rfl⟩, fun p x => by rw [add_zero, he], fun p x => by rw [z, add_zero]; rfl,
      hn, ⟨_, 0, hw, by simp⟩, rfl, rfl⟩
  have tile : ∀ {α : Type} (R : α → α → Prop) (l : List α), (∀ a, R a a) → Tiles 1 R l l := by
    intro α R l hR
    refine ⟨l.map fun a => (a, a), by simp [Function.comp_def], by simp [Function.comp_def], fun p hp => ?_⟩
    obtain ⟨a, -, rfl⟩ := List.mem_map.1 hp
    exact hR a
  refine ⟨one_ne_zero, by rw [one_mul]; rfl, rfl, tile _ _ fun q => ?_, rfl, tile _ _ fun q => ?_, rfl⟩
  · simpa using t.samePoint q.1 q.2
  · simpa using t.samePlasmaPoint q.1.1 q.1.2 q.2

/-- The same potential in the general basis. -/
theorem unsymmetrised_tiled {Q : FieldProblem} (hn : Q.cp.surf.nfp ≠ 0) {n : ℕ} (hw : Q.wPhis = linspace0 1 n) {c e : List ℝ}
    (he : ∀ p x, (unsymmetrised Q).cp.Phi e p x = Q.cp.Phi c p x) : TiledProblem 1 Q (unsymmetrised Q) c e :=
  modes_tiled hn hw Q.cp.mpol Q.cp.ntor false he

theorem IsAxisymmetricData.unsymmetrised_tiled {Q : FieldProblem} {k : ℕ} (h : IsAxisymmetricData Q k) {c e : List ℝ}
    (he : ∀ p x, (unsymmetrised Q).cp.Phi e p x = Q.cp.Phi c p x) : TiledProblem 1 Q (unsymmetrised Q) c e := by
  obtain ⟨a, -, hw⟩ := h.winding_grid
  exact Verif.unsymmetrised_tiled h.nfp hw he

section
variable {others : List String} {objs : List (String × UnitArg × ℝ)} {rs : List Request} {sm : Option String}

/-- Averages of turned potentials: they are admissible if the potential is, and not worse. -/
theorem axisymmetric_averages {Q : FieldProblem} {k : ℕ} (h : IsAxisymmetricData Q k) (hk : k ≠ 0) (hs : Q.cp.stellsym = false)
    (hobj : ConvexObjectives objs)
    (hrs : ∀ r ∈ rs, r.name ∈ affineNames ++ convexNames ∧ LegalUse (shippedRegistry FieldProblem.fns others) sm r.name r.unit r.type)
    (hor : ∀ r ∈ rs, r.name ∉ orientedNames)
    (hp : 0 ≤ gridStep Q.plasma.phis * gridStep Q.plasma.thetas) (he : 0 ≤ gridStep Q.ePhis * gridStep Q.eThetas)
    {c : List ℝ} (hc : c.length = Q.cp.rows.length) (hf : ListFeasible others rs Q c) (n : ℕ) :
    ∃ a r : List ℝ, a.length = Q.cp.rows.length ∧ r.length = Q.cp.rows.length ∧
      (ListFeasible others rs Q a ∧ ListFeasible others rs Q r) ∧
      (listObjective others objs Q a ≤ listObjective others objs Q c ∧ listObjective others objs Q r = listObjective others objs Q c) ∧
      (∀ p x, Q.cp.Phi a p x = (∑ i ∈ Finset.range (n + 1), Q.cp.Phi c (p - (i : ℝ) * (1 / (Q.cp.surf.nfp * k))) x) / (n + 1)) ∧
      ∀ p x, Q.cp.Phi r p x = Q.cp.Phi c (p - ((n + 1 : ℕ) : ℝ) * (1 / (Q.cp.surf.nfp * k))) x := by
  have zero : TiledProblem 1 Q Q (zeroPotential Q) (zeroPotential Q) := h.tiled hk fun p x => by
    rw [CpParams.Phi, CpParams.Phi, zeroPotential, app_zero_list, app_zero_list]
  have turn : ∀ b : List ℝ, b.length = Q.cp.rows.length → ListFeasible others rs Q b → ∃ r : List ℝ, r.length = Q.cp.rows.length ∧
      ListFeasible others rs Q r ∧ listObjective others objs Q r = listObjective others objs Q b ∧
      ∀ p x, Q.cp.Phi r p x = Q.cp.Phi b (p - 1 / (Q.cp.surf.nfp * k)) x := by
    intro b hb hfb
    obtain ⟨r, l, hr⟩ := moved_potential_exists Q.cp (s := 1 / (Q.cp.surf.nfp * k)) (t := 0) (fun e => by simp [hs] at e) b hb
    have t := (h.tiled hk (c := b) (r := r) fun p x => by simpa using hr p x).lists (others := others) (objs := objs) (rs := rs) zero
      (objective_numbers hobj) (fun r hr => convex_tiled _ (hrs r hr).1 (hor r hr)) fun _ _ _ => rfl
    refine ⟨r, l.trans hb, t.2.2 hfb, t.1, fun p x => ?_⟩
    simpa using hr (p - 1 / (Q.cp.surf.nfp * k)) x
  induction n with
  | zero =>
    obtain ⟨r, l, hfr, hor, hr⟩ := turn c hc hf
    exact ⟨c, r, hc, l, ⟨hf, hfr⟩, ⟨le_rfl, hor⟩, fun p x => by simp, fun p x => by rw [hr]; simp⟩
  | succ n ih =>
    obtain ⟨a, r, la, lr, ⟨hfa, hfr⟩, ⟨hoa, hor'⟩, ha, hr⟩ := ih
    obtain ⟨r', l', hfr', hor2, hr'⟩ := turn r lr hfr
    have hn : (0 : ℝ) < (n : ℝ) + 1 + 1 := by positivity
    have hw0 : (0 : ℝ) ≤ ((n : ℝ) + 1) / (n + 1 + 1) := by positivity
    have hw1 : ((n : ℝ) + 1) / (n + 1 + 1) ≤ 1 := by
      rw [div_le_one hn]
      linarith
    refine ⟨comb (((n : ℝ) + 1) / (n + 1 + 1)) (1 - ((n : ℝ) + 1) / (n + 1 + 1)) a r, r', by simp [comb, la, lr], l', ⟨?_, hfr'⟩,
      ⟨?_, by rw [hor2, hor']⟩, fun p x => ?_, fun p x => ?_⟩
    · obtain ⟨x, rfl⟩ := eq_ofFn a la
      obtain ⟨y, rfl⟩ := eq_ofFn r lr
      rw [← ofFn_comb]
      exact (feasibleSet_convex Q others hp he _ hrs).1 x hfa y hfr _ hw0 hw1
    · obtain ⟨x, rfl⟩ := eq_ofFn a la
      obtain ⟨y, rfl⟩ := eq_ofFn r lr
      rw [← ofFn_comb]
      have hcx := (objective_convex Q others hp he Q.cp.rows.length hobj).1 x y _ hw0 hw1
      have e1 := mul_le_mul_of_nonneg_left hoa hw0
      have e2 : (1 - ((n : ℝ) + 1) / (n + 1 + 1)) * listObjective others objs Q (List.ofFn y) =
        (1 - ((n : ℝ) + 1) / (n + 1 + 1)) * listObjective others objs Q c := by rw [hor']
      simp only [listObjective] at e1 e2 ⊢
      linarith
    · rw [Phi_comb _ (la.trans lr.symm), ha, hr, Finset.sum_range_succ _ (n + 1)]
      have alg : ∀ S T : ℝ, ((n : ℝ) + 1) / (n + 1 + 1) * (S / (n + 1)) + (1 - ((n : ℝ) + 1) / (n + 1 + 1)) * T = (S + T) / (n + 1 + 1) := by
        intro S T
        field_simp
        ring
      rw [alg]
      push_cast
      rfl
    · rw [hr', hr]
      congr 1
      push_cast
      ring

/-- The values of `K_theta` at the axisymmetric part are means of values at the potential. -/
theorem KTheta_axisymmetric {Q : FieldProblem} {k : ℕ} (h : IsAxisymmetricData Q k) (hk : Q.cp.ntor < k) (c : List ℝ) {q : ℝ × ℝ}
    (hq : q ∈ Q.evalGrid) : ∃ l : ℕ → ℝ × ℝ, (∀ j, l j ∈ Q.evalGrid) ∧
      ∑ j ∈ Finset.range k, okOr0 (Q.cp.KTheta c (l j).1 (l j).2) = k * okOr0 (Q.cp.KTheta (axisymmetricPart Q.cp c) q.1 q.2) := by
  obtain ⟨a, ha, hgrid⟩ := h.eval_grid
  have hk0 : k ≠ 0 := by omega
  have hk' : (k : ℝ) ≠ 0 := by exact_mod_cast hk0
  have ha' : (a : ℝ) ≠ 0 := by exact_mod_cast ha
  have hn' : (Q.cp.surf.nfp : ℝ) ≠ 0 := by exact_mod_cast h.nfp
  rw [FieldProblem.evalGrid, hgrid] at hq ⊢
  obtain ⟨p, hp, hpx⟩ := List.mem_flatMap.1 hq
  obtain ⟨x, hx, rfl⟩ := List.mem_map.1 hpx
  obtain ⟨i, hi, rfl⟩ := List.mem_map.1 hp
  have hka : 0 < ((k * a : ℕ) : ℤ) := by
    have : 0 < k * a := Nat.mul_pos (Nat.pos_of_ne_zero hk0) (Nat.pos_of_ne_zero ha)
    exact_mod_cast this
  refine ⟨fun j => (((((i : ℤ) - j * a) % ((k * a : ℕ) : ℤ)).toNat : ℝ) * (1 / Q.cp.surf.nfp / (k * a : ℕ)), x), fun j => ?_, ?_⟩
  · refine List.mem_flatMap.2 ⟨_, List.mem_map.2 ⟨(((i : ℤ) - j * a) % ((k * a : ℕ) : ℤ)).toNat, ?_, rfl⟩, List.mem_map.2 ⟨x, hx, rfl⟩⟩
    rw [List.mem_range]
    have := Int.emod_lt_of_pos ((i : ℤ) - j * a) hka
    omega
  · have hop : ∀ j : ℕ, app (Q.cp.opPhi (((((i : ℤ) - j * a) % ((k * a : ℕ) : ℤ)).toNat : ℝ) * (1 / Q.cp.surf.nfp / (k * a : ℕ))) x) c =
        app (Q.cp.opPhi ((i : ℝ) * (1 / Q.cp.surf.nfp / (k * a : ℕ)) - j / (Q.cp.surf.nfp * k)) x) c := by
      intro j
      rw [← (Q.cp.rows_field_period h.nfp _ x (((i : ℤ) - j * a) / ((k * a : ℕ) : ℤ))).1]
      have e1 : (((((i : ℤ) - j * a) % ((k * a : ℕ) : ℤ)).toNat : ℤ)) = ((i : ℤ) - j * a) % ((k * a : ℕ) : ℤ) :=
        Int.toNat_of_nonneg (Int.emod_nonneg _ hka.ne')
      have e2 := Int.emod_add_mul_ediv ((i : ℤ) - j * a) ((k * a : ℕ) : ℤ)
      rw [← e1] at e2
      have e3 : ((((((i : ℤ) - j * a) % ((k * a : ℕ) : ℤ)).toNat : ℝ)) + (k * a : ℕ) * ((((i : ℤ) - j * a) / ((k * a : ℕ) : ℤ) : ℤ) : ℝ)) =
          (i : ℝ) - j * a := by exact_mod_cast e2
      have alg : ∀ u v : ℝ, u + (k * a : ℕ) * v = (i : ℝ) - j * a → u * (1 / Q.cp.surf.nfp / (k * a : ℕ)) + v / Q.cp.surf.nfp =
          (i : ℝ) * (1 / Q.cp.surf.nfp / (k * a : ℕ)) - j / (Q.cp.surf.nfp * k) := by
        intro u v huv
        push_cast at huv ⊢
        have : u = i - j * a - k * a * v := by linarith
        rw [this]
        field_simp
        ring
      rw [alg _ _ e3]
    have hsum : ∑ j ∈ Finset.range k, app (Q.cp.opPhi ((i : ℝ) * (1 / Q.cp.surf.nfp / (k * a : ℕ)) - j / (Q.cp.surf.nfp * k)) x) c =
        k * app (Q.cp.opPhi ((i : ℝ) * (1 / Q.cp.surf.nfp / (k * a : ℕ))) x) (axisymmetricPart Q.cp c) := by
      have d1 : HasDerivAt (fun p => ∑ j ∈ Finset.range k, Q.cp.Phi c (p - j / (Q.cp.surf.nfp * k)) x)
          (∑ j ∈ Finset.range k, app (Q.cp.opPhi ((i : ℝ) * (1 / Q.cp.surf.nfp / (k * a : ℕ)) - j / (Q.cp.surf.nfp * k)) x) c)
          ((i : ℝ) * (1 / Q.cp.surf.nfp / (k * a : ℕ))) :=
        HasDerivAt.fun_sum fun j _ => (Q.cp.Phi_phi c _ x).comp_sub_const _ _
      have d2 := (Q.cp.Phi_phi (axisymmetricPart Q.cp c) ((i : ℝ) * (1 / Q.cp.surf.nfp / (k * a : ℕ))) x).const_mul (k : ℝ)
      have e : (fun p => ∑ j ∈ Finset.range k, Q.cp.Phi c (p - j / (Q.cp.surf.nfp * k)) x) =
          fun p => (k : ℝ) * Q.cp.Phi (axisymmetricPart Q.cp c) p x := funext fun p => mean_of_turned Q.cp h.nfp hk c p x
      rw [e] at d1
      exact d1.unique d2
    cases hs : Q.cp.stellsym with
    | false => simp [CpParams.KTheta, hs, okOr0]
    | true =>
      simp only [CpParams.KTheta, hs, if_true, okOr0, hop, Finset.sum_add_distrib, hsum]
      simp
      ring

/-- The statement without `K_theta`, which is not defined without stellarator symmetry. -/
theorem axisymmetric_no_gain {Q : FieldProblem} {k : ℕ} (h : IsAxisymmetricData Q k) (hk : Q.cp.ntor < k) (hobj : ConvexObjectives objs)
    (hrs : ∀ r ∈ rs, r.name ∈ affineNames ++ convexNames ∧ LegalUse (shippedRegistry FieldProblem.fns others) sm r.name r.unit r.type)
    (hor : ∀ r ∈ rs, r.name ∉ orientedNames) (hth : ∀ r ∈ rs, r.name ≠ "K_theta")
    (hp : 0 ≤ gridStep Q.plasma.phis * gridStep Q.plasma.thetas) (he : 0 ≤ gridStep Q.ePhis * gridStep Q.eThetas)
    {c : List ℝ} (hc : c.length = Q.cp.rows.length) (hf : ListFeasible others rs Q c) :
    ListFeasible others rs Q (axisymmetricPart Q.cp c) ∧
      listObjective others objs Q (axisymmetricPart Q.cp c) ≤ listObjective others objs Q c := by
  have hk0 : k ≠ 0 := by omega
  have hk' : (k : ℝ) ≠ 0 := by exact_mod_cast hk0
  have hU : IsAxisymmetricData (unsymmetrised Q) k := ⟨h.nfp, h.winding, h.plasma, h.same_nfp, h.winding_grid, h.eval_grid, h.plasma_grid,
    h.plasma_field⟩
  have hnames := fun r hr => convex_tiled _ (hrs r hr).1 (hor r hr)
  have zero := h.unsymmetrised_tiled (c := zeroPotential Q) (e := zeroPotential (unsymmetrised Q)) fun p x => by
    rw [CpParams.Phi, CpParams.Phi, zeroPotential, zeroPotential, app_zero_list, app_zero_list]
  have lift : ∀ {c e : List ℝ}, (∀ p x, (unsymmetrised Q).cp.Phi e p x = Q.cp.Phi c p x) →
      listObjective others objs (unsymmetrised Q) e = listObjective others objs Q c ∧
        (ListFeasible others rs (unsymmetrised Q) e ↔ ListFeasible others rs Q c) := fun hce =>
    (h.unsymmetrised_tiled hce).lists zero (objective_numbers hobj) hnames fun r hr hk => absurd hk (hth r hr)
  obtain ⟨e, hel, he1⟩ := Phi_embed Q c hc
  obtain ⟨n, hn⟩ := Nat.exists_eq_succ_of_ne_zero hk0
  have l1 := lift he1
  obtain ⟨a, r, la, -, ⟨hfa, -⟩, ⟨hoa, -⟩, ha, -⟩ := axisymmetric_averages (others := others) hU hk0 rfl hobj hrs hor hp he hel (l1.2.2 hf) n
  have l2 := lift (c := axisymmetricPart Q.cp c) (e := a) fun p x => by
    have m := mean_of_turned Q.cp h.nfp hk c p x
    have e2 : ((n : ℝ) + 1) = k := by rw [hn]; push_cast; ring
    rw [ha, e2, div_eq_iff hk', mul_comm (Q.cp.Phi _ p x), ← m, ← Nat.succ_eq_add_one, ← hn]
    refine Finset.sum_congr rfl fun i _ => ?_
    rw [he1, mul_one_div]
    rfl
  exact ⟨l2.2.1 hfa, by rw [← l2.1, ← l1.1]; exact hoa⟩

/-- **C182 (with constraints).** In an axisymmetric problem with convex objectives and any constraints that the program accepts on affine and
convex quantities, other than Cartesian components: if a potential is admissible, so is its axisymmetric part, and it is not worse. -/
theorem C182_user_no_gain {Q : FieldProblem} {k : ℕ} (h : IsAxisymmetricData Q k) (hk : Q.cp.ntor < k) (hobj : ConvexObjectives objs)
    (hrs : ∀ r ∈ rs, r.name ∈ affineNames ++ convexNames ∧ LegalUse (shippedRegistry FieldProblem.fns others) sm r.name r.unit r.type)
    (hor : ∀ r ∈ rs, r.name ∉ orientedNames)
    (hp : 0 ≤ gridStep Q.plasma.phis * gridStep Q.plasma.thetas) (he : 0 ≤ gridStep Q.ePhis * gridStep Q.eThetas)
    {c : List ℝ} (hc : c.length = Q.cp.rows.length) (hf : ListFeasible others rs Q c) :
    ListFeasible others rs Q (axisymmetricPart Q.cp c) ∧
      listObjective others objs Q (axisymmetricPart Q.cp c) ≤ listObjective others objs Q c := by
  have mem : ∀ r ∈ rs.filter (fun r => r.name ≠ "K_theta"), r ∈ rs ∧ r.name ≠ "K_theta" := fun r hr => by simpa using hr
  obtain ⟨h1, h2⟩ := axisymmetric_no_gain (rs := rs.filter (fun r => r.name ≠ "K_theta")) (others := others) h hk hobj
    (fun r hr => hrs r (mem r hr).1) (fun r hr => hor r (mem r hr).1) (fun r hr => (mem r hr).2) hp he hc fun r hr => hf r (mem r hr).1
  refine ⟨fun r hr => ?_, h2⟩
  by_cases hth : r.name = "K_theta"
  · have hk0 : (0 : ℝ) < k := by
      have : 0 < k := by omega
      exact_mod_cast this
    have f := hf r hr
    have raw : ∀ c, (rawOf (shippedRegistry FieldProblem.fns others) r.name Q (phiOnly (.array c))).entries =
        Q.evalGrid.map fun q => okOr0 (Q.cp.KTheta c q.1 q.2) := by
      intro c
      rw [hth]
      show (Q.evalGrid.map fun q => okOr0 (Q.cp.KTheta (coefs (phiOnly (.array c))) q.1 q.2)) = _
      rw [coefs_phiOnly]
    rw [raw] at f ⊢
    simp only [FieldConstraint, List.forall_mem_map] at f ⊢
    refine ⟨fun ht q hq => ?_, fun ht q hq => ?_, fun ht q hq => ?_⟩ <;> obtain ⟨l, hl, hm⟩ := KTheta_axisymmetric h hk c hq
    · have : ∑ j ∈ Finset.range k, okOr0 (Q.cp.KTheta c (l j).1 (l j).2) ≤ ∑ _j ∈ Finset.range k, r.value :=
        Finset.sum_le_sum fun j _ => f.1 ht _ (hl j)
      rw [hm, Finset.sum_const, Finset.card_range, nsmul_eq_mul] at this
      exact le_of_mul_le_mul_left this hk0
    · have : ∑ _j ∈ Finset.range k, r.value ≤ ∑ j ∈ Finset.range k, okOr0 (Q.cp.KTheta c (l j).1 (l j).2) :=
        Finset.sum_le_sum fun j _ => f.2.1 ht _ (hl j)
      rw [hm, Finset.sum_const, Finset.card_range, nsmul_eq_mul] at this
      exact le_of_mul_le_mul_left this hk0
    · have : ∑ j ∈ Finset.range k, okOr0 (Q.cp.KTheta c (l j).1 (l j).2) = ∑ _j ∈ Finset.range k, r.value :=
        Finset.sum_congr rfl fun j _ => f.2.2 ht _ (hl j)
      rw [hm, Finset.sum_const, Finset.card_range, nsmul_eq_mul] at this
      exact mul_left_cancel₀ hk0.ne' this
  · exact h1 r (by simpa using ⟨hr, hth⟩)

/-- **C182 (a solution with constraints).** The axisymmetric part of every solution is a solution. -/
theorem C182_user_solution {Q : FieldProblem} {k : ℕ} (h : IsAxisymmetricData Q k) (hk : Q.cp.ntor < k) (hobj : ConvexObjectives objs)
    (hrs : ∀ r ∈ rs, r.name ∈ affineNames ++ convexNames ∧ LegalUse (shippedRegistry FieldProblem.fns others) sm r.name r.unit r.type)
    (hor : ∀ r ∈ rs, r.name ∉ orientedNames)
    (hp : 0 ≤ gridStep Q.plasma.phis * gridStep Q.plasma.thetas) (he : 0 ≤ gridStep Q.ePhis * gridStep Q.eThetas)
    {d : Dofs} (hd : UserMinimiser (shippedRegistry FieldProblem.fns others) objs rs Q (Pot Q) d) :
    UserMinimiser (shippedRegistry FieldProblem.fns others) objs rs Q (Pot Q) (phiOnly (.array (axisymmetricPart Q.cp (coefs d)))) := by
  obtain ⟨⟨c, hc, hl⟩, hf, hmin⟩ := hd
  have hphi : ∀ c : List ℝ, phiOnly (.array c) "phi" = .array c := fun c => by simp [phiOnly]
  have hcd : coefs d = c := by rw [coefs, hc]; rfl
  have hl' : c.length = Q.cp.rows.length := by rw [rows_length]; exact hl
  obtain ⟨h1, h2⟩ := C182_user_no_gain (objs := objs) h hk hobj hrs hor hp he hl'
    ((feasible_congr Q others hrs (d := d) (e := phiOnly (.array c)) (by rw [hc, hphi])).1 hf)
  rw [hcd]
  refine ⟨⟨_, hphi _, ?_⟩, h1, fun e pe fe => ?_⟩
  · rw [axisymmetricPart_length _ _ hl', rows_length]
    rfl
  · refine le_trans h2 ?_
    rw [listObjective, ← objective_congr Q others hobj hp he (d := d) (e := phiOnly (.array c)) (by rw [hc, hphi])]
    exact hmin e pe fe

/-- **C182 (all solutions with constraints).** If `f_K` has a positive weight and the evaluation grid resolves the modes, all solutions of an
axisymmetric problem are axisymmetric. Without stellarator symmetry, objectives and constraints must not use the values of the potential. -/
theorem C182_user_all {Q : FieldProblem} {k A B : ℕ} (h : IsAxisymmetricData Q k) (R : ResolvingGrid Q A B) (hk : Q.cp.ntor < k)
    (hobj : ConvexObjectives objs) (hK : ∃ o ∈ objs, o.1 = "f_K" ∧ 0 < o.2.2)
    (hrs : ∀ r ∈ rs, r.name ∈ affineNames ++ convexNames ∧ LegalUse (shippedRegistry FieldProblem.fns others) sm r.name r.unit r.type)
    (hor : ∀ r ∈ rs, r.name ∉ orientedNames)
    (hu : Q.cp.stellsym = true ∨ CurrentOnly objs rs)
    {d : Dofs} (hd : UserMinimiser (shippedRegistry FieldProblem.fns others) objs rs Q (Pot Q) d) :
    ∀ (i : ℕ) (hi : i < Q.cp.rows.length), Q.cp.rows[i].2.1 ≠ 0 → (coefs d)[i]? = some 0 := by
  have he := C182_user_solution h hk hobj hrs hor R.plasma R.eval_nonneg hd
  obtain ⟨⟨c, hc, hl⟩, hf⟩ : Pot Q d ∧ UserFeasible (shippedRegistry FieldProblem.fns others) rs Q d := ⟨hd.1, hd.2.1⟩
  have hcd : coefs d = c := by rw [coefs, hc]; rfl
  have hl' : c.length = Q.cp.rows.length := by rw [rows_length]; exact hl
  have hphi : ∀ c : List ℝ, phiOnly (.array c) "phi" = .array c := fun c => by simp [phiOnly]
  have hagree : ∀ i, ¬ IsConstantIndex Q.cp i → c[i]? = (axisymmetricPart Q.cp c)[i]? := by
    cases hs : Q.cp.stellsym with
    | true =>
      obtain ⟨c', -, hiff⟩ := C125_exactly_one_solution Q others ⟨R, hs⟩ hobj hK hrs ⟨d, ⟨c, hc, hl⟩, hf⟩
      have e1 := (hiff d).1 hd
      have e2 := (hiff _).1 he
      rw [hphi, hcd, ← e1, hc, Val.array.injEq] at e2
      intro i _
      rw [e2]
    | false =>
      have e1 := C150_same_current hs others R hobj hK (hu.resolve_left (by simp [hs])) hrs hd he
      rw [coefs_phiOnly, hcd] at e1
      refine (C113_current_determines_potential Q.cp h.nfp R.ntor R.mpol R.regular c _ hl ?_).2.1 fun q _ => by rw [e1]
      rw [axisymmetricPart_length _ _ hl', rows_length]
  intro i hi h0
  rw [hcd, hagree i (fun hci => h0 (by rw [(rows_constant Q.cp i hi).2 hci])), axisymmetricPart, List.getElem?_eq_getElem (by simp; omega)]
  simp [h0]

theorem bandTorus_resolving : ResolvingGrid bandTorus 3 3 where
  nfp := one_ne_zero
  two_le_A := by norm_num
  two_le_B := by norm_num
  ntor := by decide
  mpol := by decide
  ePhis := by simp [bandTorus, circularTorus]
  eThetas := rfl
  regular := fun q _ => torus_normal 2 1 q.1 q.2 one_pos one_lt_two
  plasma := bandTorus_steps.1

/-- The circular torus with the objective `f_B + f_K` and bounds on the normal field and the poloidal current density: of the four modes only the third is used. -/
example (others : List String) (d : Dofs) (hd : UserMinimiser (shippedRegistry FieldProblem.fns others)
    [("f_B", .scalar 1, 1), ("f_K", .scalar 2, 3)] [⟨"f_max_Bnormal", "<=", .scalar 1, 2⟩, ⟨"K_theta", ">=", .scalar 1, 0⟩]
    bandTorus (Pot bandTorus) d) :
    (coefs d)[0]? = some 0 ∧ (coefs d)[1]? = some 0 ∧ (coefs d)[3]? = some 0 := by
  have := C182_user_all (sm := none) bandTorus_axisymmetric bandTorus_resolving (by decide) (by
      intro o ho
      simp only [List.mem_cons, List.not_mem_nil, or_false] at ho
      rcases ho with rfl | rfl
      · exact ⟨by simp [objectiveNames], ⟨1, rfl, one_ne_zero⟩, zero_le_one⟩
      · exact ⟨by simp [objectiveNames], ⟨2, rfl, two_ne_zero⟩, by norm_num⟩) ⟨("f_K", .scalar 2, 3), by simp, rfl, by norm_num⟩ (by
      intro r hr
      simp only [List.mem_cons, List.not_mem_nil, or_false] at hr
      rcases hr with rfl | rfl
      · exact ⟨by simp [affineNames, convexNames], ⟨_, rfl, by simp [Quantity.generateLinf]⟩, Or.inl rfl, by simp⟩
      · exact ⟨by simp [affineNames, convexNames], ⟨_, rfl, by simp [Quantity.generateC2]⟩, Or.inl rfl, by simp⟩) (by
      intro r hr
      simp only [List.mem_cons, List.not_mem_nil, or_false] at hr
      rcases hr with rfl | rfl <;> simp [orientedNames]) (Or.inl rfl) hd
  exact ⟨this 0 (by decide) (by decide), this 1 (by decide) (by decide), this 3 (by decide) (by decide)⟩

end

end Verif
