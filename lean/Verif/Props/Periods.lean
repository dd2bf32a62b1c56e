import Verif.Lemmas.PeriodSurface

/-!
# C155: the number of field periods used to describe a device does not matter
-/

namespace Verif

open Real CpParams

/-! ## Values -/

/-- **C155.** Described with fewer field periods, a device has the same currents, fields, integrals and norms: every quantity that is a
number has the same value, and every quantity that is an array has the same entries, once for every field period. (Not covered: the
quantities in Cartesian components and the total potential, which are different in every field period, and the force, see `C155_force`.) -/
theorem C155_values {N : ℕ} {Q Q' : FieldProblem} (h : MergedPeriods N Q Q') (hs : Q'.cp.stellsym = Q.cp.stellsym) {d d' : Dofs}
    (k : SamePotential Q Q' (coefs d) (coefs d')) :
    ∀ p ∈ shipped FieldProblem.fns, p.1 ∉ untiledNames → TiledVal N (p.2.rawF Q' d') (p.2.rawF Q d) :=
  fun p hp hn => (h.tiled k).values (h.tiled SameDevice.zero) p hp hn fun _ => hs

/-- **C155.** At every point the current is the same, and so is the field anywhere in space. -/
theorem C155_current {N : ℕ} {Q Q' : FieldProblem} (h : MergedPeriods N Q Q') {c c' : List ℝ} (k : SamePotential Q Q' c c') (p x : ℝ)
    (y : V3) : Q'.cp.K c' p x = Q.cp.K c p x ∧ Q'.cp.KdotGradK c' p x = Q.cp.KdotGradK c p x ∧ Q'.windingB c' y = Q.windingB c y := by
  have t := h.turned k 0
  have z : ∀ v : V3, rotZ (2 * π * ((0 : ℕ) / Q.cp.surf.nfp : ℝ)) v = v := fun v => by ext <;> simp [rotZ]
  have h1 := t.K p x
  have h2 := t.cp.KdotGradK t.ops p x
  have h3 := t.windingB y
  rw [z] at h1 h2 h3
  rw [z] at h3
  simp only [Nat.cast_zero, zero_div, add_zero] at h1 h2
  exact ⟨h1, h2, h3⟩

/-- The quantities that are numbers. -/
def numberNames : List String := "f_max_K_dot_grad_K_cyl" :: objectiveNames

theorem raw_number (others : List String) {n : String} (hn : n ∈ numberNames) (Q : FieldProblem) (d : Dofs) :
    ∃ x, rawOf (shippedRegistry FieldProblem.fns others) n Q d = .scalar x := by
  simp only [numberNames, objectiveNames, List.mem_cons, List.not_mem_nil, or_false] at hn
  rcases hn with rfl | rfl | rfl | rfl | rfl | rfl | rfl | rfl | rfl | rfl | rfl | rfl | rfl <;> exact ⟨_, rfl⟩

theorem TiledProblem.user {N : ℕ} {Q Q' : FieldProblem} {d d' : Dofs} (h : TiledProblem N Q Q' (coefs d) (coefs d'))
    (h0 : TiledProblem N Q Q' (zeroPotential Q) (zeroPotential Q')) (others : List String) {objs : List (String × UnitArg × ℝ)}
    {rs : List Request} (ho : ∀ o ∈ objs, o.1 ∈ numberNames) (hr : ∀ r ∈ rs, r.name ∉ untiledNames)
    (hth : ∀ r ∈ rs, r.name = "K_theta" → Q'.cp.stellsym = Q.cp.stellsym) :
    userObjective (shippedRegistry FieldProblem.fns others) objs Q' d' = userObjective (shippedRegistry FieldProblem.fns others) objs Q d ∧
    (UserFeasible (shippedRegistry FieldProblem.fns others) rs Q' d' ↔ UserFeasible (shippedRegistry FieldProblem.fns others) rs Q d) := by
  have hnum : ∀ n ∈ numberNames, n ∉ untiledNames ∧ n ≠ "K_theta" := by decide
  constructor
  · rw [userObjective, userObjective]
    congr 1
    refine List.map_congr_left fun o hoo => ?_
    obtain ⟨x, hx⟩ := raw_number others (ho o hoo) Q d
    obtain ⟨y, hy⟩ := raw_number others (ho o hoo) Q' d'
    have := h.rawOf h0 others (hnum _ (ho o hoo)).1 fun e => absurd e (hnum _ (ho o hoo)).2
    rw [hx, hy] at this
    rw [hx, hy, show y = x from this]
  · refine forall₂_congr fun r hrr => ?_
    have := (h.rawOf h0 others (hr r hrr) (hth r hrr)).entries_mem h.pos
    simp only [FieldConstraint, this]

/-- **C155.** Objective and constraints of the user have the same values, so that a potential is admissible in one description if and only
if it is in the other. -/
theorem C155_user_problem {N : ℕ} {Q Q' : FieldProblem} (h : MergedPeriods N Q Q') (hs : Q'.cp.stellsym = Q.cp.stellsym) {d d' : Dofs}
    (k : SamePotential Q Q' (coefs d) (coefs d')) (others : List String) {objs : List (String × UnitArg × ℝ)} {rs : List Request}
    (ho : ∀ o ∈ objs, o.1 ∈ numberNames) (hr : ∀ r ∈ rs, r.name ∉ untiledNames) :
    userObjective (shippedRegistry FieldProblem.fns others) objs Q' d' = userObjective (shippedRegistry FieldProblem.fns others) objs Q d ∧
    (UserFeasible (shippedRegistry FieldProblem.fns others) rs Q' d' ↔ UserFeasible (shippedRegistry FieldProblem.fns others) rs Q d) :=
  (h.tiled k).user (h.tiled SameDevice.zero) others ho hr fun _ _ _ => hs

/-- **C155.** Every potential can be written in the description with fewer field periods, if that one has the modes. -/
theorem C155_potential_exists {N : ℕ} {Q Q' : FieldProblem} (h : MergedPeriods N Q Q') (hm : Q.cp.mpol ≤ Q'.cp.mpol)
    (ht : N * Q.cp.ntor ≤ Q'.cp.ntor) (hs : Q'.cp.stellsym = true → Q.cp.stellsym = true) (c : List ℝ) :
    ∃ c', c'.length = HasQp.ndofs Q' ∧ SamePotential Q Q' c c' := by
  obtain ⟨c', l, k⟩ := merged_potential_exists h.nfp h.N_ne hm ht hs c
  exact ⟨c', by rw [l, rows_length]; rfl, k⟩

/-- **C155.** Every problem on the uniform grid of the setup can be described with fewer field periods: for every number that divides the
number of field periods of the surfaces there are coefficients of the surfaces, grids and a table of modes. -/
theorem C155_exists {N : ℕ} (hN : N ≠ 0) {Q : FieldProblem} (hd : N ∣ Q.cp.surf.nfp) (h0 : Q.cp.surf.nfp ≠ 0)
    (hp : Q.plasma.shape.nfp = Q.cp.surf.nfp) (hu : ∃ k, 0 < k ∧ Q.wPhis = linspace0 1 (Q.cp.surf.nfp * k)) (h2 : 2 ≤ Q.ePhis.length)
    (h3 : 2 ≤ Q.plasma.phis.length) (hb : Q.bPlasma.length = Q.plasma.phis.length * Q.plasma.thetas.length) :
    ∃ Q', MergedPeriods N Q Q' ∧ Q'.cp.mpol = Q.cp.mpol ∧ Q'.cp.ntor = N * Q.cp.ntor ∧ Q'.cp.stellsym = Q.cp.stellsym ∧
      Q'.cp.wdofs.length = Q'.cp.surf.numDofs ∧ Q'.plasma.dofs.length = Q'.plasma.shape.numDofs := by
  obtain ⟨w, l1, h1⟩ := Q.cp.surf.merged_dofs_exists hN hd Q.cp.wdofs
  obtain ⟨v, l2, h4⟩ := Q.plasma.shape.merged_dofs_exists hN (by rw [hp]; exact hd) Q.plasma.dofs
  refine ⟨{ Q with
      cp := { Q.cp with surf := Q.cp.surf.merged N, wdofs := w, ntor := N * Q.cp.ntor }
      ePhis := shiftedCopies N (1 / Q.cp.surf.nfp) Q.ePhis
      plasma := ⟨Q.plasma.shape.merged N, v, shiftedCopies N (1 / Q.cp.surf.nfp) Q.plasma.phis, Q.plasma.thetas⟩
      bPlasma := (List.replicate N Q.bPlasma).flatten },
    ⟨⟨?_, h0, hp, h1, h4, hu, rfl, rfl, rfl, rfl, rfl, rfl, hb, rfl, rfl, rfl⟩, h2, h3⟩, rfl, rfl, rfl, l1, l2⟩
  obtain ⟨M, hM⟩ := hd
  simp only [SurfaceShape.merged, hM, Nat.mul_div_cancel_left _ (Nat.pos_of_ne_zero hN)]

/-- A device with two field periods. -/
noncomputable def halfTurnProblem : FieldProblem where
  cp := { surf := { nfp := 2, stellsym := true, mpol := 1, ntor := 1 }
          wdofs := [3, 1 / 10, 1 / 5, 1, 1 / 10, 1 / 10, 1 / 5, 1, 1 / 10]
          G := 5
          I := 7
          mpol := 1
          ntor := 1
          stellsym := true }
  wPhis := linspace0 1 4
  wThetas := linspace0 1 2
  ePhis := linspace0 (1 / 2) 2
  eThetas := linspace0 1 2
  plasma := ⟨{ nfp := 2, stellsym := true, mpol := 1, ntor := 1 }, [3, 1 / 10, 1 / 5, 1 / 2, 1 / 10, 1 / 10, 1 / 5, 1 / 2, 1 / 10],
    linspace0 (1 / 2) 2, linspace0 1 2⟩
  bPlasma := [0, 1, 0, 1]

/-- It has a description without field periods, with coefficients of both signs of the toroidal mode number in the surface and in the
potential. -/
theorem halfTurn_merged : ∃ Q', MergedPeriods 2 halfTurnProblem Q' ∧ Q'.cp.mpol = 1 ∧ Q'.cp.ntor = 2 ∧ Q'.cp.stellsym = true := by
  obtain ⟨Q', h, h1, h2, h3, -⟩ := C155_exists (N := 2) (by norm_num) (Q := halfTurnProblem) ⟨1, rfl⟩ (by simp [halfTurnProblem]) rfl
    ⟨2, by norm_num, rfl⟩ (by simp [halfTurnProblem, linspace0]) (by simp [halfTurnProblem, linspace0])
    (by simp [halfTurnProblem, linspace0])
  exact ⟨Q', h, h1, h2, h3⟩

/-! ## Turning the device by one of the merged field periods -/

namespace SameDevice

variable {N : ℕ} {Q Q' : FieldProblem} (h : SameDevice N Q Q')
include h

theorem self_moved (k : ℕ) : MovedCp (k / Q.cp.surf.nfp) 0 Q'.cp Q'.cp := by
  have m := h.moved k
  have m0 := h.moved 0
  have z : ∀ v : V3, rotZ (2 * π * ((0 : ℕ) / Q.cp.surf.nfp : ℝ)) v = v := fun v => by ext <;> simp [rotZ]
  refine ⟨fun a b p x => ?_, rfl, rfl⟩
  have e := m0.dash a b p x
  rw [z] at e
  simp only [Nat.cast_zero, zero_div, add_zero] at e
  rw [m.dash a b p x, e]

theorem self_turned {c r : List ℝ} (k : ℕ) (hk : ∀ p x, Q'.cp.Phi r (p + k / Q.cp.surf.nfp) x = Q'.cp.Phi c p x) :
    Turned (k / Q.cp.surf.nfp) Q' Q' c r := by
  obtain ⟨m, hm, hw⟩ := h.uniform
  have hn' : (Q.cp.surf.nfp : ℝ) ≠ 0 := by exact_mod_cast h.nfp_ne
  have hm' : (m : ℝ) ≠ 0 := by positivity
  have t := h.turned (c := zeroPotential Q) (c' := zeroPotential Q') SameDevice.zero k
  exact ⟨h.self_moved k, hk, fun p x => by rw [t.plasma, h.plasma], h.nfp'_ne,
    ⟨Q.cp.surf.nfp * m, k * m, by rw [h.wPhis, hw], by push_cast; field_simp⟩, rfl, rfl⟩

theorem rotated {c r : List ℝ} (hr : ∀ p x, Q'.cp.Phi r (p + 1 / Q.cp.surf.nfp) x = Q'.cp.Phi c p x) : TiledProblem 1 Q' Q' c r := by
  have hn' : (Q.cp.surf.nfp : ℝ) ≠ 0 := by exact_mod_cast h.nfp_ne
  have hM : (Q'.cp.surf.nfp : ℝ) ≠ 0 := by exact_mod_cast h.nfp'_ne
  have t1 : Turned (1 / Q.cp.surf.nfp) Q' Q' c r := by
    have := h.self_turned (c := c) (r := r) 1 (by simpa using hr)
    simpa using this
  have tN : Turned (N / Q.cp.surf.nfp) Q' Q' r r := by
    refine h.self_turned N fun p x => ?_
    have e : (N : ℝ) / Q.cp.surf.nfp = (1 : ℕ) / Q'.cp.surf.nfp := by
      have : (N : ℝ) ≠ 0 := by exact_mod_cast h.N_ne
      rw [h.nfp]
      push_cast
      field_simp
    rw [e, Phi_period Q'.cp h.nfp'_ne]
  obtain ⟨n, hn⟩ := Nat.exists_eq_succ_of_ne_zero h.N_ne
  have hstep : ∀ (p : ℝ) (k : ℕ), p + ((k + 1 : ℕ) : ℝ) * (1 / Q.cp.surf.nfp) = p + (k : ℝ) * (1 / Q.cp.surf.nfp) + 1 / Q.cp.surf.nfp := by
    intro p k
    push_cast
    ring
  have hlast : ∀ p : ℝ, p + (n : ℝ) * (1 / Q.cp.surf.nfp) + 1 / Q.cp.surf.nfp = p + N / Q.cp.surf.nfp := by
    intro p
    rw [hn]
    push_cast
    ring
  refine ⟨one_ne_zero, by rw [one_mul], rfl, ?_, rfl, ?_, rfl⟩
  · rw [h.evalGrid_eq, hn]
    refine tiles_cyclic n _ (fun (k : ℕ) (q : ℝ × ℝ) => (q.1 + (k : ℝ) * (1 / Q.cp.surf.nfp), q.2)) (fun k _ q _ => ?_) fun q _ => ?_
    · simp only [hstep]
      exact t1.samePoint _ _
    · have a := t1.samePoint (q.1 + (n : ℝ) * (1 / Q.cp.surf.nfp)) q.2
      rw [hlast] at a
      simpa using a.trans (tN.samePoint q.1 q.2).symm
  · rw [h.plasmaZip_eq, hn]
    refine tiles_cyclic n _ (fun (k : ℕ) (x : (ℝ × ℝ) × ℝ) => ((x.1.1 + (k : ℝ) * (1 / Q.cp.surf.nfp), x.1.2), x.2)) (fun k _ q _ => ?_)
      fun q _ => ?_
    · simp only [hstep]
      exact t1.samePlasmaPoint _ _ _
    · have a := t1.samePlasmaPoint (q.1.1 + (n : ℝ) * (1 / Q.cp.surf.nfp)) q.1.2 q.2
      rw [hlast] at a
      simpa using a.trans (tN.samePlasmaPoint q.1.1 q.1.2 q.2).symm

end SameDevice

/-- The same potential with another table of modes. -/
theorem same_tiled {N : ℕ} {Q Q' : FieldProblem} (h : MergedPeriods N Q Q') (m n : ℕ) (s : Bool) {c c' : List ℝ}
    (k : ∀ p x, (withModes Q' m n s).cp.Phi c' p x = Q'.cp.Phi c p x) : TiledProblem 1 Q' (withModes Q' m n s) c c' := by
  obtain ⟨j, hj, hw⟩ := h.uniform
  have z : ∀ v : V3, rotZ (2 * π * 0) v = v := fun v => by ext <;> simp [rotZ]
  have t : Turned 0 Q' (withModes Q' m n s) c c' := by
    refine ⟨⟨fun a b p x => by rw [z, add_zero, add_zero]; rfl, rfl, rfl⟩, fun p x => by rw [add_zero, k], fun p x => by rw [z, add_zero]; rfl,
      h.nfp'_ne, ⟨Q.cp.surf.nfp * j, 0, by rw [h.wPhis, hw], by simp⟩, rfl, rfl⟩
  have tile : ∀ {α : Type} (R : α → α → Prop) (l : List α), (∀ a, R a a) → Tiles 1 R l l := by
    intro α R l hR
    refine ⟨l.map fun a => (a, a), by simp [Function.comp_def], by simp [Function.comp_def], fun p hp => ?_⟩
    obtain ⟨a, -, rfl⟩ := List.mem_map.1 hp
    exact hR a
  refine ⟨one_ne_zero, by rw [one_mul]; rfl, rfl, tile _ _ fun q => ?_, rfl, tile _ _ fun q => ?_, rfl⟩
  · simpa using t.samePoint q.1 q.2
  · simpa using t.samePlasmaPoint q.1.1 q.1.2 q.2

/-! ## Minimisers -/

/-- The user's problem for a list of coefficients. -/
noncomputable def listObjective (others : List String) (objs : List (String × UnitArg × ℝ)) (Q : FieldProblem) (c : List ℝ) : ℝ :=
  userObjective (shippedRegistry FieldProblem.fns others) objs Q (phiOnly (.array c))

def ListFeasible (others : List String) (rs : List Request) (Q : FieldProblem) (c : List ℝ) : Prop :=
  UserFeasible (shippedRegistry FieldProblem.fns others) rs Q (phiOnly (.array c))

section
variable {others : List String} {objs : List (String × UnitArg × ℝ)} {rs : List Request} {sm : Option String}

theorem TiledProblem.lists {N : ℕ} {Q Q' : FieldProblem} {c c' : List ℝ} (h : TiledProblem N Q Q' c c')
    (h0 : TiledProblem N Q Q' (zeroPotential Q) (zeroPotential Q')) (ho : ∀ o ∈ objs, o.1 ∈ numberNames)
    (hr : ∀ r ∈ rs, r.name ∉ untiledNames) (hth : ∀ r ∈ rs, r.name = "K_theta" → Q'.cp.stellsym = Q.cp.stellsym) :
    listObjective others objs Q' c' = listObjective others objs Q c ∧ (ListFeasible others rs Q' c' ↔ ListFeasible others rs Q c) := by
  have h' : TiledProblem N Q Q' (coefs (phiOnly (.array c))) (coefs (phiOnly (.array c'))) := by
    rw [coefs_phiOnly, coefs_phiOnly]
    exact h
  exact h'.user h0 others ho hr hth

theorem objective_numbers (h : ConvexObjectives objs) : ∀ o ∈ objs, o.1 ∈ numberNames :=
  fun o ho => List.mem_cons_of_mem _ (h o ho).1

theorem convex_tiled : ∀ n ∈ affineNames ++ convexNames, n ∉ orientedNames → n ∉ untiledNames := by decide

theorem Phi_comb (P : CpParams) {c d : List ℝ} (h : c.length = d.length) (a : ℝ) (p x : ℝ) :
    P.Phi (comb a (1 - a) c d) p x = a * P.Phi c p x + (1 - a) * P.Phi d p x :=
  app_comb _ c d a (1 - a) h

/-- Averages of turned potentials, without stellarator symmetry: they are admissible if the potential is, and not worse. -/
theorem averages {N : ℕ} {Q Q' : FieldProblem} (h : MergedPeriods N Q Q') (hs : Q'.cp.stellsym = false) (hobj : ConvexObjectives objs)
    (hrs : ∀ r ∈ rs, r.name ∈ affineNames ++ convexNames ∧ LegalUse (shippedRegistry FieldProblem.fns others) sm r.name r.unit r.type)
    (hor : ∀ r ∈ rs, r.name ∉ orientedNames)
    (hp : 0 ≤ gridStep Q'.plasma.phis * gridStep Q'.plasma.thetas) (he : 0 ≤ gridStep Q'.ePhis * gridStep Q'.eThetas)
    {c : List ℝ} (hc : c.length = Q'.cp.rows.length) (hf : ListFeasible others rs Q' c) (n : ℕ) :
    ∃ a r : List ℝ, a.length = Q'.cp.rows.length ∧ r.length = Q'.cp.rows.length ∧
      (ListFeasible others rs Q' a ∧ ListFeasible others rs Q' r) ∧
      (listObjective others objs Q' a ≤ listObjective others objs Q' c ∧ listObjective others objs Q' r = listObjective others objs Q' c) ∧
      (∀ p x, Q'.cp.Phi a p x = (∑ k ∈ Finset.range (n + 1), Q'.cp.Phi c (p - (k : ℝ) * (1 / Q.cp.surf.nfp)) x) / (n + 1)) ∧
      ∀ p x, Q'.cp.Phi r p x = Q'.cp.Phi c (p - ((n + 1 : ℕ) : ℝ) * (1 / Q.cp.surf.nfp)) x := by
  have zero : TiledProblem 1 Q' Q' (zeroPotential Q') (zeroPotential Q') := h.rotated fun p x => by
    rw [CpParams.Phi, CpParams.Phi, zeroPotential, app_zero_list, app_zero_list]
  have turn : ∀ b : List ℝ, b.length = Q'.cp.rows.length → ListFeasible others rs Q' b → ∃ r : List ℝ, r.length = Q'.cp.rows.length ∧
      ListFeasible others rs Q' r ∧ listObjective others objs Q' r = listObjective others objs Q' b ∧
      ∀ p x, Q'.cp.Phi r p x = Q'.cp.Phi b (p - 1 / Q.cp.surf.nfp) x := by
    intro b hb hfb
    obtain ⟨r, l, hr⟩ := moved_potential_exists Q'.cp (s := 1 / Q.cp.surf.nfp) (t := 0) (fun e => by simp [hs] at e) b hb
    have t := (h.rotated (c := b) (r := r) fun p x => by simpa using hr p x).lists (others := others) (objs := objs) (rs := rs) zero
      (objective_numbers hobj) (fun r hr => convex_tiled _ (hrs r hr).1 (hor r hr)) fun _ _ _ => rfl
    refine ⟨r, l.trans hb, t.2.2 hfb, t.1, fun p x => ?_⟩
    simpa using hr (p - 1 / Q.cp.surf.nfp) x
  induction n with
  | zero =>
    obtain ⟨r, l, hfr, hor, hr⟩ := turn c hc hf
    exact ⟨c, r, hc, l, ⟨hf, hfr⟩, ⟨le_rfl, hor⟩, fun p x => by simp, fun p x => by rw [hr]; simp⟩
  | succ n ih =>
    obtain ⟨a, r, la, lr, ⟨hfa, hfr⟩, ⟨hoa, hor'⟩, ha, hr⟩ := ih
    obtain ⟨r', l', hfr', hor2, hr'⟩ := turn r lr hfr
    have hn : (0 : ℝ) < (n : ℝ) + 1 + 1 := by positivity
    have hw0 : (0 : ℝ) ≤ ((n : ℝ) + 1) / (n + 1 + 1) := by positivity
    have hw1 : ((n : ℝ) + 1) / (n + 1 + 1) ≤ 1 := by
      rw [div_le_one hn]
      linarith
    refine ⟨comb (((n : ℝ) + 1) / (n + 1 + 1)) (1 - ((n : ℝ) + 1) / (n + 1 + 1)) a r, r', by simp [comb, la, lr], l', ⟨?_, hfr'⟩,
      ⟨?_, by rw [hor2, hor']⟩, fun p x => ?_, fun p x => ?_⟩
    · obtain ⟨x, rfl⟩ := eq_ofFn a la
      obtain ⟨y, rfl⟩ := eq_ofFn r lr
      rw [← ofFn_comb]
      exact (feasibleSet_convex Q' others hp he _ hrs).1 x hfa y hfr _ hw0 hw1
    · obtain ⟨x, rfl⟩ := eq_ofFn a la
      obtain ⟨y, rfl⟩ := eq_ofFn r lr
      rw [← ofFn_comb]
      have hcx := (objective_convex Q' others hp he Q'.cp.rows.length hobj).1 x y _ hw0 hw1
      have e1 := mul_le_mul_of_nonneg_left hoa hw0
      have e2 : (1 - ((n : ℝ) + 1) / (n + 1 + 1)) * listObjective others objs Q' (List.ofFn y) =
        (1 - ((n : ℝ) + 1) / (n + 1 + 1)) * listObjective others objs Q' c := by rw [hor']
      simp only [listObjective] at e1 e2 ⊢
      linarith
    · rw [Phi_comb _ (la.trans lr.symm), ha, hr, Finset.sum_range_succ _ (n + 1)]
      push_cast
      field_simp
      ring
    · rw [hr', hr]
      congr 1
      push_cast
      ring

/-- Every potential of the description with fewer field periods can be replaced by one of the other description that is not worse. -/
theorem not_worse {N : ℕ} {Q Q' : FieldProblem} (h : MergedPeriods N Q Q') (hm : Q'.cp.mpol = Q.cp.mpol)
    (ht : Q'.cp.ntor < N * (Q.cp.ntor + 1)) (hs : Q'.cp.stellsym = Q.cp.stellsym) (hobj : ConvexObjectives objs)
    (hrs : ∀ r ∈ rs, r.name ∈ affineNames ++ convexNames ∧ LegalUse (shippedRegistry FieldProblem.fns others) sm r.name r.unit r.type)
    (hor : ∀ r ∈ rs, r.name ∉ orientedNames) (hth : ∀ r ∈ rs, r.name = "K_theta" → Q.cp.stellsym = false)
    (hp : 0 ≤ gridStep Q.plasma.phis * gridStep Q.plasma.thetas) (he : 0 ≤ gridStep Q.ePhis * gridStep Q.eThetas)
    {c' : List ℝ} (hf : ListFeasible others rs Q' c') :
    ∃ c : List ℝ, c.length = Q.cp.rows.length ∧ ListFeasible others rs Q c ∧
      listObjective others objs Q c ≤ listObjective others objs Q' c' := by
  set Qf := withModes Q' Q'.cp.mpol Q'.cp.ntor false with hQf
  have hf' : MergedPeriods N Q Qf := ⟨⟨h.nfp, h.nfp_ne, h.plasma_nfp, h.winding, h.plasma, h.uniform, h.wPhis, h.wThetas, h.ePhis, h.eThetas,
    h.pPhis, h.pThetas, h.bPlasma_length, h.bPlasma, h.G, h.I⟩, h.two_eval, h.two_plasma⟩
  have hnames := fun r hr => convex_tiled _ (hrs r hr).1 (hor r hr)
  have hpe : gridStep Qf.plasma.phis * gridStep Qf.plasma.thetas = gridStep Q.plasma.phis * gridStep Q.plasma.thetas :=
    (hf'.tiled SameDevice.zero).plasmaStep
  have hee : gridStep Qf.ePhis * gridStep Qf.eThetas = gridStep Q.ePhis * gridStep Q.eThetas := (hf'.tiled SameDevice.zero).evalStep
  obtain ⟨cf, lf, hcf⟩ := merged_potential_exists (P := Q'.cp) (P' := Qf.cp) (N := 1) (by rw [one_mul]; rfl) one_ne_zero le_rfl
    (by rw [one_mul]; rfl) (fun e => by simp [hQf, withModes] at e) c'
  have z := same_tiled h Q'.cp.mpol Q'.cp.ntor false (c := zeroPotential Q') (c' := zeroPotential Qf) fun p x => by
    rw [CpParams.Phi, CpParams.Phi, zeroPotential, zeroPotential, app_zero_list, app_zero_list]
  have e1 := (same_tiled h Q'.cp.mpol Q'.cp.ntor false hcf).lists (others := others) (objs := objs) (rs := rs) z (objective_numbers hobj)
    hnames fun r hr hk => by rw [hs, hth r hr hk]; rfl
  obtain ⟨n, hn⟩ := Nat.exists_eq_succ_of_ne_zero h.N_ne
  obtain ⟨a, r, la, -, ⟨hfa, -⟩, ⟨hoa, -⟩, ha, -⟩ := averages (others := others) hf' rfl hobj hrs hor (by rw [hpe]; exact hp)
    (by rw [hee]; exact he) lf (e1.2.2 hf) n
  obtain ⟨c, lc, hc⟩ := averaged_potential_exists (P := Q.cp) (P' := Q'.cp) h.nfp h.nfp_ne hm.le ht (fun e => by rw [hs, e]) c'
  have same : SamePotential Q Qf c a := fun p x => by
    rw [hc, ha, hn]
    push_cast
    congr 1
    exact Finset.sum_congr rfl fun k _ => hcf _ _
  have e2 := (hf'.tiled same).lists (others := others) (objs := objs) (rs := rs) (hf'.tiled SameDevice.zero) (objective_numbers hobj)
    hnames fun r hr hk => by rw [hth r hr hk]; rfl
  exact ⟨c, lc, e2.2.1 hfa, by rw [← e2.1]; exact hoa.trans e1.1.le⟩

/-- **C155.** Merging field periods changes no solution: with matching modes a potential solves the one problem if and only if it solves
the other one, although the description with fewer field periods also admits potentials that are not the same in all of them. For sums of
convex objectives with any constraints that the program accepts on affine and convex quantities. -/
theorem C155_minimisers {N : ℕ} {Q Q' : FieldProblem} (h : MergedPeriods N Q Q') (hm : Q'.cp.mpol = Q.cp.mpol)
    (ht : N * Q.cp.ntor ≤ Q'.cp.ntor) (ht' : Q'.cp.ntor < N * (Q.cp.ntor + 1)) (hs : Q'.cp.stellsym = Q.cp.stellsym)
    (hobj : ConvexObjectives objs)
    (hrs : ∀ r ∈ rs, r.name ∈ affineNames ++ convexNames ∧ LegalUse (shippedRegistry FieldProblem.fns others) sm r.name r.unit r.type)
    (hor : ∀ r ∈ rs, r.name ∉ orientedNames) (hth : ∀ r ∈ rs, r.name = "K_theta" → Q.cp.stellsym = false)
    (hp : 0 ≤ gridStep Q.plasma.phis * gridStep Q.plasma.thetas) (he : 0 ≤ gridStep Q.ePhis * gridStep Q.eThetas)
    {d d' : Dofs} (hd : Pot Q d) (hd' : Pot Q' d') (same : SamePotential Q Q' (coefs d) (coefs d')) :
    UserMinimiser (shippedRegistry FieldProblem.fns others) objs rs Q (Pot Q) d ↔
      UserMinimiser (shippedRegistry FieldProblem.fns others) objs rs Q' (Pot Q') d' := by
  have hnames := fun r hr => convex_tiled _ (hrs r hr).1 (hor r hr)
  have u := C155_user_problem h hs same others (objective_numbers hobj) hnames
  have hphi : ∀ c : List ℝ, phiOnly (.array c) "phi" = .array c := fun c => by simp [phiOnly]
  have hpe : gridStep Q'.plasma.phis * gridStep Q'.plasma.thetas = gridStep Q.plasma.phis * gridStep Q.plasma.thetas :=
    (h.tiled SameDevice.zero).plasmaStep
  have hee : gridStep Q'.ePhis * gridStep Q'.eThetas = gridStep Q.ePhis * gridStep Q.eThetas := (h.tiled SameDevice.zero).evalStep
  constructor
  · rintro ⟨-, hf, hmin⟩
    refine ⟨hd', u.2.2 hf, ?_⟩
    rintro e' ⟨c', hc', -⟩ hfe
    have hfe' := (feasible_congr Q' others hrs (e := phiOnly (.array c')) (by rw [hc', hphi])).1 hfe
    obtain ⟨c, lc, hfc, hle⟩ := not_worse (others := others) (objs := objs) h hm ht' hs hobj hrs hor hth hp he hfe'
    have := hmin (phiOnly (.array c)) ⟨c, hphi c, by rw [lc, rows_length]; rfl⟩ hfc
    rw [u.1, objective_congr Q' others hobj (by rw [hpe]; exact hp) (by rw [hee]; exact he) (d := e') (e := phiOnly (.array c'))
      (by rw [hc', hphi])]
    exact this.trans hle
  · rintro ⟨-, hf, hmin⟩
    refine ⟨hd, u.2.1 hf, ?_⟩
    intro e hpe' hfe
    obtain ⟨c', lc, hsame⟩ := C155_potential_exists h hm.ge ht (fun e => by rw [← hs, e]) (coefs e)
    have v := C155_user_problem (d := e) (d' := phiOnly (.array c')) h hs (by rw [coefs_phiOnly]; exact hsame) others (objs := objs) (rs := rs)
      (objective_numbers hobj) hnames
    have := hmin (phiOnly (.array c')) ⟨c', hphi c', lc⟩ (v.2.2 hfe)
    rwa [u.1, v.1] at this

/-- The hypotheses of `C155_minimisers` for the device with two field periods, the objective `f_B + f_K` and a bound on the normal field. -/
example : ∃ Q' : FieldProblem, MergedPeriods 2 halfTurnProblem Q' ∧ Q'.cp.mpol = halfTurnProblem.cp.mpol ∧
    2 * halfTurnProblem.cp.ntor ≤ Q'.cp.ntor ∧ Q'.cp.ntor < 2 * (halfTurnProblem.cp.ntor + 1) ∧
    Q'.cp.stellsym = halfTurnProblem.cp.stellsym ∧ ConvexObjectives [("f_B", .scalar 1, 1), ("f_K", .scalar 2, 3)] ∧
    (∀ r ∈ [(⟨"f_max_Bnormal", "<=", .scalar 1, 2⟩ : Request)], r.name ∈ affineNames ++ convexNames ∧
      LegalUse (shippedRegistry FieldProblem.fns []) none r.name r.unit r.type) ∧
    (0 ≤ gridStep halfTurnProblem.plasma.phis * gridStep halfTurnProblem.plasma.thetas ∧
      0 ≤ gridStep halfTurnProblem.ePhis * gridStep halfTurnProblem.eThetas) ∧
    ∃ d d', Pot halfTurnProblem d ∧ Pot Q' d' ∧ coefs d = [1, 2, 3, 4] ∧ SamePotential halfTurnProblem Q' (coefs d) (coefs d') := by
  obtain ⟨Q', h, h1, h2, h3⟩ := halfTurn_merged
  have e1 : halfTurnProblem.cp.mpol = 1 := rfl
  have e2 : halfTurnProblem.cp.ntor = 1 := rfl
  have e3 : halfTurnProblem.cp.stellsym = true := rfl
  obtain ⟨c', l, hc⟩ := C155_potential_exists h (by rw [h1, e1]) (by rw [h2, e2]) (fun _ => e3) [1, 2, 3, 4]
  refine ⟨Q', h, by rw [h1, e1], by rw [h2, e2], by rw [h2, e2]; norm_num, by rw [h3, e3], ?_, ?_, ?_,
    phiOnly (.array [1, 2, 3, 4]), phiOnly (.array c'), ⟨[1, 2, 3, 4], by simp [phiOnly], rfl⟩, ⟨c', by simp [phiOnly], l⟩, coefs_phiOnly _, ?_⟩
  · intro o ho
    simp only [List.mem_cons, List.not_mem_nil, or_false] at ho
    rcases ho with rfl | rfl
    · exact ⟨by simp [objectiveNames], ⟨1, rfl, one_ne_zero⟩, zero_le_one⟩
    · exact ⟨by simp [objectiveNames], ⟨2, rfl, two_ne_zero⟩, by norm_num⟩
  · intro r hr
    simp only [List.mem_cons, List.not_mem_nil, or_false] at hr
    subst hr
    exact ⟨by simp [affineNames, convexNames], ⟨_, rfl, by simp [Quantity.generateLinf]⟩, Or.inl rfl, by simp⟩
  · simp only [halfTurnProblem, gridStep_linspace0 _ _ (le_refl 2)]
    norm_num
  · rw [coefs_phiOnly, coefs_phiOnly]
    exact hc

end

end Verif
