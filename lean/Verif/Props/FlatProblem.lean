import Verif.Props.WholeProblem

/-!
# C107: the flattened problem passed to the solver and the problem of the user
-/

namespace Verif

variable {P : Type} [HasQp P]

/-- A vector of the right length that satisfies the constraint functions passed to the solver. -/
def FlatFeasible (S : Setup) (x : List ℝ) : Prop :=
  x.length = S.x0.length ∧ AllNonpos (S.problem.g x) ∧ AllZero (S.problem.h x)

/-- A minimiser of the problem passed to the solver. -/
def FlatMinimiser (S : Setup) (x : List ℝ) : Prop :=
  FlatFeasible S x ∧ ∀ y, FlatFeasible S y → S.problem.f x ≤ S.problem.f y

/-- The objectives of a call. -/
def QuadcoilArgs.objectives (a : QuadcoilArgs) : List (String × UnitArg × ℝ) :=
  objectiveList a.objectiveName a.objectiveUnit a.objectiveWeight

/-- The constraints of a call. -/
def QuadcoilArgs.requests (a : QuadcoilArgs) : List Request :=
  zipRequests a.constraintName a.constraintType a.constraintUnit a.constraintValue

theorem okList_merge (fs : List (P → Dofs → Val)) (sm : Option String) (sp : SmoothingParams) (qp : P) (d : Dofs) :
    okList (mergeCallables (fs.map some) false sm sp qp d) = fs.flatMap fun f => (f qp d).entries := by
  rw [C27_merge_concatenates]
  simp only [okList, List.flatMap_map]

theorem objectiveList_weight (a : QuadcoilArgs) :
    objectiveList a.objectiveName a.objectiveUnit (match a.objectiveName with | .one _ => .one 1 | .many _ => a.objectiveWeight) =
      a.objectives := by
  unfold QuadcoilArgs.objectives
  cases a.objectiveName <;> cases a.objectiveUnit <;> rfl

theorem zipRequests_value (a : QuadcoilArgs) :
    zipRequests a.constraintName a.constraintType a.constraintUnit (if a.constraintName.length > 0 then a.constraintValue else []) =
      a.requests := by
  unfold QuadcoilArgs.requests
  split
  · rfl
  · rename_i h
    have : a.constraintName = [] := by simpa using h
    rw [this]
    rfl

/-- **C107 (values).** For a potential: some vector with this potential is feasible for the solver with objective at most `t`, if
and only if the potential satisfies the user's constraints and the user's objective is at most `t`. -/
theorem C107_flat_iff_user {reg : Registry P} (hreg : AuxNames reg) {qp : P} {a : QuadcoilArgs} {phiUnit : ℝ} {S : Setup}
    (hs : quadcoilSetup reg qp a phiUnit = .ok S) (hu : phiUnit ≠ 0) (hm : a.mergeConstraints = false)
    (hinit : ∀ p, a.phiInit = some p → p.length = HasQp.ndofs qp)
    (hwell : WellPosed reg a.objectives a.requests a.smoothing a.sp qp) {d : Dofs} (hd : Pot qp d) (t : ℝ) :
    (∃ x, FlatFeasible S x ∧ dofsOf S.template S.phiUnit x "phi" = d "phi" ∧ S.problem.f x ≤ t) ↔
      UserFeasible reg a.requests qp d ∧ userObjective reg a.objectives qp d ≤ t := by
  obtain ⟨o, c, ho, hc, hpu, ht, hx0, -, -, -, hf, hg, hh⟩ := quadcoilSetup_ok hs
  rw [hm] at hg
  rw [hpu]
  have hok : SlackOk reg (joinParsed o c).slack := slackOk_union (slackOk_objectives hreg ho) (slackOk_constraints hreg hc)
  obtain ⟨p, hp⟩ : ∃ p, p = a.phiInit.getD (List.replicate (HasQp.ndofs qp) 0) := ⟨_, rfl⟩
  have hpl : p.length = HasQp.ndofs qp := by
    rw [hp]
    cases hi : a.phiInit with
    | none => simp
    | some p => exact hinit p hi
  rw [← hp] at ht
  have hd0 : Pot qp (phiOnly (Val.array p)) := ⟨p, rfl, hpl⟩
  rw [← objectiveList_weight, ← zipRequests_value] at hwell
  obtain ⟨bs, hexact, hdis, hkeys, hfeas, hff, hbok, huval⟩ := whole_problem_blocks ho hc hwell hd0 hd
  have huval' : _ = userObjective reg a.objectives qp d :=
    huval.trans (congrArg (fun l => userObjective reg l qp d) (objectiveList_weight a))
  rw [zipRequests_value] at hbok
  rw [← hbok, ← huval']
  constructor
  · rintro ⟨x, ⟨hxl, hxg, hxh⟩, hphi, hxt⟩
    have hb := (hfeas (dofsOf S.template phiUnit x)).1 (by
      refine ⟨?_, ?_, ?_⟩
      · intro kv hkv
        obtain ⟨k, fn⟩ := kv
        rw [hx0, ht] at hxl
        rw [ht]
        exact (dofsOf_aux hreg hok qp p phiUnit x (lookup_of_mem hok.1 hkv)).2.2.2 hxl
      · intro g hgm v hv
        refine hxg v ?_
        rw [hg, okList_merge]
        exact List.mem_flatMap.2 ⟨g, hgm, hv⟩
      · intro g hgm v hv
        refine hxh v ?_
        rw [hh, okList_merge]
        exact List.mem_flatMap.2 ⟨g, hgm, hv⟩)
    obtain ⟨h1, h2⟩ := blocks_sound hexact hphi hb
    rw [hf, hff _ hphi hb] at hxt
    exact ⟨h1, h2.trans hxt⟩
  · rintro ⟨h1, h2⟩
    obtain ⟨e, he, hb, hv⟩ := blocks_complete hexact hdis h1
    obtain ⟨hconf, -, -⟩ := (hfeas e).2 hb
    obtain ⟨phi, hphi, hphil⟩ := hd
    have hnd := xTemplate_nodup hreg hok qp p phiUnit
    obtain ⟨x, hxl, hxphi, hxk⟩ := exists_flat (d := e) hnd hu (xTemplate_phi hreg hok qp p phiUnit) (he.trans hphi)
      (by rw [List.length_map, hphil, hpl]) (by
        intro k v hkv hk
        have h3 := lookup_of_mem hnd hkv
        rw [xTemplate_lookup hreg hok qp p phiUnit k hk, Option.map_eq_some_iff] at h3
        obtain ⟨fn, hfn, rfl⟩ := h3
        exact hconf _ (mem_of_lookup hfn))
    rw [← ht] at hxl hxphi hxk
    rw [← hx0] at hxl
    have hag : ∀ b ∈ bs, ∀ k ∈ b.keys, e k = dofsOf S.template phiUnit x k := by
      intro b hbm k hk
      obtain ⟨fn, hfn⟩ := Option.isSome_iff_exists.1 ((lookup_isSome_iff _ k).2 (hkeys b hbm k hk))
      obtain ⟨hk1, hk2, -⟩ := dofsOf_aux hreg hok qp p phiUnit x hfn
      refine (hxk k (fn qp (phiOnly (Val.array p))) ?_ hk1 hk2).symm
      rw [ht]
      apply mem_of_lookup
      rw [xTemplate_lookup hreg hok qp p phiUnit k hk2, hfn]
      rfl
    have hb' : ∀ b ∈ bs, b.feas (dofsOf S.template phiUnit x) := fun b hbm =>
      (hexact b hbm).feas_local e _ hxphi.symm (hag b hbm) (hb b hbm)
    have hv' : (bs.map fun b => b.val (dofsOf S.template phiUnit x)).sum = (bs.map fun b => b.val e).sum := by
      congr 1
      apply List.map_congr_left
      exact fun b hbm => ((hexact b hbm).val_local e _ hxphi.symm (hag b hbm)).symm
    obtain ⟨-, h4, h5⟩ := (hfeas _).2 hb'
    refine ⟨x, ⟨hxl, ?_, ?_⟩, hxphi.trans he, ?_⟩
    · rw [hg, okList_merge]
      intro v hv
      obtain ⟨g, hgm, hv⟩ := List.mem_flatMap.1 hv
      exact h4 g hgm v hv
    · rw [hh, okList_merge]
      intro v hv
      obtain ⟨g, hgm, hv⟩ := List.mem_flatMap.1 hv
      exact h5 g hgm v hv
    · rw [hf, hff _ (hxphi.trans he) hb', hv', hv]
      exact h2

/-- A vector of the right length holds a potential. -/
theorem flat_pot {reg : Registry P} (hreg : AuxNames reg) {qp : P} {a : QuadcoilArgs} {phiUnit : ℝ} {S : Setup}
    (hs : quadcoilSetup reg qp a phiUnit = .ok S) (hinit : ∀ p, a.phiInit = some p → p.length = HasQp.ndofs qp) {x : List ℝ}
    (hx : x.length = S.x0.length) : Pot qp (dofsOf S.template S.phiUnit x) := by
  obtain ⟨o, c, ho, hc, hpu, ht, hx0, -⟩ := quadcoilSetup_ok hs
  have hok : SlackOk reg (joinParsed o c).slack := slackOk_union (slackOk_objectives hreg ho) (slackOk_constraints hreg hc)
  obtain ⟨phi, h1, h2⟩ := dofsOf_phi_array hreg hok qp (a.phiInit.getD (List.replicate (HasQp.ndofs qp) 0)) phiUnit x
  rw [hpu, ht]
  refine ⟨phi, h1, ?_⟩
  rw [h2 (by rw [hx, hx0, ht])]
  cases hi : a.phiInit with
  | none => simp
  | some p => exact hinit p hi

/-- **C107 (from the solver to the user).** If the vector minimises the problem passed to the solver, its potential minimises the
problem of the user, and the two minimal values agree. -/
theorem C107_flat_minimiser_solves {reg : Registry P} (hreg : AuxNames reg) {qp : P} {a : QuadcoilArgs} {phiUnit : ℝ} {S : Setup}
    (hs : quadcoilSetup reg qp a phiUnit = .ok S) (hu : phiUnit ≠ 0) (hm : a.mergeConstraints = false)
    (hinit : ∀ p, a.phiInit = some p → p.length = HasQp.ndofs qp)
    (hwell : WellPosed reg a.objectives a.requests a.smoothing a.sp qp) {x : List ℝ} (hx : FlatMinimiser S x) :
    UserMinimiser reg a.objectives a.requests qp (Pot qp) (dofsOf S.template S.phiUnit x) ∧
      S.problem.f x = userObjective reg a.objectives qp (dofsOf S.template S.phiUnit x) := by
  have hp := flat_pot hreg hs hinit hx.1.1
  have key := fun {d : Dofs} (hd : Pot qp d) (t : ℝ) => C107_flat_iff_user hreg hs hu hm hinit hwell hd t
  obtain ⟨h1, h2⟩ := (key hp _).1 ⟨x, hx.1, rfl, le_rfl⟩
  have least : ∀ e, Pot qp e → UserFeasible reg a.requests qp e → S.problem.f x ≤ userObjective reg a.objectives qp e := by
    intro e he hfe
    obtain ⟨y, hy, -, hyt⟩ := (key he _).2 ⟨hfe, le_rfl⟩
    exact (hx.2 y hy).trans hyt
  exact ⟨⟨hp, h1, fun e he hfe => h2.trans (least e he hfe)⟩, le_antisymm (least _ hp h1) h2⟩

/-- **C107 (from the user to the solver).** Every minimiser of the user's problem is the potential of a minimiser of the problem
passed to the solver, with the same value. -/
theorem C107_user_minimiser_reached {reg : Registry P} (hreg : AuxNames reg) {qp : P} {a : QuadcoilArgs} {phiUnit : ℝ} {S : Setup}
    (hs : quadcoilSetup reg qp a phiUnit = .ok S) (hu : phiUnit ≠ 0) (hm : a.mergeConstraints = false)
    (hinit : ∀ p, a.phiInit = some p → p.length = HasQp.ndofs qp)
    (hwell : WellPosed reg a.objectives a.requests a.smoothing a.sp qp) {d : Dofs}
    (hd : UserMinimiser reg a.objectives a.requests qp (Pot qp) d) :
    ∃ x, FlatMinimiser S x ∧ dofsOf S.template S.phiUnit x "phi" = d "phi" ∧
      S.problem.f x = userObjective reg a.objectives qp d := by
  obtain ⟨hp, hfe, hmin⟩ := hd
  have key := fun {d : Dofs} (hd : Pot qp d) (t : ℝ) => C107_flat_iff_user hreg hs hu hm hinit hwell hd t
  obtain ⟨x, hx, hphi, hxt⟩ := (key hp _).2 ⟨hfe, le_rfl⟩
  have least : ∀ y, FlatFeasible S y → userObjective reg a.objectives qp d ≤ S.problem.f y := by
    intro y hy
    have hpy := flat_pot hreg hs hinit hy.1
    obtain ⟨h1, h2⟩ := (key hpy _).1 ⟨y, hy, rfl, le_rfl⟩
    exact (hmin _ hpy h1).trans h2
  exact ⟨x, ⟨hx, fun y hy => hxt.trans (least y hy)⟩, hphi, le_antisymm hxt (least x hx)⟩

/-- **C107 (the reported solution).** If the vector a run reports minimises the problem passed to the solver, the returned potential
minimises the problem of the user. -/
theorem C107_reported_solution {reg : Registry P} (hreg : AuxNames reg) {qp : P} {a : QuadcoilArgs} {phiUnit : ℝ} {S : Setup}
    (hs : quadcoilSetup reg qp a phiUnit = .ok S) (hu : phiUnit ≠ 0) (hm : a.mergeConstraints = false)
    (hinit : ∀ p, a.phiInit = some p → p.length = HasQp.ndofs qp)
    (hwell : WellPosed reg a.objectives a.requests a.smoothing a.sp qp) {opt : Optimizer ℝ}
    {gradOp : (List ℝ → ℝ) → List ℝ → List ℝ} {r : SolveResults} {dofs : Dofs}
    (hrun : quadcoilSolve opt gradOp S = some (r, dofs)) (hx : FlatMinimiser S r.x) :
    UserMinimiser reg a.objectives a.requests qp (Pot qp) dofs := by
  have : dofs = dofsOf S.template S.phiUnit r.x := by
    unfold quadcoilSolve at hrun
    rw [Option.map_eq_some_iff] at hrun
    obtain ⟨r, -, he⟩ := hrun
    cases he
    rfl
  rw [this]
  exact (C107_flat_minimiser_solves hreg hs hu hm hinit hwell hx).1

/-- The small problem meets the hypotheses, with and without auxiliary variables, and the flattened problem has a minimiser. -/
example (sm : Option String) (hsm : sm = none ∨ sm = some "slack") :
    ∃ S, quadcoilSetup toyRegistry ⟨0⟩ (toyArgs sm) 7 = .ok S ∧ (toyArgs sm).mergeConstraints = false ∧
      (∀ p, (toyArgs sm).phiInit = some p → p.length = HasQp.ndofs (⟨0⟩ : ToyQp)) ∧
      WellPosed toyRegistry (toyArgs sm).objectives (toyArgs sm).requests (toyArgs sm).smoothing (toyArgs sm).sp (⟨0⟩ : ToyQp) ∧
      ∃ x, FlatMinimiser S x := by
  have hw : WellPosed toyRegistry (toyArgs sm).objectives (toyArgs sm).requests (toyArgs sm).smoothing (toyArgs sm).sp (⟨0⟩ : ToyQp) :=
    toy_wellPosed sm hsm
  obtain ⟨S, hS⟩ : ∃ S, quadcoilSetup toyRegistry ⟨0⟩ (toyArgs sm) 7 = .ok S := by
    rcases hsm with rfl | rfl <;> exact ⟨_, rfl⟩
  have hi : ∀ p, (toyArgs sm).phiInit = some p → p.length = HasQp.ndofs (⟨0⟩ : ToyQp) := by simp [toyArgs]
  have hmin : UserMinimiser toyRegistry (toyArgs sm).objectives (toyArgs sm).requests ⟨0⟩ (Pot (⟨0⟩ : ToyQp))
      (phiOnly (Val.array [0, 0])) := by
    refine ⟨⟨[0, 0], rfl, rfl⟩, ?_, ?_⟩
    · intro r hr
      simp only [QuadcoilArgs.requests, toyArgs, zipRequests, List.zipWith_cons_cons,
        List.zipWith_nil_right, List.zip, List.mem_cons, List.not_mem_nil, or_false] at hr
      rcases hr with rfl | rfl | rfl | rfl | rfl
      all_goals
        simp [FieldConstraint, rawOf, toyRegistry, Quantity.generateLinf, Quantity.generateL1, Quantity.generateC2, toyPhi, toyKTheta,
          toyEq, phiOnly, Val.entries, Quantity.maxAbs, jmax, Quantity.l1Integral, HasQp.da, HasQp.nfp]
    · intro e _ _
      simp only [userObjective, QuadcoilArgs.objectives, toyArgs, objectiveList, List.map_cons, List.map_nil, List.sum_cons,
        List.sum_nil, rawOf, toyRegistry]
      simp only [String.reduceEq, if_false, if_true, Quantity.generateC2, Val.entries, List.headD, UnitArg.size]
      have : (0 : ℝ) ≤ ((e "phi").entries.map fun x => x ^ 2).sum :=
        List.sum_nonneg (by simp only [List.mem_map]; rintro _ ⟨x, -, rfl⟩; positivity)
      simp [phiOnly]
      positivity
  obtain ⟨x, hx, -⟩ := C107_user_minimiser_reached toy_auxNames hS (by norm_num) rfl hi hw hmin
  exact ⟨S, hS, rfl, hi, hw, x, hx⟩

end Verif
