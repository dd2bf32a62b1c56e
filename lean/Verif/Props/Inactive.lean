import Verif.Props.WeightLimit

/-!
# C166: constraints that are not active at the solution can be left out
-/

namespace Verif

variable (Q : FieldProblem) (others : List String)

/-- A short step towards any number keeps finitely many negative numbers below zero. -/
theorem short_step (l : List (ℝ × ℝ)) (h : ∀ p ∈ l, p.1 < 0) : ∃ t, 0 < t ∧ t ≤ 1 ∧ ∀ p ∈ l, t * p.2 + (1 - t) * p.1 ≤ 0 := by
  induction l with
  | nil => exact ⟨1, one_pos, le_rfl, by simp⟩
  | cons p l ih =>
    obtain ⟨t, h0, h1, ht⟩ := ih fun q hq => h q (List.mem_cons_of_mem _ hq)
    have hp := h p List.mem_cons_self
    have hpos : 0 < -p.1 / (|p.2| - p.1) := div_pos (by linarith) (by linarith [abs_nonneg p.2])
    refine ⟨min t (-p.1 / (|p.2| - p.1)), lt_min h0 hpos, (min_le_left _ _).trans h1, fun q hq => ?_⟩
    have hs0 : 0 < min t (-p.1 / (|p.2| - p.1)) := lt_min h0 hpos
    have hs1 : min t (-p.1 / (|p.2| - p.1)) ≤ t := min_le_left _ _
    rcases List.mem_cons.1 hq with rfl | hq
    · have h2 : min t (-q.1 / (|q.2| - q.1)) * (|q.2| - q.1) ≤ -q.1 := by
        have := min_le_right t (-q.1 / (|q.2| - q.1))
        rwa [le_div_iff₀ (by linarith [abs_nonneg q.2])] at this
      nlinarith [le_abs_self q.2]
    · have h3 := ht q hq
      have h4 := h q (List.mem_cons_of_mem _ hq)
      set s := min t (-p.1 / (|p.2| - p.1)) with hs
      by_cases h5 : q.2 - q.1 ≤ 0
      · nlinarith
      · push Not at h5
        nlinarith

/-- **C166.** If the objectives and constraints are convex, and a solution satisfies some of the constraints strictly, it is a solution without them. -/
theorem C166_leave_out (hp : 0 ≤ gridStep Q.plasma.phis * gridStep Q.plasma.thetas)
    (he : 0 ≤ gridStep Q.ePhis * gridStep Q.eThetas) {objs : List (String × UnitArg × ℝ)} (h : ConvexObjectives objs)
    {rs ss : List Request} {sm : Option String}
    (hrs : ∀ r ∈ rs ++ ss, r.name ∈ affineNames ++ convexNames ∧ LegalUse (shippedRegistry FieldProblem.fns others) sm r.name r.unit r.type)
    {d : Dofs} (hd : UserMinimiser (shippedRegistry FieldProblem.fns others) objs (rs ++ ss) Q (Pot Q) d)
    (hstrict : StrictlyFeasible (shippedRegistry FieldProblem.fns others) ss Q d) :
    UserMinimiser (shippedRegistry FieldProblem.fns others) objs rs Q (Pot Q) d := by
  classical
  refine ⟨hd.1, ((userFeasible_append Q).1 hd.2.1).1, fun e hpe hfe => ?_⟩
  by_contra hc
  push Not at hc
  obtain ⟨x, hx⟩ := pot_vector Q hd.1
  obtain ⟨y, hy⟩ := pot_vector Q hpe
  have hfun : ∀ r ∈ rs ++ ss, ∃ hs, RequestFunctions Q others r (cpNdofs Q.cp.stellsym Q.cp.mpol Q.cp.ntor).1 hs := fun r hr =>
    request_functions Q others hp he (hrs r hr).1 (hrs r hr).2
  choose! hs hfun using hfun
  have self : ∀ r : Request, r.relief r.value = 0 := by
    intro r
    unfold Request.relief
    split <;> ring
  have feas : ∀ ls : List Request, (∀ r ∈ ls, r ∈ rs ++ ss) → ∀ z : Fin (cpNdofs Q.cp.stellsym Q.cp.mpol Q.cp.ntor).1 → ℝ,
      UserFeasible (shippedRegistry FieldProblem.fns others) ls Q (phiOnly (.array (List.ofFn z))) ↔ ∀ r ∈ ls, ∀ g ∈ hs r, g z ≤ 0 := by
    intro ls hls z
    refine forall₂_congr fun r hr => ?_
    rw [(hfun r (hls r hr)).2.1 r.value z, self]
  have hdx := (feas (rs ++ ss) (fun r hr => hr) x).1 ((feasible_congr Q others hrs hx).1 hd.2.1)
  have hey := (feas rs (fun r hr => List.mem_append_left _ hr) y).1
    ((feasible_congr Q others (fun r hr => hrs r (List.mem_append_left _ hr)) hy).1 hfe)
  have hsx : ∀ r ∈ ss, ∀ g ∈ hs r, g x < 0 := by
    intro r hr
    refine (hfun r (List.mem_append_right _ hr)).2.2 x ?_
    have h1 := hstrict r hr
    obtain ⟨⟨q, hq, -⟩, -⟩ := (hrs r (List.mem_append_right _ hr)).2
    have hl : (shipped FieldProblem.fns).lookup r.name = some q := by
      cases hl : (shipped FieldProblem.fns).lookup r.name with
      | none =>
        simp only [shippedRegistry, hl] at hq
        split at hq <;> cases hq
      | some q' => simpa [shippedRegistry, hl] using hq
    have he' := shipped_phiOnly _ (mem_of_lookup hl) Q d _ hx
    simp only at he'
    have h2 : rawOf (shippedRegistry FieldProblem.fns others) r.name Q d =
        rawOf (shippedRegistry FieldProblem.fns others) r.name Q (phiOnly (.array (List.ofFn x))) := by simp only [rawOf, hq, he']
    rwa [h2] at h1
  obtain ⟨t, ht0, ht1, ht⟩ := short_step (ss.flatMap fun r => (hs r).map fun g => (g x, g y)) (by
    intro p hp
    obtain ⟨r, hr, hp⟩ := List.mem_flatMap.1 hp
    obtain ⟨g, hg, rfl⟩ := List.mem_map.1 hp
    exact hsx r hr g hg)
  have hcomb : ∀ r ∈ rs ++ ss, ∀ g ∈ hs r, g (t • y + (1 - t) • x) ≤ t * g y + (1 - t) * g x := fun r hr g hg => by
    simpa using ((hfun r hr).1 g hg).2 (Set.mem_univ y) (Set.mem_univ x) ht0.le (sub_nonneg.2 ht1) (by ring)
  have h3 := hd.2.2 (phiOnly (.array (List.ofFn (t • y + (1 - t) • x)))) ⟨_, by simp [phiOnly]; rfl, by simp; rfl⟩ (by
    rw [feas (rs ++ ss) (fun r hr => hr)]
    intro r hr g hg
    refine (hcomb r hr g hg).trans ?_
    rcases List.mem_append.1 hr with hr' | hr'
    · have h1 := hey r hr' g hg
      have h2 := hdx r hr g hg
      nlinarith
    · exact ht (g x, g y) (List.mem_flatMap.2 ⟨r, hr', List.mem_map.2 ⟨g, hg, rfl⟩⟩))
  have h4 := (objective_convex Q others hp he (cpNdofs Q.cp.stellsym Q.cp.mpol Q.cp.ntor).1 h).1 y x t ht0.le ht1
  rw [objective_congr Q others h hp he hx, objective_congr Q others h hp he hy] at hc
  rw [objective_congr Q others h hp he hx] at h3
  have h5 : (fun i => t * y i + (1 - t) * x i) = t • y + (1 - t) • x := rfl
  rw [h5] at h4
  nlinarith

/-- **C166 (the other way).** A solution without some of the constraints that satisfies them is a solution with them, and then every solution with them is
one without them. This needs no convexity. -/
theorem C166_add {reg : Registry FieldProblem} {objs : List (String × UnitArg × ℝ)} {rs ss : List Request} {d : Dofs}
    (hd : UserMinimiser reg objs rs Q (Pot Q) d) (hs : UserFeasible reg ss Q d) (e : Dofs) :
    UserMinimiser reg objs (rs ++ ss) Q (Pot Q) e ↔ UserMinimiser reg objs rs Q (Pot Q) e ∧ UserFeasible reg ss Q e := by
  obtain ⟨h1, h2, h3⟩ := hd
  constructor
  · rintro ⟨g1, g2, g3⟩
    obtain ⟨g4, g5⟩ := (userFeasible_append Q).1 g2
    exact ⟨⟨g1, g4, fun k hk hkf => (g3 d h1 ((userFeasible_append Q).2 ⟨h2, hs⟩)).trans (h3 k hk hkf)⟩, g5⟩
  · rintro ⟨⟨g1, g2, g3⟩, g5⟩
    exact ⟨g1, (userFeasible_append Q).2 ⟨g2, g5⟩, fun k hk hkf => g3 k hk ((userFeasible_append Q).1 hkf).1⟩

/-- **C166 (calls).** Let a call have constraints that its solution satisfies strictly. The call without them passes a problem to the solver whose
minimisers have the same potential. -/
theorem C166_calls {A B : ℕ} (R : Resolved Q A B) (hB : ∀ c, Q.bnormal c ≠ []) {a b : QuadcoilArgs} (ha : ConvexCall a) (hb : ConvexCall b)
    {phiUnit phiUnit' : ℝ} (hu : phiUnit ≠ 0) (hu' : phiUnit' ≠ 0) (hinit : ∀ p, a.phiInit = some p → p.length = HasQp.ndofs Q)
    (hinit' : ∀ p, b.phiInit = some p → p.length = HasQp.ndofs Q) {S S' : Setup}
    (hs : quadcoilSetup (shippedRegistry FieldProblem.fns others) Q a phiUnit = .ok S)
    (hs' : quadcoilSetup (shippedRegistry FieldProblem.fns others) Q b phiUnit' = .ok S') {ss : List Request}
    (hobj : b.objectives = a.objectives) (hreq : a.requests = b.requests ++ ss) {x : List ℝ} (hx : FlatMinimiser S x)
    (hfeas : ∃ d, Pot Q d ∧ UserFeasible (shippedRegistry FieldProblem.fns others) a.requests Q d)
    (hstrict : StrictlyFeasible (shippedRegistry FieldProblem.fns others) ss Q (dofsOf S.template S.phiUnit x)) :
    (∃ y, FlatMinimiser S' y) ∧
      ∀ y, FlatMinimiser S' y → dofsOf S'.template S'.phiUnit y "phi" = dofsOf S.template S.phiUnit x "phi" := by
  have hlegal := ((C131_setup_succeeds_iff_legal others Q a phiUnit).1 ⟨S, hs⟩).2.1.2.2.2
  obtain ⟨c, hcl, hex, hall, huser⟩ := C129_solver_problem_has_one_potential Q others R hB ha hu hinit hs hfeas
  have hxc := (hall x hx).1
  have hmin := (huser _).2 hxc
  have hmin' := C166_leave_out Q others R.plasma R.eval_nonneg ha.objectives (rs := b.requests) (ss := ss) (sm := a.smoothing)
    (by rw [← hreq]; exact fun r hr => ⟨(ha.constraints r hr).1, (hlegal r hr).1⟩) (by rwa [← hreq]) hstrict
  rw [← hobj] at hmin'
  obtain ⟨c', hcl', hex', hall', huser'⟩ := C129_solver_problem_has_one_potential Q others R hB hb hu' hinit' hs' ⟨_, hmin'.1, hmin'.2.1⟩
  have h1 := (huser' _).1 hmin'
  exact ⟨hex', fun y hy => by rw [(hall' y hy).1, h1]⟩

end Verif
