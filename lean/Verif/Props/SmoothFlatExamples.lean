import Verif.Props.SetupErrors

/-!
# C130: the slack form of the largest current is not convex, and examples
-/

namespace Verif

open Real CpParams

/-- Minimise the largest current, with an auxiliary variable. -/
noncomputable def maxCurrentArgs : QuadcoilArgs where
  objectiveName := .one "f_max_K2"
  objectiveUnit := .one (.scalar 1)
  objectiveWeight := .one 1
  constraintName := []
  constraintType := []
  constraintUnit := []
  constraintValue := []
  smoothing := some "slack"
  sp := ⟨1 / 10⟩
  mergeConstraints := false
  phiInit := none
  cInit := 1
  cGrowth := 2
  xstopOuter := 1
  ctolOuter := 1
  fstopInner := 1
  xstopInner := 1
  gtolInner := 1
  fstopInnerLast := 1
  xstopInnerLast := 1
  gtolInnerLast := 1
  maxiterTot := 5
  maxiterInner := 5

/-- The inequality functions of that call: the current below and above. -/
theorem maxCurrent_functions (Q : FieldProblem) (others : List String) {u : ℝ} {S : Setup}
    (hs : quadcoilSetup (shippedRegistry FieldProblem.fns others) Q maxCurrentArgs u = .ok S) :
    ∃ (pos : Fin (HasQp.ndofs Q) → Fin S.x0.length) (i : Fin S.x0.length), Function.Injective pos ∧
      ∀ x : Fin S.x0.length → ℝ, S.problem.g (List.ofFn x) =
        (Q.evalGrid.map fun q => Q.cp.K2 (List.ofFn fun l => x (pos l) * u) q.1 q.2 - x i) ++
          Q.evalGrid.map fun q => -Q.cp.K2 (List.ofFn fun l => x (pos l) * u) q.1 q.2 - x i := by
  obtain ⟨o, c, ho, hc, hpu, ht, hx0, -, -, -, -, hg, -⟩ := quadcoilSetup_ok hs
  have hreg := shipped_auxNames FieldProblem.fns others
  have hok : SlackOk (shippedRegistry FieldProblem.fns others) (joinParsed o c).slack :=
    slackOk_union (slackOk_objectives hreg ho) (slackOk_constraints hreg hc)
  cases ho
  cases hc
  obtain ⟨F, hF⟩ := setup_flatDofs hreg hok (p := List.replicate (HasQp.ndofs Q) 0) u (N := S.x0.length) (by rw [hx0, ht]; rfl) (by
    intro k fn hfn
    have : (k, fn) ∈ (addedOf (Quantity.generateLinf (arr FieldProblem.fns.K2) "scaled_max_K2_f_max_K2" false false) (some "slack")
        ⟨1 / 10⟩ fun _ => Val.scalar |(1 : ℝ)|).slack := mem_of_lookup hfn
    simp only [addedOf, Quantity.generateLinf, if_true, Option.getD_some, List.map_cons, List.map_nil, List.mem_singleton] at this
    cases this
    rfl)
  obtain ⟨i, hi⟩ := F.aux "scaled_max_K2_f_max_K2" (List.mem_singleton.2 rfl)
  have hlen : (List.replicate (HasQp.ndofs Q) (0 : ℝ)).length = HasQp.ndofs Q := List.length_replicate
  refine ⟨fun l => F.pos (Fin.cast hlen.symm l), i, fun a b h => ?_, fun x => ?_⟩
  · have := F.inj h
    simpa using this
  · rw [hg, show maxCurrentArgs.mergeConstraints = false from rfl, okList_merge]
    obtain ⟨d, hd⟩ : ∃ d, d = dofsOf S.template u (List.ofFn x) := ⟨_, rfl⟩
    have hphi : d "phi" = .array (List.ofFn fun l => x (F.pos (Fin.cast hlen.symm l)) * F.unit) := by
      rw [hd, ht]
      refine (F.phi x).trans ?_
      congr 1
      apply List.ext_getElem <;> simp
    have hi' : d "scaled_max_K2_f_max_K2" = .scalar (x i) := by
      rw [hd, ht]
      exact hi x
    rw [← hd]
    show (Quantity.slackIneq (arr FieldProblem.fns.K2 Q d) (.scalar |(1 : ℝ)|) (d "scaled_max_K2_f_max_K2") false).entries ++ [] = _
    rw [hi', slackIneq_entries, List.append_nil]
    simp only [arr, Val.entries, FieldProblem.fns, coefs, hphi, hF, Bool.false_eq_true, if_false, abs_one, div_one, List.map_map,
      Function.comp_def]

/-- **C130 (violated).** For `f_max_K2` with an auxiliary variable the problem passed to the solver is never convex if the grid resolves
the current and there is a coefficient: `positive_definite` is not set for this quantity, so the constraints contain `-K2 - p <= 0`. -/
theorem C130_max_current_violated_partial (Q : FieldProblem) (others : List String) {A B : ℕ} (R : Resolved Q A B)
    (hdof : HasQp.ndofs Q ≠ 0) {u : ℝ} (hu : u ≠ 0) {S : Setup}
    (hs : quadcoilSetup (shippedRegistry FieldProblem.fns others) Q maxCurrentArgs u = .ok S) (m n : ℕ) :
    ¬ IsConvexProblem S.x0.length m n S.problem := by
  rintro ⟨G, -, -, hG, -, -, -, hGc, -⟩
  obtain ⟨pos, i, hinj, hfn⟩ := maxCurrent_functions Q others hs
  obtain ⟨l0⟩ : Nonempty (Fin (HasQp.ndofs Q)) := ⟨⟨0, Nat.pos_of_ne_zero hdof⟩⟩
  let y : Fin S.x0.length → ℝ := fun k => if k = pos l0 then 1 else 0
  let phi : (Fin S.x0.length → ℝ) → Fin (HasQp.ndofs Q) → ℝ := fun x l => x (pos l) * u
  have hne : List.ofFn (phi 0) ≠ List.ofFn (phi y) := by
    intro h
    have := congrFun (List.ofFn_injective h) l0
    simp [phi, y, hu] at this
    exact hu this.symm
  have hdiff : ∃ q ∈ periodGrid Q.cp A B, Q.cp.K (List.ofFn (phi 0)) q.1 q.2 ≠ Q.cp.K (List.ofFn (phi y)) q.1 q.2 := by
    by_contra hcon
    push Not at hcon
    exact hne (C113_current_determines_coefficients Q.cp R.stellsym R.nfp R.ntor R.mpol R.regular _ _ (by simp; rfl) (by simp; rfl) hcon)
  obtain ⟨q, hq, hK⟩ := hdiff
  have hq' : q ∈ Q.evalGrid := by
    rw [FieldProblem.evalGrid, R.ePhis, R.eThetas]
    exact hq
  obtain ⟨k, hk, hkq⟩ := List.mem_iff_getElem.1 hq'
  -- the function `-K2 - p` at this point is among the convex functions
  have hlen : n = (Q.evalGrid.length + Q.evalGrid.length) := by
    have := congrArg List.length ((hG 0).symm.trans (hfn 0))
    simpa using this
  have hval : ∀ x, G x ⟨Q.evalGrid.length + k, by omega⟩ = -Q.cp.K2 (List.ofFn (phi x)) q.1 q.2 - x i := by
    intro x
    have e := (hG x).symm.trans (hfn x)
    have e' : (List.ofFn (G x))[Q.evalGrid.length + k]'(by simp; omega) = -Q.cp.K2 (List.ofFn (phi x)) q.1 q.2 - x i := by
      simp only [e]
      rw [List.getElem_append_right (by simp)]
      simp [hkq, phi]
    rw [← e']
    simp
  have hhalf : (0 : ℝ) ≤ 1 / 2 := by norm_num
  have hc : G ((1 / 2 : ℝ) • (0 : Fin S.x0.length → ℝ) + (1 / 2 : ℝ) • y) ⟨Q.evalGrid.length + k, by omega⟩ ≤
      (1 / 2 : ℝ) • G 0 ⟨Q.evalGrid.length + k, by omega⟩ + (1 / 2 : ℝ) • G y ⟨Q.evalGrid.length + k, by omega⟩ := by
    refine (hGc ⟨Q.evalGrid.length + k, by omega⟩).right (Set.mem_univ _) (Set.mem_univ _) hhalf hhalf (by norm_num)
  simp only [hval] at hc
  obtain ⟨h1, h2, h3⟩ := affine_K Q (n := HasQp.ndofs Q) q
  have hmid : phi ((1 / 2 : ℝ) • (0 : Fin S.x0.length → ℝ) + (1 / 2 : ℝ) • y) =
      fun l => 1 / 2 * phi 0 l + (1 - 1 / 2) * phi y l := by
    funext l
    simp only [phi, Pi.add_apply, Pi.smul_apply, smul_eq_mul, Pi.zero_apply]
    ring
  have e1 := h1.isAffineFn (phi 0) (phi y) (1 / 2)
  have e2 := h2.isAffineFn (phi 0) (phi y) (1 / 2)
  have e3 := h3.isAffineFn (phi 0) (phi y) (1 / 2)
  rw [hmid] at hc
  simp only [CpParams.K2, V3.normSq, V3.dot, Pi.add_apply, Pi.smul_apply, Pi.zero_apply, smul_eq_mul] at hc
  simp only at e1 e2 e3
  rw [e1, e2, e3] at hc
  generalize hk0 : Q.cp.K (List.ofFn (phi 0)) q.1 q.2 = k0 at *
  generalize hk1 : Q.cp.K (List.ofFn (phi y)) q.1 q.2 = k1 at *
  have hsum : (k0.x - k1.x) ^ 2 + (k0.y - k1.y) ^ 2 + (k0.z - k1.z) ^ 2 ≤ 0 := by nlinarith
  have hx : k0.x = k1.x := by nlinarith [sq_nonneg (k0.x - k1.x), sq_nonneg (k0.y - k1.y), sq_nonneg (k0.z - k1.z)]
  have hy : k0.y = k1.y := by nlinarith [sq_nonneg (k0.x - k1.x), sq_nonneg (k0.y - k1.y), sq_nonneg (k0.z - k1.z)]
  have hz : k0.z = k1.z := by nlinarith [sq_nonneg (k0.x - k1.x), sq_nonneg (k0.y - k1.y), sq_nonneg (k0.z - k1.z)]
  exact hK (by cases k0; cases k1; simp_all)

/-! ## Examples -/

/-- The shipped quantities by name. -/
theorem legal_shipped {P : Type} [HasQp P] (F : FieldFns P) (others : List String) {sm : Option String} (hsm : knownSmoothing sm) {n uc : String} {q : Quantity P}
    (hq : (shipped F).lookup n = some q) (hc : uc ∈ q.compatibility) {u : UnitArg} (hu : u ≠ .other) :
    LegalUse (shippedRegistry F others) sm n u uc :=
  ⟨⟨q, by simp [shippedRegistry, hq], hc⟩, hsm, hu⟩

/-- The call is legal for every problem and every unit of the potential. -/
theorem maxCurrentArgs_ok (Q : FieldProblem) (u : ℝ) :
    ∃ S, quadcoilSetup (shippedRegistry FieldProblem.fns []) Q maxCurrentArgs u = .ok S := by
  rw [C131_setup_succeeds_iff_legal]
  refine ⟨?_, ⟨rfl, rfl, by simp [maxCurrentArgs], by simp [QuadcoilArgs.requests, maxCurrentArgs, zipRequests]⟩, fun h => by cases h⟩
  have h : LegalUse (shippedRegistry FieldProblem.fns []) (some "slack") "f_max_K2" (.scalar 1) "f" :=
    legal_shipped FieldProblem.fns [] (.inr (.inl rfl)) rfl (by decide) (by simp)
  exact h

/-- The torus meets the hypotheses of the negative result. -/
example : ∃ S, quadcoilSetup (shippedRegistry FieldProblem.fns []) resolvedTorus maxCurrentArgs 7 = .ok S ∧
    ¬ IsConvexProblem S.x0.length 0 S.problem.muInit.length S.problem := by
  obtain ⟨S, hS⟩ := maxCurrentArgs_ok resolvedTorus 7
  exact ⟨S, hS, C130_max_current_violated_partial resolvedTorus [] resolvedTorus_resolved (by decide) (by norm_num) hS _ _⟩

/-- Minimise the field error, the current and the largest potential, with bounds on the potential, the field and the current. -/
noncomputable def smoothArgs (sm : Option String) : QuadcoilArgs where
  objectiveName := .many (["f_B", "f_K"] ++ if sm = some "slack" then ["f_max_Phi2", "f_max_Bnormal"] else [])
  objectiveUnit := .many [.scalar 2, .scalar (-5), .scalar 1, .scalar 1]
  objectiveWeight := .many ([1, 1 / 10] ++ if sm = some "slack" then [2, 3] else [])
  constraintName := ["Phi", "Phi", "f_Phi"] ++ if sm = some "slack" then ["f_max_Phi"] else []
  constraintType := ["<=", ">=", "<="] ++ if sm = some "slack" then ["<="] else []
  constraintUnit := [.scalar 1, .scalar 1, .scalar 4] ++ if sm = some "slack" then [.scalar (-3)] else []
  constraintValue := [1, -2, 3] ++ if sm = some "slack" then [4] else []
  smoothing := sm
  sp := ⟨1 / 10⟩
  mergeConstraints := false
  phiInit := none
  cInit := 1
  cGrowth := 2
  xstopOuter := 1
  ctolOuter := 1
  fstopInner := 1
  xstopInner := 1
  gtolInner := 1
  fstopInnerLast := 1
  xstopInnerLast := 1
  gtolInnerLast := 1
  maxiterTot := 5
  maxiterInner := 5

theorem smoothArgs_smooth (sm : Option String) (hsm : sm = none ∨ sm = some "slack") : SmoothCall (smoothArgs sm) where
  mode := hsm
  merge := rfl
  objectives := by
    intro o ho
    rcases hsm with rfl | rfl <;>
      simp only [QuadcoilArgs.objectives, smoothArgs, objectiveList, if_true, if_false, List.cons_append, List.nil_append, List.zip,
        List.zipWith, List.mem_cons, List.not_mem_nil, or_false, reduceCtorEq] at ho
    · rcases ho with rfl | rfl
      · exact ⟨by decide, ⟨2, rfl, by norm_num⟩, by norm_num⟩
      · exact ⟨by decide, ⟨-5, rfl, by norm_num⟩, by norm_num⟩
    · rcases ho with rfl | rfl | rfl | rfl
      · exact ⟨by decide, ⟨2, rfl, by norm_num⟩, by norm_num⟩
      · exact ⟨by decide, ⟨-5, rfl, by norm_num⟩, by norm_num⟩
      · exact ⟨by decide, ⟨1, rfl, by norm_num⟩, by norm_num⟩
      · exact ⟨by decide, ⟨1, rfl, by norm_num⟩, by norm_num⟩
  objective_smooth := by
    intro o ho
    rcases hsm with rfl | rfl <;>
      simp only [QuadcoilArgs.objectives, smoothArgs, objectiveList, if_true, if_false, List.cons_append, List.nil_append, List.zip,
        List.zipWith, List.mem_cons, List.not_mem_nil, or_false, reduceCtorEq] at ho
    · rcases ho with rfl | rfl
      · exact .inr (.inl (by decide))
      · exact .inr (.inl (by decide))
    · rcases ho with rfl | rfl | rfl | rfl
      · exact .inr (.inl (by decide))
      · exact .inr (.inl (by decide))
      · exact .inr (.inr ⟨rfl, by decide⟩)
      · exact .inr (.inr ⟨rfl, by decide⟩)
  constraints := by
    intro r hr
    rcases hsm with rfl | rfl <;>
      simp only [QuadcoilArgs.requests, smoothArgs, zipRequests, if_true, if_false, List.cons_append, List.nil_append, List.append_nil,
        List.zip, List.zipWith, List.mem_cons, List.not_mem_nil, or_false, reduceCtorEq] at hr
    · rcases hr with rfl | rfl | rfl
      · exact ⟨.inl (by decide), 1, rfl, by norm_num⟩
      · exact ⟨.inl (by decide), 1, rfl, by norm_num⟩
      · exact ⟨.inr (.inl (by decide)), 4, rfl, by norm_num⟩
    · rcases hr with rfl | rfl | rfl | rfl
      · exact ⟨.inl (by decide), 1, rfl, by norm_num⟩
      · exact ⟨.inl (by decide), 1, rfl, by norm_num⟩
      · exact ⟨.inr (.inl (by decide)), 4, rfl, by norm_num⟩
      · exact ⟨.inr (.inr ⟨rfl, by decide⟩), -3, rfl, by norm_num⟩

theorem smoothArgs_ok (sm : Option String) (hsm : sm = none ∨ sm = some "slack") :
    ∃ S, quadcoilSetup (shippedRegistry FieldProblem.fns []) resolvedTorus (smoothArgs sm) 7 = .ok S := by
  have L : ∀ {n uc : String} {q : Quantity FieldProblem}, (shipped FieldProblem.fns).lookup n = some q → uc ∈ q.compatibility →
      ∀ {u : UnitArg}, u ≠ .other → LegalUse (shippedRegistry FieldProblem.fns []) sm n u uc := fun h1 h2 _ h3 =>
    legal_shipped FieldProblem.fns [] (sm := sm) (by rcases hsm with rfl | rfl <;> simp [knownSmoothing]) h1 h2 h3
  rw [C131_setup_succeeds_iff_legal]
  rcases hsm with rfl | rfl
  · refine ⟨⟨rfl, by decide, fun i h1 h2 => ?_⟩, ⟨rfl, rfl, fun _ => rfl, fun r hr => ?_⟩, fun h => by cases h⟩
    · match i, h1 with
      | 0, _ => exact L rfl (by decide) (by simp)
      | 1, _ => exact L rfl (by decide) (by simp)
    · simp only [QuadcoilArgs.requests, smoothArgs, zipRequests, if_false, List.append_nil, List.zip, List.zipWith, List.mem_cons,
        List.not_mem_nil, or_false, reduceCtorEq] at hr
      rcases hr with rfl | rfl | rfl
      · exact ⟨L rfl (by decide) (by simp), by simp⟩
      · exact ⟨L rfl (by decide) (by simp), by simp⟩
      · exact ⟨L rfl (by decide) (by simp), by simp⟩
  · refine ⟨⟨rfl, by decide, fun i h1 h2 => ?_⟩, ⟨rfl, rfl, fun _ => rfl, fun r hr => ?_⟩, fun h => by cases h⟩
    · match i, h1 with
      | 0, _ => exact L rfl (by decide) (by simp)
      | 1, _ => exact L rfl (by decide) (by simp)
      | 2, _ => exact L rfl (by decide) (by simp)
      | 3, _ => exact L rfl (by decide) (by simp)
    · simp only [QuadcoilArgs.requests, smoothArgs, zipRequests, if_true, List.cons_append, List.nil_append, List.zip, List.zipWith,
        List.mem_cons, List.not_mem_nil, or_false] at hr
      rcases hr with rfl | rfl | rfl | rfl
      · exact ⟨L rfl (by decide) (by simp), by simp⟩
      · exact ⟨L rfl (by decide) (by simp), by simp⟩
      · exact ⟨L rfl (by decide) (by simp), by simp⟩
      · exact ⟨L rfl (by decide) (by simp), by simp⟩

/-- The torus meets all hypotheses, with and without auxiliary variables. -/
example (sm : Option String) (hsm : sm = none ∨ sm = some "slack") :
    ∃ S, quadcoilSetup (shippedRegistry FieldProblem.fns []) resolvedTorus (smoothArgs sm) 7 = .ok S ∧
      IsConvexProblem S.x0.length 0 S.problem.muInit.length S.problem := by
  obtain ⟨S, hS⟩ := smoothArgs_ok sm hsm
  exact ⟨S, hS, C130_smooth_convex_partial resolvedTorus [] resolvedTorus_resolved.plasma resolvedTorus_resolved.eval_nonneg
    (smoothArgs_smooth sm hsm) hS⟩

/-- Merged constraints without smoothing are refused as soon as there is an inequality. -/
example (Q : FieldProblem) (u : ℝ) :
    ¬ ∃ S, quadcoilSetup (shippedRegistry FieldProblem.fns []) Q { smoothArgs none with mergeConstraints := true } u = .ok S := by
  rw [C131_setup_succeeds_iff_legal]
  rintro ⟨-, -, h⟩
  rcases h rfl with h | ⟨h, -⟩
  · cases h
  · have := h ⟨"Phi", "<=", .scalar 1, 1⟩ (by simp [QuadcoilArgs.requests, zipRequests, smoothArgs])
    simp at this

/-- In slack mode they are refused for an objective with an auxiliary variable, even without any constraint. -/
example (Q : FieldProblem) (u : ℝ) :
    ¬ ∃ S, quadcoilSetup (shippedRegistry FieldProblem.fns []) Q { maxCurrentArgs with mergeConstraints := true } u = .ok S := by
  rw [C131_setup_succeeds_iff_legal]
  rintro ⟨-, -, h⟩
  rcases h rfl with h | ⟨-, h⟩
  · simp [maxCurrentArgs] at h
  · exact h rfl "f_max_K2" (by simp [QuadcoilArgs.objectives, objectiveList, maxCurrentArgs]) (by decide)

end Verif
