import Verif.Props.ListOrder

/-!
# Two problems whose unknowns correspond

The unknowns `d` of the first problem correspond to the unknowns `ρ d` of the second. Constraint functions correspond up to a fixed
rearrangement of their entries.
-/

namespace Verif

/-- Rearrange the first `k` entries in one way and the others in another way. -/
theorem Rearranges.append {k m : ℕ} {R T : List ℝ → List ℝ} (hR : Rearranges k R) (hT : Rearranges m T) :
    Rearranges (k + m) fun l => R (l.take k) ++ T (l.drop k) where
  perm l hl := by
    conv_rhs => rw [← List.take_append_drop k l]
    exact (hR.perm _ (by rw [List.length_take]; omega)).append (hT.perm _ (by rw [List.length_drop]; omega))
  pairs a b ha hb := by
    have e : a.zip b = (a.take k).zip (b.take k) ++ (a.drop k).zip (b.drop k) := by
      rw [← List.zip_append (by simp [ha, hb]), List.take_append_drop, List.take_append_drop]
    have t : ∀ l : List ℝ, l.length = k + m → (l.take k).length = k := fun l hl => by rw [List.length_take]; omega
    have s : ∀ l : List ℝ, l.length = k + m → (l.drop k).length = m := fun l hl => by rw [List.length_drop]; omega
    rw [e, List.zip_append (by rw [hR.length (t a ha), hR.length (t b hb)])]
    exact (hR.pairs _ _ (t a ha) (t b hb)).append (hT.pairs _ _ (s a ha) (s b hb))
  zip f a b ha hb := by
    have t : ∀ l : List ℝ, l.length = k + m → (l.take k).length = k := fun l hl => by rw [List.length_take]; omega
    have s : ∀ l : List ℝ, l.length = k + m → (l.drop k).length = m := fun l hl => by rw [List.length_drop]; omega
    rw [List.zipWith_append (by rw [hR.length (t a ha), hR.length (t b hb)]), List.take_zipWith, List.drop_zipWith,
      hR.zip _ _ _ (t a ha) (t b hb), hT.zip _ _ _ (s a ha) (s b hb)]

variable {P : Type} [HasQp P] {reg : Registry P}

/-- The entries of one function are a fixed rearrangement of the entries of the other, at corresponding unknowns of the shapes of `d0`. -/
def Corresponds (qp' qp : P) (ρ : Dofs → Dofs) (d0 : Dofs) (fn' fn : P → Dofs → Val) : Prop :=
  ∃ m R, Rearranges m R ∧ ∀ d, SameShapes d d0 → (fn qp d).entries.length = m ∧ (fn' qp' (ρ d)).entries = R (fn qp d).entries

omit [HasQp P] in
theorem Corresponds.of_eq {qp' qp : P} {ρ : Dofs → Dofs} {d0 : Dofs} {fn' fn : P → Dofs → Val} (hst : Static (fn qp))
    (h : ∀ d, fn' qp' (ρ d) = fn qp d) : Corresponds qp' qp ρ d0 fn' fn :=
  ⟨_, id, .id _, fun d hd => ⟨(hst d d0 hd).length, by rw [h]; rfl⟩⟩

omit [HasQp P] in
theorem merge_correspond {qp' qp : P} {ρ : Dofs → Dofs} {d0 : Dofs} {fs' fs : List (P → Dofs → Val)}
    (h : List.Forall₂ (Corresponds qp' qp ρ d0) fs' fs) (merge : Bool) (sm : Option String) (sp : SmoothingParams) :
    (∃ e, mergeCallables (fs'.map some) merge sm sp qp' (ρ d0) = .error e ∧ mergeCallables (fs.map some) merge sm sp qp d0 = .error e) ∨
    ∃ m R, Rearranges m R ∧ ∀ d, SameShapes d d0 → ∃ l, mergeCallables (fs.map some) merge sm sp qp d = .ok l ∧ l.length = m ∧
      mergeCallables (fs'.map some) merge sm sp qp' (ρ d) = .ok (R l) := by
  have hfm : ∀ fs : List (P → Dofs → Val), (fs.map some).filterMap id = fs := fun fs => by
    rw [List.filterMap_map]
    exact List.filterMap_some
  -- the lengths of all outputs
  have hlen : ∀ d, SameShapes d d0 → (fs'.map fun fn => ((fn qp' (ρ d)).entries).length) = fs.map fun fn => ((fn qp d0).entries).length := by
    intro d hd
    clear hfm
    induction h with
    | nil => rfl
    | cons h _ ih =>
      obtain ⟨m, R, hR, H⟩ := h
      rw [List.map_cons, List.map_cons, ih, (H d hd).2, hR.length (H d hd).1, (H d0 fun _ => .refl _).1]
  have hlen2 : ∀ d, SameShapes d d0 → (fs.map fun fn => ((fn qp d).entries).length) = fs.map fun fn => ((fn qp d0).entries).length := by
    intro d hd
    clear hfm hlen
    induction h with
    | nil => rfl
    | cons h _ ih =>
      obtain ⟨m, R, hR, H⟩ := h
      rw [List.map_cons, List.map_cons, ih, (H d hd).1, (H d0 fun _ => .refl _).1]
  -- all outputs together
  have hall : ∃ m R, Rearranges m R ∧ ∀ d, SameShapes d d0 → ((fs.map fun fn => (fn qp d).entries).flatten).length = m ∧
      (fs'.map fun fn => (fn qp' (ρ d)).entries).flatten = R (fs.map fun fn => (fn qp d).entries).flatten := by
    clear hfm hlen hlen2
    induction h with
    | nil => exact ⟨0, id, .id 0, fun d _ => ⟨rfl, rfl⟩⟩
    | cons h _ ih =>
      obtain ⟨m, R, hR, H⟩ := h
      obtain ⟨k, T, hT, H'⟩ := ih
      refine ⟨m + k, _, hR.append hT, fun d hd => ?_⟩
      obtain ⟨h1, h2⟩ := H d hd
      obtain ⟨h3, h4⟩ := H' d hd
      simp only [List.map_cons, List.flatten_cons]
      refine ⟨by rw [List.length_append, h1, h3], ?_⟩
      rw [List.take_left' h1, List.drop_left' h1, h2, h4]
  obtain ⟨m, R, hR, H⟩ := hall
  simp only [mergeCallables, hfm, List.length_map, h.length_eq]
  by_cases hnil : fs.length = 0
  · simp only [if_pos hnil]
    exact .inr ⟨0, id, .id 0, fun d _ => ⟨[], rfl, rfl, rfl⟩⟩
  simp only [if_neg hnil]
  cases merge with
  | false =>
    right
    simp only [Bool.false_eq_true, if_false]
    exact ⟨m, R, hR, fun d hd => ⟨_, rfl, (H d hd).1, by rw [(H d hd).2]⟩⟩
  | true =>
    simp only [if_true]
    by_cases hsm : sm = some "approx"
    · simp only [if_pos hsm]
      have key : ∀ (outs outs' : List (List ℝ)), outs.map List.length = outs'.map List.length →
          (outs.all fun o => decide (o.length = (outs.headD []).length)) = outs'.all fun o => decide (o.length = (outs'.headD []).length) := by
        intro outs outs' e
        have e1 : ∀ (o : List (List ℝ)) (n : ℕ), (o.all fun o => decide (o.length = n)) = (o.map List.length).all fun k => decide (k = n) := by
          intro o n
          rw [List.all_map]
          rfl
        have e2 : (outs.headD []).length = (outs'.headD []).length := by
          cases outs <;> cases outs' <;> simp at e ⊢
          exact e.1
        rw [e1, e1, e, e2]
      have k1 : ∀ d, SameShapes d d0 → ((fs'.map fun fn => (fn qp' (ρ d)).entries).all fun o =>
          decide (o.length = ((fs'.map fun fn => (fn qp' (ρ d)).entries).headD []).length)) = (fs.map fun fn => (fn qp d0).entries).all fun o =>
          decide (o.length = ((fs.map fun fn => (fn qp d0).entries).headD []).length) := by
        intro d hd
        refine key _ _ ?_
        simp only [List.map_map, Function.comp_def]
        exact hlen d hd
      have k2 : ∀ d, SameShapes d d0 → ((fs.map fun fn => (fn qp d).entries).all fun o =>
          decide (o.length = ((fs.map fun fn => (fn qp d).entries).headD []).length)) = (fs.map fun fn => (fn qp d0).entries).all fun o =>
          decide (o.length = ((fs.map fun fn => (fn qp d0).entries).headD []).length) := by
        intro d hd
        refine key _ _ ?_
        simp only [List.map_map, Function.comp_def]
        exact hlen2 d hd
      by_cases ha : ((fs.map fun fn => (fn qp d0).entries).all fun o =>
          decide (o.length = ((fs.map fun fn => (fn qp d0).entries).headD []).length)) = true
      · refine .inr ⟨1, id, .id 1, fun d hd => ?_⟩
        rw [if_pos ((k2 d hd).trans ha), if_pos ((k1 d hd).trans ha)]
        refine ⟨_, rfl, rfl, ?_⟩
        rw [(H d hd).2, maxLse_perm (hR.perm _ (H d hd).1)]
        rfl
      · left
        have h0 : SameShapes d0 d0 := fun _ => .refl _
        rw [if_neg (by rw [k1 d0 h0]; exact ha), if_neg ha]
        exact ⟨_, rfl, rfl⟩
    · simp only [if_neg hsm]
      exact .inl ⟨_, rfl, rfl⟩

/-- Two problems with the same scaled unknowns: the objectives are equal, the constraints equal up to rearrangement, and the unknowns
correspond. -/
structure CorrespondingSetup (ρ : Dofs → Dofs) (S' S : Setup) : Prop where
  unconstrained : S'.unconstrained = S.unconstrained
  x0 : S'.x0 = S.x0
  problem : ∃ m k R T, Rearranged S.x0.length m k R T S.problem S'.problem
  dofs : ∀ x : List ℝ, x.length = S.x0.length → dofsOf S'.template S'.phiUnit x = ρ (dofsOf S.template S.phiUnit x)

omit [HasQp P] in
theorem setupFrom_correspond (a : QuadcoilArgs) {u' u : ℝ} {t : List (String × Val)} {s : Val} (hphis : t.lookup "phi_scaled" = some s)
    {ρ : Dofs → Dofs} (hρ : ∀ x : List ℝ, x.length = (ravel t).length → dofsOf t u' x = ρ (dofsOf t u x)) {f' f : Dofs → Val}
    (hf : ∀ d, f' (ρ d) = f d) {gs' gs hs' hs : List (P → Dofs → Val)} {qp' qp : P}
    (hg : List.Forall₂ (Corresponds qp' qp ρ (dofsOf t u (ravel t))) gs' gs)
    (hh : List.Forall₂ (Corresponds qp' qp ρ (dofsOf t u (ravel t))) hs' hs) (nG nH : ℕ) :
    (∃ e, setupFrom a u' t f' (mergeCallables (gs'.map some) a.mergeConstraints a.smoothing a.sp qp')
        (mergeCallables (hs'.map some) false none a.sp qp') nG nH = .error e ∧
      setupFrom a u t f (mergeCallables (gs.map some) a.mergeConstraints a.smoothing a.sp qp)
        (mergeCallables (hs.map some) false none a.sp qp) nG nH = .error e) ∨
    ∃ S' S, setupFrom a u' t f' (mergeCallables (gs'.map some) a.mergeConstraints a.smoothing a.sp qp')
        (mergeCallables (hs'.map some) false none a.sp qp') nG nH = .ok S' ∧
      setupFrom a u t f (mergeCallables (gs.map some) a.mergeConstraints a.smoothing a.sp qp)
        (mergeCallables (hs.map some) false none a.sp qp) nG nH = .ok S ∧ CorrespondingSetup ρ S' S := by
  have hshape : ∀ x : List ℝ, x.length = (ravel t).length → SameShapes (dofsOf t u x) (dofsOf t u (ravel t)) :=
    fun x hx => dofsOf_sameShapes hx rfl hphis
  have hg' := merge_correspond hg a.mergeConstraints a.smoothing a.sp
  have hh' := merge_correspond hh false none a.sp
  generalize mergeCallables (gs'.map some) a.mergeConstraints a.smoothing a.sp qp' = g' at hg' ⊢
  generalize mergeCallables (gs.map some) a.mergeConstraints a.smoothing a.sp qp = g at hg' ⊢
  generalize mergeCallables (hs'.map some) false none a.sp qp' = h' at hh' ⊢
  generalize mergeCallables (hs.map some) false none a.sp qp = h at hh' ⊢
  unfold setupFrom
  simp only [bind, Except.bind, hρ _ rfl, hf]
  rcases hg' with ⟨e, h1, h2⟩ | ⟨m, R, hR, H⟩
  · rw [h1, h2]
    exact .inl ⟨_, rfl, rfl⟩
  obtain ⟨g0, g1, g3, g2⟩ := H _ (fun _ => .refl _)
  rw [g1, g2]
  rcases hh' with ⟨e, h1, h2⟩ | ⟨k, T, hT, H'⟩
  · rw [h1, h2]
    exact .inl ⟨_, rfl, rfl⟩
  obtain ⟨h0, k1, k3, k2⟩ := H' _ (fun _ => .refl _)
  rw [k1, k2]
  simp only
  by_cases hsc : (f (dofsOf t u (ravel t))).isScalar = false
  · simp only [if_pos hsc]
    exact .inl ⟨_, rfl, rfl⟩
  · simp only [if_neg hsc]
    refine .inr ⟨_, _, rfl, rfl, rfl, rfl, ⟨m, k, R, T, ?_⟩, hρ⟩
    refine ⟨hR, hT, fun x hx => ?_, fun x hx => ?_, fun x hx => ?_, fun x hx => ?_, fun x hx => ?_, ?_, ?_, ?_⟩
    · simp only [hρ x hx, hf]
    · obtain ⟨l, e1, e2, -⟩ := H _ (hshape x hx)
      simp only [e1, okList, e2]
    · obtain ⟨l, e1, e2, -⟩ := H' _ (hshape x hx)
      simp only [e1, okList, e2]
    · obtain ⟨l, e1, -, e2⟩ := H _ (hshape x hx)
      simp only [hρ x hx, e1, okList, e2]
    · obtain ⟨l, e1, -, e2⟩ := H' _ (hshape x hx)
      simp only [hρ x hx, e1, okList, e2]
    · simp [g3]
    · simp [k3]
    · refine ⟨fun x => okList (g' (dofsOf t u' x)), fun x => okList (h' (dofsOf t u' x)), fun x => (f' (dofsOf t u' x)).entries.headD 0, ?_⟩
      simp only [hR.length g3, hT.length k3, g3, k3, replicate_rearrange hR, replicate_rearrange hT]

theorem quadcoilSolve_correspond {opt : Optimizer ℝ} {gradOp : (List ℝ → ℝ) → List ℝ → List ℝ} (hsh : opt.ShapeContract gradOp)
    (hloc : opt.LocalContract gradOp) {ρ : Dofs → Dofs} {S' S : Setup} (h : CorrespondingSetup ρ S' S) :
    (quadcoilSolve opt gradOp S' = none ∧ quadcoilSolve opt gradOp S = none) ∨
    ∃ r' r x, quadcoilSolve opt gradOp S' = some (r', ρ (dofsOf S.template S.phiUnit x)) ∧
      quadcoilSolve opt gradOp S = some (r, dofsOf S.template S.phiUnit x) ∧ r'.SameUpToOrder r := by
  obtain ⟨m, k, R, T, hp⟩ := h.problem
  unfold quadcoilSolve
  rw [h.unconstrained, h.x0]
  split
  · obtain ⟨g', h', f', e⟩ := hp.rest
    have t1 : S'.problem.maxiterTot = S.problem.maxiterTot := by rw [e]
    have t2 : S'.problem.fstopInnerLast = S.problem.fstopInnerLast := by rw [e]
    have t3 : S'.problem.xstopInnerLast = S.problem.xstopInnerLast := by rw [e]
    have t4 : S'.problem.gtolInner = S.problem.gtolInner := by rw [e]
    rw [t1, t2, t3, t4, runOpt_local hsh hloc hp.f]
    cases hr : runOpt opt gradOp S.problem.f S.x0 ⟨S.problem.maxiterTot, S.problem.fstopInnerLast, S.problem.xstopInnerLast,
      S.problem.gtolInner⟩ with
    | none => exact .inl ⟨rfl, rfl⟩
    | some r =>
      refine .inr ⟨.inner r, .inner r, r.x, ?_, rfl, .inner r⟩
      simp only [Option.map_some, Option.some.injEq, Prod.mk.injEq, true_and]
      exact h.dofs _ (runOpt_length hsh hr)
  · rw [solve_rearrange hsh hloc hp rfl]
    cases hs : solveConstrained opt gradOp S.problem gplusHard S.x0 with
    | none => exact .inl ⟨rfl, rfl⟩
    | some s =>
      have hf := solve_fits hsh hloc hp rfl hs
      refine .inr ⟨.outer (s.rearrange R T), .outer s, s.finX, ?_, rfl, .outer (hf.sameUpToOrder hp.ineq hp.eq)⟩
      simp only [Option.map_some, Option.some.injEq, Prod.mk.injEq, true_and]
      exact h.dofs _ hf.x

end Verif
