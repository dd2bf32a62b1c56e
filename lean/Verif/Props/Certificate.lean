import Verif.Model.Quadcoil
import Verif.Props.Slack
import Verif.Props.Parsing
import Verif.Props.SolverOuter
import Verif.Lemmas.Lse
import Verif.Lemmas.Flatten
import Verif.Lemmas.Shape
import Verif.Spec.Toy

/-!
# C105: the reported violations bound the violations of the user's constraints
-/

namespace Verif

set_option linter.unusedSectionVars false

variable {P : Type} [HasQp P]

/-- Every request contributes its functions to the parsed constraints. -/
theorem parse_mem (reg : Registry P) (sm : Option String) (sp : SmoothingParams) (rs : List Request) (acc p : Parsed P)
    (h : rs.foldlM (parseStep reg sm sp) acc = .ok p) :
    (∀ g ∈ acc.g, g ∈ p.g) ∧ (∀ k ∈ acc.h, k ∈ p.h) ∧ ∀ r ∈ rs, ∃ a, addQuantity reg r.name r.unit r.type sm sp = .ok a ∧
      (∀ g ∈ a.g, g ∈ p.g) ∧ (∀ k ∈ a.h, k ∈ p.h) ∧
      ((r.type = "==" ∧ consFunc a r.value 1 sm sp ∈ p.h) ∨ (r.type = "<=" ∧ consFunc a r.value 1 sm sp ∈ p.g) ∨
        (r.type = ">=" ∧ consFunc a r.value (-1) sm sp ∈ p.g)) := by
  induction rs generalizing acc with
  | nil =>
    rw [foldlM_except_nil] at h
    cases h
    simp
  | cons r rs ih =>
    obtain ⟨b, hb, hrest⟩ := (foldlM_except_cons _ _ _ _ _).1 h
    obtain ⟨h1, h2, h3⟩ := ih b hrest
    obtain ⟨a, ha, hc⟩ := parseStep_ok.1 hb
    have key : (∀ g ∈ acc.g ++ a.g, g ∈ b.g) ∧ (∀ k ∈ acc.h ++ a.h, k ∈ b.h) ∧
        ((r.type = "==" ∧ consFunc a r.value 1 sm sp ∈ b.h) ∨ (r.type = "<=" ∧ consFunc a r.value 1 sm sp ∈ b.g) ∨
        (r.type = ">=" ∧ consFunc a r.value (-1) sm sp ∈ b.g)) := by
      rcases hc with ⟨ht, rfl⟩ | ⟨ht, rfl⟩ | ⟨ht, rfl⟩
      · exact ⟨fun g hg => hg, fun g hg => List.mem_append_left _ hg, Or.inl ⟨ht, by simp⟩⟩
      · exact ⟨fun g hg => List.mem_append_left _ hg, fun g hg => hg, Or.inr (Or.inl ⟨ht, by simp⟩)⟩
      · exact ⟨fun g hg => List.mem_append_left _ hg, fun g hg => hg, Or.inr (Or.inr ⟨ht, by simp⟩)⟩
    refine ⟨fun g hg => h1 g (key.1 g (List.mem_append_left _ hg)), fun g hg => h2 g (key.2.1 g (List.mem_append_left _ hg)),
      fun r' hr' => ?_⟩
    rcases List.mem_cons.1 hr' with rfl | hr'
    · refine ⟨a, ha, fun g hg => h1 g (key.1 g (List.mem_append_right _ hg)),
        fun g hg => h2 g (key.2.1 g (List.mem_append_right _ hg)), ?_⟩
      rcases key.2.2 with ⟨ht, hm⟩ | ⟨ht, hm⟩ | ⟨ht, hm⟩
      · exact Or.inl ⟨ht, h2 _ hm⟩
      · exact Or.inr (Or.inl ⟨ht, h1 _ hm⟩)
      · exact Or.inr (Or.inr ⟨ht, h1 _ hm⟩)
    · exact h3 r' hr'

/-- What a successful setup consists of. -/
theorem quadcoilSetup_ok {reg : Registry P} {qp : P} {a : QuadcoilArgs} {phiUnit : ℝ} {S : Setup}
    (h : quadcoilSetup reg qp a phiUnit = .ok S) :
    ∃ o c, parseObjectives reg a.objectiveName a.objectiveUnit
          (match a.objectiveName with | .one _ => .one 1 | .many _ => a.objectiveWeight) a.smoothing a.sp = .ok o ∧
      parseConstraints reg a.constraintName a.constraintType a.constraintUnit
        (if a.constraintName.length > 0 then a.constraintValue else []) a.smoothing a.sp = .ok c ∧
      S.phiUnit = phiUnit ∧
      S.template = xTemplate qp (a.phiInit.getD (List.replicate (HasQp.ndofs qp) 0)) phiUnit (joinParsed o c).slack ∧
      S.x0 = ravel S.template ∧
      S.unconstrained = ((if a.mergeConstraints then 1 else (joinParsed o c).g.length) == 0 && (joinParsed o c).h.length == 0) ∧
      (∃ l, mergeCallables ((joinParsed o c).g.map some) a.mergeConstraints a.smoothing a.sp qp
        (dofsOf S.template phiUnit S.x0) = .ok l ∧ S.problem.muInit = List.replicate l.length 0) ∧
      ((joinParsed o c).f qp (dofsOf S.template phiUnit S.x0)).isScalar = true ∧
      (∀ x, S.problem.f x = ((joinParsed o c).f qp (dofsOf S.template phiUnit x)).entries.headD 0) ∧
      (∀ x, S.problem.g x = okList (mergeCallables ((joinParsed o c).g.map some) a.mergeConstraints a.smoothing a.sp qp
        (dofsOf S.template phiUnit x))) ∧
      (∀ x, S.problem.h x = okList (mergeCallables ((joinParsed o c).h.map some) false none a.sp qp
        (dofsOf S.template phiUnit x))) := by
  unfold quadcoilSetup fghFromY at h
  simp only [bind, Except.bind] at h
  split at h
  · cases h
  rename_i p hp
  split at hp
  · cases hp
  rename_i o ho
  split at hp
  · cases hp
  rename_i c hc
  cases hp
  simp only at h
  split at h
  · cases h
  rename_i g0 hg0
  split at h
  · cases h
  rename_i h0 hh0
  split at h
  · cases h
  rename_i hf
  cases h
  exact ⟨o, c, ho, hc, rfl, rfl, rfl, rfl, ⟨g0, hg0, rfl⟩, by simpa using hf, fun _ => rfl, fun _ => rfl, fun _ => rfl⟩

/-- In approx mode a quantity brings no constraints of its own. -/
theorem parseObjLoop_g {reg : Registry P} {sm : Option String} {sp : SmoothingParams} (hsm : sm ≠ some "slack") (ns : List String) (us : List UnitArg)
    (acc r : ObjAcc P) (h : parseObjLoop reg sm sp ns us acc = .ok r) : r.g = acc.g ∧ r.h = acc.h := by
  induction ns generalizing us acc with
  | nil =>
    simp only [parseObjLoop, Except.ok.injEq] at h
    rw [h]
    exact ⟨rfl, rfl⟩
  | cons n ns ih =>
    cases us with
    | nil => simp [parseObjLoop] at h
    | cons u us =>
      simp only [parseObjLoop] at h
      cases ha : addQuantity reg n u "f" sm sp with
      | error e => simp [ha, bind, Except.bind] at h
      | ok a =>
        simp only [ha, bind, Except.bind] at h
        obtain ⟨q, w, -, -, -, -, rfl⟩ := addQuantity_ok.1 ha
        have := ih us _ h
        by_cases hn : sm = none <;> simpa [addedOf, hsm, hn] using this

theorem parseObjectives_g {reg : Registry P} {sm : Option String} {sp : SmoothingParams} (hsm : sm ≠ some "slack")
    {names : OneOrMany String} {units : OneOrMany UnitArg} {weights : OneOrMany ℝ} {o : ParsedObj P}
    (h : parseObjectives reg names units weights sm sp = .ok o) : o.g = [] ∧ o.h = [] := by
  have run : ∀ (ns : List String) (us : List UnitArg) (ws : List ℝ),
      (if ns.length ≠ ws.length then .error .valueError
        else do
          let acc ← parseObjLoop reg sm sp ns us ⟨[], [], [], []⟩
          .ok ⟨fTot acc.f ws, acc.g, acc.h, acc.slack⟩ : Except PyErr (ParsedObj P)) = .ok o → o.g = [] ∧ o.h = [] := by
    intro ns us ws h
    split at h
    · cases h
    cases hl : parseObjLoop reg sm sp ns us ⟨[], [], [], []⟩ with
    | error e => simp [hl, bind, Except.bind] at h
    | ok acc =>
      simp only [hl, bind, Except.bind, Except.ok.injEq] at h
      rw [← h]
      exact parseObjLoop_g hsm ns us _ acc hl
  unfold parseObjectives at h
  simp only at h
  split at h
  · exact run _ _ _ h
  · exact run _ _ _ h
  · cases h
  · exact run _ _ _ h
  · split at h
    · cases h
    · split at h
      · exact run _ _ _ h
      · cases h

/-- If all entries of the merged output are at most `tau`, so are all entries of every function. -/
theorem merged_bound {fs : List (P → Dofs → Val)} {mc : Bool} {sm : Option String} {sp : SmoothingParams} {qp : P} {d0 d : Dofs} {τ : ℝ}
    (he : 0 < sp.lseEpsilon) {l : List ℝ} (hok : mergeCallables (fs.map some) mc sm sp qp d0 = .ok l)
    (hone : sm = some "approx" → mc = true → ∀ f ∈ fs, (f qp d).entries.length = 1)
    (h : ∀ v ∈ okList (mergeCallables (fs.map some) mc sm sp qp d), v ≤ τ) : ∀ f ∈ fs, ∀ v ∈ (f qp d).entries, v ≤ τ := by
  intro f hf v hv
  have hne : fs ≠ [] := List.ne_nil_of_mem hf
  cases mc with
  | false =>
    rw [C27_merge_concatenates] at h
    refine h v ?_
    simp only [okList, List.flatMap_map, List.mem_flatMap]
    exact ⟨f, hf, hv⟩
  | true =>
    by_cases hsm : sm = some "approx"
    · subst hsm
      obtain ⟨m, hm, hle, -⟩ := C27_merge_bounds fs hne sp he qp d 1 one_pos (hone rfl rfl)
      rw [hm] at h
      exact (hle f hf v hv).trans (h m (by simp [okList]))
    · rw [C27_merge_refused fs hne sm hsm] at hok
      cases hok

/-- A returned status gives the values of all constraint functions at the returned dictionary. -/
theorem reported_bounds {reg : Registry P} {qp : P} {a : QuadcoilArgs} {phiUnit : ℝ} {S : Setup} {opt : Optimizer ℝ}
    (hcount : opt.CountContract) {gradOp : (List ℝ → ℝ) → List ℝ → List ℝ} {st : Status ℝ} {dofs : Dofs} {τ : ℝ}
    (hs : quadcoilSetup reg qp a phiUnit = .ok S) (hrun : quadcoilSolve opt gradOp S = some (.outer st, dofs))
    (he : 0 < a.sp.lseEpsilon) (hg : ∀ v ∈ st.finG, v ≤ τ) (hh : ∀ v ∈ st.finH, |v| ≤ τ) :
    ∀ r ∈ zipRequests a.constraintName a.constraintType a.constraintUnit a.constraintValue,
      ∃ A, addQuantity reg r.name r.unit r.type a.smoothing a.sp = .ok A ∧
        (∀ g ∈ A.g, ∀ v ∈ (g qp dofs).entries, v ≤ τ) ∧
        ((r.type = "==" ∧ ∀ v ∈ (consFunc A r.value 1 a.smoothing a.sp qp dofs).entries, |v| ≤ τ) ∨
          (r.type = "<=" ∧ ∀ v ∈ (consFunc A r.value 1 a.smoothing a.sp qp dofs).entries, v ≤ τ) ∨
          (r.type = ">=" ∧ ∀ v ∈ (consFunc A r.value (-1) a.smoothing a.sp qp dofs).entries, v ≤ τ)) := by
  obtain ⟨o, c, ho, hc, hpu, -, -, -, ⟨l, hl, -⟩, -, -, hG, hH⟩ := quadcoilSetup_ok hs
  unfold quadcoilSolve at hrun
  by_cases hun : S.unconstrained = true
  · rw [if_pos hun] at hrun
    cases hr : runOpt opt gradOp S.problem.f S.x0 ⟨S.problem.maxiterTot, S.problem.fstopInnerLast, S.problem.xstopInnerLast,
      S.problem.gtolInner⟩ <;> simp [hr] at hrun
  rw [if_neg hun] at hrun
  cases hr : solveConstrained opt gradOp S.problem gplusHard S.x0 with
  | none => simp [hr] at hrun
  | some st' =>
    simp only [hr, Option.map_some, Option.some.injEq, Prod.mk.injEq, SolveResults.outer.injEq, SolveResults.x] at hrun
    obtain ⟨rfl, rfl⟩ := hrun
    obtain ⟨-, hfg, hfh, -⟩ := C08_status_consistent opt hcount gradOp S.problem gplusHard S.x0 st' hr
    rw [hfg, hG] at hg
    rw [hfh, hH] at hh
    rw [hpu]
    have hone : a.smoothing = some "approx" → a.mergeConstraints = true →
        ∀ f ∈ (joinParsed o c).g, (f qp (dofsOf S.template phiUnit st'.finX)).entries.length = 1 := by
      intro hsm _ f hf
      have h0 := (parseObjectives_g (by rw [hsm]; simp) ho).1
      simp only [joinParsed, h0, List.nil_append] at hf
      exact C27_parsed_constraints_mergeable reg _ _ _ _ a.sp c (hsm ▸ hc) qp _ f hf
    have hgs := merged_bound he hl hone hg
    have hhs : ∀ k ∈ (joinParsed o c).h, ∀ v ∈ (k qp (dofsOf S.template phiUnit st'.finX)).entries, |v| ≤ τ := by
      intro k hk v hv
      rw [C27_merge_concatenates] at hh
      refine hh v ?_
      simp only [okList, List.flatMap_map, List.mem_flatMap]
      exact ⟨k, hk, hv⟩
    intro r hr'
    have hpos : a.constraintName.length > 0 := by
      rcases Nat.eq_zero_or_pos a.constraintName.length with h0 | h0
      · rw [List.length_eq_zero_iff.1 h0] at hr'
        simp [zipRequests] at hr'
      · exact h0
    rw [if_pos hpos] at hc
    unfold parseConstraints at hc
    split at hc
    · cases hc
    obtain ⟨-, -, hmem⟩ := parse_mem reg a.smoothing a.sp _ _ c hc
    obtain ⟨A, hA, h1, -, h3⟩ := hmem r hr'
    refine ⟨A, hA, fun g hg' => hgs g ?_, ?_⟩
    · simpa [joinParsed] using Or.inr (h1 g hg')
    · rcases h3 with ⟨ht, hm⟩ | ⟨ht, hm⟩ | ⟨ht, hm⟩
      · exact Or.inl ⟨ht, hhs _ (by simpa [joinParsed] using Or.inr hm)⟩
      · exact Or.inr (Or.inl ⟨ht, hgs _ (by simpa [joinParsed] using Or.inr hm)⟩)
      · exact Or.inr (Or.inr ⟨ht, hgs _ (by simpa [joinParsed] using Or.inr hm)⟩)

/-! ## From the generated functions back to the request -/

theorem consOut_entries {A : Added P} {value sign w : ℝ} {qp : P} {d : Dofs} (hu : A.unit qp = .scalar w) :
    (Val.map (fun x => sign * x) (Val.map2 (· - ·) (A.val qp d) (Val.map2 (· / ·) (Val.scalar value) (A.unit qp)))).entries =
      (A.val qp d).entries.map fun y => sign * (y - value / w) := by
  rw [hu]
  cases A.val qp d <;> simp [Val.map2, Val.map, Val.entries]

theorem consOut_isScalar {A : Added P} {value sign w : ℝ} {qp : P} {d : Dofs} (hu : A.unit qp = .scalar w) :
    (Val.map (fun x => sign * x) (Val.map2 (· - ·) (A.val qp d) (Val.map2 (· / ·) (Val.scalar value) (A.unit qp)))).isScalar =
      (A.val qp d).isScalar := by
  rw [hu]
  cases A.val qp d <;> rfl

/-- An upper bound on a constraint function bounds every entry of the scaled quantity. -/
theorem cons_upper {A : Added P} {value sign w τ : ℝ} {sm : Option String} {sp : SmoothingParams} {qp : P} {d : Dofs}
    (he : 0 < sp.lseEpsilon) (hu : A.unit qp = .scalar w) (h : ∀ v ∈ (consFunc A value sign sm sp qp d).entries, v ≤ τ) :
    ∀ y ∈ (A.val qp d).entries, sign * (y - value / w) ≤ τ := by
  intro y hy
  have hm : sign * (y - value / w) ∈ (A.val qp d).entries.map fun y => sign * (y - value / w) := List.mem_map.2 ⟨y, hy, rfl⟩
  rw [← consOut_entries hu] at hm
  unfold consFunc at h
  simp only at h
  split at h
  · exact (le_maxLse he hm).trans (h _ (by simp [Val.entries]))
  · exact h _ hm

/-- A bound on the size of a constraint function that is not a smooth maximum. -/
theorem cons_abs {A : Added P} {value sign w τ : ℝ} {sm : Option String} {sp : SmoothingParams} {qp : P} {d : Dofs}
    (hs : sm = some "approx" → (A.val qp d).isScalar = true) (hu : A.unit qp = .scalar w)
    (h : ∀ v ∈ (consFunc A value sign sm sp qp d).entries, |v| ≤ τ) :
    ∀ y ∈ (A.val qp d).entries, |sign * (y - value / w)| ≤ τ := by
  intro y hy
  have hm : sign * (y - value / w) ∈ (A.val qp d).entries.map fun y => sign * (y - value / w) := List.mem_map.2 ⟨y, hy, rfl⟩
  rw [← consOut_entries hu] at hm
  unfold consFunc at h
  simp only at h
  split at h
  · rename_i hc
    rw [consOut_isScalar hu, hs hc.1] at hc
    simp at hc
  · exact h _ hm

/-- What is known about a request with unit `u` after a run. -/
theorem reported_request {reg : Registry P} {qp : P} {a : QuadcoilArgs} {phiUnit : ℝ} {S : Setup} {opt : Optimizer ℝ}
    (hcount : opt.CountContract) {gradOp : (List ℝ → ℝ) → List ℝ → List ℝ} {st : Status ℝ} {dofs : Dofs} {τ : ℝ}
    (hs : quadcoilSetup reg qp a phiUnit = .ok S) (hrun : quadcoilSolve opt gradOp S = some (.outer st, dofs))
    (he : 0 < a.sp.lseEpsilon) (hg : ∀ v ∈ st.finG, v ≤ τ) (hh : ∀ v ∈ st.finH, |v| ≤ τ)
    {r : Request} (hr : r ∈ zipRequests a.constraintName a.constraintType a.constraintUnit a.constraintValue)
    {u : ℝ} (hu : r.unit = .scalar u) {q : Quantity P} (hq : reg r.name = some (.quantity q)) :
    knownSmoothing a.smoothing ∧ r.type ∈ q.compatibility ∧
      (∀ g ∈ (addedOf q a.smoothing a.sp fun _ => Val.scalar |u|).g, ∀ v ∈ (g qp dofs).entries, v ≤ τ) ∧
      (r.type = "<=" → ∀ y ∈ ((addedOf q a.smoothing a.sp fun _ => Val.scalar |u|).val qp dofs).entries, y ≤ r.value / |u| + τ) ∧
      (r.type = ">=" → ∀ y ∈ ((addedOf q a.smoothing a.sp fun _ => Val.scalar |u|).val qp dofs).entries, r.value / |u| - τ ≤ y) ∧
      (r.type = "==" → (a.smoothing = some "approx" →
          ((addedOf q a.smoothing a.sp fun _ => Val.scalar |u|).val qp dofs).isScalar = true) →
        ∀ y ∈ ((addedOf q a.smoothing a.sp fun _ => Val.scalar |u|).val qp dofs).entries, |y - r.value / abs u| ≤ τ) := by
  obtain ⟨A, hA, h1, h2⟩ := reported_bounds hcount hs hrun he hg hh r hr
  obtain ⟨q', w, hq', hsm, hcomp, hw, rfl⟩ := addQuantity_ok.1 hA
  rw [hq] at hq'
  cases hq'
  rw [hu] at hw
  simp only [unitCallable, Except.ok.injEq] at hw
  subst hw
  have hunit : (addedOf q a.smoothing a.sp fun _ => Val.scalar |u|).unit qp = .scalar |u| := by
    unfold addedOf
    split
    · rfl
    · split <;> rfl
  refine ⟨hsm, hcomp, h1, fun ht y hy => ?_, fun ht y hy => ?_, fun ht hsc y hy => ?_⟩
  · rcases h2 with ⟨ht', h⟩ | ⟨-, h⟩ | ⟨ht', h⟩
    · rw [ht] at ht'; exact absurd ht' (by decide)
    · have := cons_upper he hunit h y hy
      linarith
    · rw [ht] at ht'; exact absurd ht' (by decide)
  · rcases h2 with ⟨ht', h⟩ | ⟨ht', h⟩ | ⟨-, h⟩
    · rw [ht] at ht'; exact absurd ht' (by decide)
    · rw [ht] at ht'; exact absurd ht' (by decide)
    · have := cons_upper he hunit h y hy
      linarith
  · rcases h2 with ⟨-, h⟩ | ⟨ht', h⟩ | ⟨ht', h⟩
    · simpa using cons_abs hsc hunit h y hy
    · rw [ht] at ht'; exact absurd ht' (by decide)
    · rw [ht] at ht'; exact absurd ht' (by decide)

/-- **C105 (no reformulation).** Without smoothing, or for a quantity that needs none: if the run reports inequality values of at
most `tau` and equality values of at most `tau` in size, the requested constraint holds at the returned potential up to `tau`
times the unit of the request. In approx mode an equality must be of a number: the code replaces a field by its smooth maximum. -/
theorem C105_certificate {reg : Registry P} {qp : P} {a : QuadcoilArgs} {phiUnit : ℝ} {S : Setup} {opt : Optimizer ℝ}
    (hcount : opt.CountContract) {gradOp : (List ℝ → ℝ) → List ℝ → List ℝ} {st : Status ℝ} {dofs : Dofs} {τ : ℝ}
    (hs : quadcoilSetup reg qp a phiUnit = .ok S) (hrun : quadcoilSolve opt gradOp S = some (.outer st, dofs))
    (he : 0 < a.sp.lseEpsilon) (hg : ∀ v ∈ st.finG, v ≤ τ) (hh : ∀ v ∈ st.finH, |v| ≤ τ)
    {r : Request} (hr : r ∈ zipRequests a.constraintName a.constraintType a.constraintUnit a.constraintValue)
    {u : ℝ} (hu : r.unit = .scalar u) (hu0 : u ≠ 0) {q : Quantity P} (hq : reg r.name = some (.quantity q))
    (hkind : a.smoothing = none ∨ ∃ func comp, q = Quantity.generateC2 func comp)
    (hnum : r.type = "==" → a.smoothing = some "approx" → (q.rawF qp dofs).isScalar = true) :
    FieldConstraintWithin r.type r.value (τ * |u|) (q.rawF qp dofs).entries := by
  have hw : 0 < |u| := abs_pos.2 hu0
  obtain ⟨-, -, -, h1, h2, h3⟩ := reported_request hcount hs hrun he hg hh hr hu hq
  have hval : (addedOf q a.smoothing a.sp fun _ => Val.scalar |u|).val qp dofs =
      Val.map2 (· / ·) (q.rawF qp dofs) (Val.scalar |u|) := by
    rcases hkind with h | ⟨func, comp, rfl⟩
    · rw [h]; rfl
    · unfold addedOf
      split
      · rfl
      · split <;> rfl
  have hent : (Val.map2 (· / ·) (q.rawF qp dofs) (Val.scalar |u|)).entries = (q.rawF qp dofs).entries.map fun x => x / |u| := by
    cases q.rawF qp dofs <;> rfl
  have hscal : (Val.map2 (· / ·) (q.rawF qp dofs) (Val.scalar |u|)).isScalar = (q.rawF qp dofs).isScalar := by
    cases q.rawF qp dofs <;> rfl
  rw [hval] at h1 h2 h3
  rw [hent] at h1 h2 h3
  rw [hscal] at h3
  refine ⟨fun ht x hx => ?_, fun ht x hx => ?_, fun ht x hx => ?_⟩
  · have := h1 ht _ (List.mem_map.2 ⟨x, hx, rfl⟩)
    have h' := (div_le_iff₀ hw).1 this
    rwa [add_mul, div_mul_cancel₀ _ hw.ne'] at h'
  · have := h2 ht _ (List.mem_map.2 ⟨x, hx, rfl⟩)
    have h' := (le_div_iff₀ hw).1 this
    rwa [sub_mul, div_mul_cancel₀ _ hw.ne'] at h'
  · have := h3 ht (hnum ht) _ (List.mem_map.2 ⟨x, hx, rfl⟩)
    rw [← sub_div, abs_div, abs_of_pos hw, div_le_iff₀ hw, abs_le] at this
    constructor <;> linarith [this.1, this.2]

/-! ## Quantities with an auxiliary variable -/

/-- The auxiliary variables of a request are among the unknowns. -/
theorem request_aux {reg : Registry P} (hreg : AuxNames reg) {qp : P} {a : QuadcoilArgs} {phiUnit : ℝ} {S : Setup}
    (hs : quadcoilSetup reg qp a phiUnit = .ok S) (hsm : a.smoothing = some "slack")
    {r : Request} (hr : r ∈ zipRequests a.constraintName a.constraintType a.constraintUnit a.constraintValue)
    {q : Quantity P} (hq : reg r.name = some (.quantity q)) {aux : String} (haux : aux ∈ (q.slackInit.getD []).map Prod.fst) :
    ∃ o c fn, S.template = xTemplate qp (a.phiInit.getD (List.replicate (HasQp.ndofs qp) 0)) phiUnit (joinParsed o c).slack ∧
      SlackOk reg (joinParsed o c).slack ∧ (joinParsed o c).slack.lookup aux = some fn ∧ FromReg reg aux fn ∧
      S.x0 = ravel S.template := by
  obtain ⟨o, c, ho, hc, -, ht, hx0, -⟩ := quadcoilSetup_ok hs
  have hok : SlackOk reg (joinParsed o c).slack := slackOk_union (slackOk_objectives hreg ho) (slackOk_constraints hreg hc)
  have hpos : a.constraintName.length > 0 := by
    rcases Nat.eq_zero_or_pos a.constraintName.length with h0 | h0
    · rw [List.length_eq_zero_iff.1 h0] at hr
      simp [zipRequests] at hr
    · exact h0
  rw [if_pos hpos] at hc
  have hmem : aux ∈ (joinParsed o c).slack.map Prod.fst := by
    unfold joinParsed
    rw [mem_keys_union]
    right
    unfold parseConstraints at hc
    split at hc
    · cases hc
    · rw [foldlM_slack_keys reg a.smoothing a.sp _ _ _ hc]
      exact Or.inr ⟨r, hr, q, hq, by simp [auxOf, hsm, haux]⟩
  obtain ⟨fn, hfn⟩ := Option.isSome_iff_exists.1 ((lookup_isSome_iff _ _).2 hmem)
  exact ⟨o, c, fn, ht, hok, hfn, hok.2 _ _ hfn, hx0⟩

/-- No other quantity of the table uses the auxiliary variable. -/
def OwnsAux (reg : Registry P) (q : Quantity P) (aux : String) : Prop :=
  ∀ n q' init, reg n = some (.quantity q') → (aux, init) ∈ q'.slackInit.getD [] → q' = q

theorem solve_dofs {opt : Optimizer ℝ} {gradOp : (List ℝ → ℝ) → List ℝ → List ℝ} {S : Setup} {st : Status ℝ} {dofs : Dofs}
    (hrun : quadcoilSolve opt gradOp S = some (.outer st, dofs)) : dofs = dofsOf S.template S.phiUnit st.finX := by
  unfold quadcoilSolve at hrun
  rw [Option.map_eq_some_iff] at hrun
  obtain ⟨r, -, he⟩ := hrun
  cases he
  rfl

theorem solve_finX_length {opt : Optimizer ℝ} {gradOp : (List ℝ → ℝ) → List ℝ → List ℝ} (hshape : opt.ShapeContract gradOp)
    {S : Setup} {st : Status ℝ} {dofs : Dofs} (hrun : quadcoilSolve opt gradOp S = some (.outer st, dofs)) :
    st.finX.length = S.x0.length := by
  unfold quadcoilSolve at hrun
  rw [Option.map_eq_some_iff] at hrun
  obtain ⟨r, hr, he⟩ := hrun
  cases he
  split at hr
  · rw [Option.map_eq_some_iff] at hr
    obtain ⟨_, -, h⟩ := hr
    cases h
  · rw [Option.map_eq_some_iff] at hr
    obtain ⟨s, hs, h⟩ := hr
    cases h
    exact solve_length hshape hs

/-- A unit of a quantity whose raw value is a number is a number. -/
theorem unit_scalar {q : Quantity P} (hraw : ∀ qp d, (q.rawF qp d).isScalar = true) {unit : UnitArg} {u : P → Val}
    (hu : unitCallable q unit = .ok u) (qp : P) : ∃ w, u qp = .scalar w := by
  cases unit with
  | none =>
    simp only [unitCallable, Except.ok.injEq] at hu
    rw [← hu]
    unfold Quantity.call
    have := hraw qp (phiOnly (phiOnly (Val.array (List.replicate (HasQp.ndofs qp) 0)) "phi"))
    show ∃ w, q.rawF qp (phiOnly (phiOnly (Val.array (List.replicate (HasQp.ndofs qp) 0)) "phi")) = .scalar w
    revert this
    generalize q.rawF qp (phiOnly (phiOnly (Val.array (List.replicate (HasQp.ndofs qp) 0)) "phi")) = v
    cases v with
    | scalar w => exact fun _ => ⟨w, rfl⟩
    | array w => simp [Val.isScalar]
  | scalar x =>
    simp only [unitCallable, Except.ok.injEq] at hu
    rw [← hu]
    exact ⟨_, rfl⟩
  | other => simp [unitCallable] at hu

/-- The auxiliary variable of a maximum is a number at the returned point. -/
theorem max_aux_scalar {reg : Registry P} (hreg : AuxNames reg) {qp : P} {a : QuadcoilArgs} {phiUnit : ℝ} {S : Setup}
    {opt : Optimizer ℝ} {gradOp : (List ℝ → ℝ) → List ℝ → List ℝ} {st : Status ℝ} {dofs : Dofs}
    (hs : quadcoilSetup reg qp a phiUnit = .ok S) (hrun : quadcoilSolve opt gradOp S = some (.outer st, dofs))
    (hsm : a.smoothing = some "slack")
    {r : Request} (hr : r ∈ zipRequests a.constraintName a.constraintType a.constraintUnit a.constraintValue)
    {q : Quantity P} (hq : reg r.name = some (.quantity q)) {aux : String} (haux : aux ∈ (q.slackInit.getD []).map Prod.fst)
    (hown : OwnsAux reg q aux) (hraw : ∀ qp d, (q.rawF qp d).isScalar = true)
    (hinit : ∀ init, (aux, init) ∈ q.slackInit.getD [] → ∀ qp d w, (init qp d (.scalar w)).isScalar = true) :
    ∃ p, dofs aux = .scalar p := by
  obtain ⟨o, c, fn, ht, hok, hfn, ⟨n, q', unit, w, init, hq', hw, hi, rfl⟩, -⟩ := request_aux hreg hs hsm hr hq haux
  have hd := solve_dofs hrun
  obtain ⟨-, -, -, -, hpu, -⟩ := quadcoilSetup_ok hs
  rw [ht, hpu] at hd
  obtain rfl := hown n q' init hq' hi
  obtain ⟨-, -, hsc, -⟩ := dofsOf_aux hreg hok qp (a.phiInit.getD (List.replicate (HasQp.ndofs qp) 0)) phiUnit st.finX hfn
  obtain ⟨w', hw'⟩ := unit_scalar hraw hw qp
  rw [← hd, hw', hinit init hi] at hsc
  cases hv : dofs aux with
  | scalar p => exact ⟨p, rfl⟩
  | array ps => simp [hv, Val.isScalar] at hsc

/-- Entries of the slack inequality, up to `tau`. -/
theorem slackIneq_le {field : Val} {w p τ : ℝ} {pd : Bool} (hpd : pd = true → ∀ x ∈ field.entries, 0 ≤ x)
    (h : ∀ v ∈ (Quantity.slackIneq field (Val.scalar w) (Val.scalar p) pd).entries, v ≤ τ) :
    ∀ x ∈ field.entries, |x| / w ≤ p + τ := by
  intro x hx
  cases pd with
  | true =>
    have := h (x / w - p) (by simpa [Quantity.slackIneq, Val.map2, Val.entries] using ⟨x, hx, rfl⟩)
    rw [abs_of_nonneg (hpd rfl x hx)]
    linarith
  | false =>
    have h1 := h (x / w - p) (by
      simp only [Quantity.slackIneq, Val.map2, Val.map, Val.entries, Bool.false_eq_true, if_false]
      refine List.mem_append_left _ ?_
      simpa using ⟨x, hx, rfl⟩)
    have h2 := h (-x / w - p) (by
      simp only [Quantity.slackIneq, Val.map2, Val.map, Val.entries, Bool.false_eq_true, if_false]
      refine List.mem_append_right _ ?_
      simpa using ⟨x, hx, rfl⟩)
    rcases abs_cases x with ⟨e, -⟩ | ⟨e, -⟩ <;> rw [e] <;> linarith

/-- **C105 (a maximum in slack form).** The maximum at the returned potential exceeds the requested bound by at most twice `tau`
times the unit: once for the bound on the auxiliary variable, once for its own constraints. -/
theorem C105_certificate_max {reg : Registry P} (hreg : AuxNames reg) {qp : P} {a : QuadcoilArgs} {phiUnit : ℝ} {S : Setup}
    {opt : Optimizer ℝ} (hcount : opt.CountContract) {gradOp : (List ℝ → ℝ) → List ℝ → List ℝ} {st : Status ℝ} {dofs : Dofs} {τ : ℝ}
    (hs : quadcoilSetup reg qp a phiUnit = .ok S) (hrun : quadcoilSolve opt gradOp S = some (.outer st, dofs))
    (he : 0 < a.sp.lseEpsilon) (hg : ∀ v ∈ st.finG, v ≤ τ) (hh : ∀ v ∈ st.finH, |v| ≤ τ) (hsm : a.smoothing = some "slack")
    {r : Request} (hr : r ∈ zipRequests a.constraintName a.constraintType a.constraintUnit a.constraintValue)
    (ht : r.type = "<=") {u : ℝ} (hu : r.unit = .scalar u) (hu0 : u ≠ 0) {func : P → Dofs → Val} {aux : String} {pd : Bool}
    (hq : reg r.name = some (.quantity (Quantity.generateLinf func aux pd false)))
    (hown : OwnsAux reg (Quantity.generateLinf func aux pd false) aux)
    (hpd : pd = true → ∀ x ∈ (func qp dofs).entries, 0 ≤ x) :
    ∀ x ∈ (func qp dofs).entries, |x| ≤ r.value + 2 * τ * |u| := by
  have hw : 0 < |u| := abs_pos.2 hu0
  obtain ⟨-, -, h0, h1, -, -⟩ := reported_request hcount hs hrun he hg hh hr hu hq
  obtain ⟨p, hp⟩ := max_aux_scalar hreg hs hrun hsm hr hq (by simp [Quantity.generateLinf]) hown (fun _ _ => rfl)
    (by simp [Quantity.generateLinf, Val.map2, Val.isScalar])
  rw [hsm] at h0 h1
  simp only [addedOf, if_true, Quantity.generateLinf, Option.map_some, Option.toList_some, List.mem_singleton, forall_eq,
    Bool.false_eq_true, if_false, hp] at h0 h1
  have hb := slackIneq_le hpd h0
  have hpv := h1 ht p (by simp [Val.entries])
  intro x hx
  have := (div_le_iff₀ hw).1 ((hb x hx).trans (add_le_add_left hpv τ))
  have e : (r.value / |u| + τ + τ) * |u| = r.value + 2 * τ * |u| := by field_simp; ring
  rwa [e] at this

/-- **C105 (the square of a maximum in slack form).** With unit `w` the maximum is at most
`sqrt w (sqrt (v / w + tau) + tau)`; for `tau = 0` its square is at most `v`. -/
theorem C105_certificate_square {reg : Registry P} (hreg : AuxNames reg) {qp : P} {a : QuadcoilArgs} {phiUnit : ℝ} {S : Setup}
    {opt : Optimizer ℝ} (hcount : opt.CountContract) {gradOp : (List ℝ → ℝ) → List ℝ → List ℝ} {st : Status ℝ} {dofs : Dofs} {τ : ℝ}
    (hs : quadcoilSetup reg qp a phiUnit = .ok S) (hrun : quadcoilSolve opt gradOp S = some (.outer st, dofs))
    (he : 0 < a.sp.lseEpsilon) (hg : ∀ v ∈ st.finG, v ≤ τ) (hh : ∀ v ∈ st.finH, |v| ≤ τ) (hsm : a.smoothing = some "slack")
    {r : Request} (hr : r ∈ zipRequests a.constraintName a.constraintType a.constraintUnit a.constraintValue)
    (ht : r.type = "<=") {u : ℝ} (hu : r.unit = .scalar u) (hu0 : u ≠ 0) {func : P → Dofs → Val} {aux : String} {pd : Bool}
    (hq : reg r.name = some (.quantity (Quantity.generateLinf func aux pd true)))
    (hown : OwnsAux reg (Quantity.generateLinf func aux pd true) aux)
    (hpd : pd = true → ∀ x ∈ (func qp dofs).entries, 0 ≤ x) :
    ∀ x ∈ (func qp dofs).entries, |x| ≤ Real.sqrt |u| * (Real.sqrt (r.value / |u| + τ) + τ) := by
  have hw : 0 < Real.sqrt |u| := Real.sqrt_pos.2 (abs_pos.2 hu0)
  obtain ⟨-, -, h0, h1, -, -⟩ := reported_request hcount hs hrun he hg hh hr hu hq
  obtain ⟨p, hp⟩ := max_aux_scalar hreg hs hrun hsm hr hq (by simp [Quantity.generateLinf]) hown (fun _ _ => rfl)
    (by simp [Quantity.generateLinf, Val.map2, Val.map, Val.isScalar])
  rw [hsm] at h0 h1
  simp only [addedOf, if_true, Quantity.generateLinf, Option.map_some, Option.toList_some, List.mem_singleton, forall_eq,
    hp, Val.map] at h0 h1
  have hb := slackIneq_le hpd h0
  have hpv := h1 ht (p ^ 2) (by simp [Val.entries])
  have hps : p ≤ Real.sqrt (r.value / |u| + τ) := (le_abs_self p).trans (Real.abs_le_sqrt hpv)
  intro x hx
  have := (div_le_iff₀ hw).1 ((hb x hx).trans (add_le_add_left hps τ))
  linarith

/-- **C105 (the fourth power of a maximum in slack form).** With unit `w` the square of the maximum is at most
`sqrt w (sqrt (v / w + tau) + tau)`; for `tau = 0` its fourth power is at most `v`. -/
theorem C105_certificate_fourth {reg : Registry P} (hreg : AuxNames reg) {qp : P} {a : QuadcoilArgs} {phiUnit : ℝ} {S : Setup}
    {opt : Optimizer ℝ} (hcount : opt.CountContract) {gradOp : (List ℝ → ℝ) → List ℝ → List ℝ} {st : Status ℝ} {dofs : Dofs} {τ : ℝ}
    (hs : quadcoilSetup reg qp a phiUnit = .ok S) (hrun : quadcoilSolve opt gradOp S = some (.outer st, dofs))
    (he : 0 < a.sp.lseEpsilon) (hg : ∀ v ∈ st.finG, v ≤ τ) (hh : ∀ v ∈ st.finH, |v| ≤ τ) (hsm : a.smoothing = some "slack")
    {r : Request} (hr : r ∈ zipRequests a.constraintName a.constraintType a.constraintUnit a.constraintValue)
    (ht : r.type = "<=") {u : ℝ} (hu : r.unit = .scalar u) (hu0 : u ≠ 0) {func : P → Dofs → Val} {aux : String}
    (hq : reg r.name = some (.quantity (Quantity.generateLinf4 func aux)))
    (hown : OwnsAux reg (Quantity.generateLinf4 func aux) aux) :
    ∀ x ∈ (func qp dofs).entries, x ^ 2 ≤ Real.sqrt |u| * (Real.sqrt (r.value / |u| + τ) + τ) := by
  have hw : 0 < Real.sqrt |u| := Real.sqrt_pos.2 (abs_pos.2 hu0)
  obtain ⟨-, -, h0, h1, -, -⟩ := reported_request hcount hs hrun he hg hh hr hu hq
  obtain ⟨p, hp⟩ := max_aux_scalar hreg hs hrun hsm hr hq (by simp [Quantity.generateLinf4]) hown (fun _ _ => rfl)
    (by simp [Quantity.generateLinf4, Val.map2, Val.map, Val.isScalar])
  rw [hsm] at h0 h1
  simp only [addedOf, if_true, Quantity.generateLinf4, Option.map_some, Option.toList_some, List.mem_singleton, forall_eq,
    hp, Val.map] at h0 h1
  have hpv := h1 ht (p ^ 2) (by simp [Val.entries])
  have hps : p ≤ Real.sqrt (r.value / |u| + τ) := (le_abs_self p).trans (Real.abs_le_sqrt hpv)
  intro x hx
  have hb : x ^ 2 / Real.sqrt |u| - p ≤ τ := h0 _ (by
    cases hv : func qp dofs with
    | scalar y =>
      rw [hv] at hx
      simp only [Val.entries, List.mem_singleton] at hx
      simp [Val.map2, Val.entries, hx]
    | array ys =>
      rw [hv] at hx
      simp only [Val.map2, Val.entries, List.map_map, List.mem_map, Function.comp_apply]
      exact ⟨x, hx, rfl⟩)
  have := (div_le_iff₀ hw).1 (show x ^ 2 / Real.sqrt |u| ≤ Real.sqrt (r.value / |u| + τ) + τ by linarith)
  linarith

/-- **C105 (a maximum in approx form).** The smooth maximum is never below the maximum, so the bound is the one without
reformulation. -/
theorem C105_certificate_max_approx {reg : Registry P} {qp : P} {a : QuadcoilArgs} {phiUnit : ℝ} {S : Setup}
    {opt : Optimizer ℝ} (hcount : opt.CountContract) {gradOp : (List ℝ → ℝ) → List ℝ → List ℝ} {st : Status ℝ} {dofs : Dofs} {τ : ℝ}
    (hs : quadcoilSetup reg qp a phiUnit = .ok S) (hrun : quadcoilSolve opt gradOp S = some (.outer st, dofs))
    (he : 0 < a.sp.lseEpsilon) (hg : ∀ v ∈ st.finG, v ≤ τ) (hh : ∀ v ∈ st.finH, |v| ≤ τ) (hsm : a.smoothing = some "approx")
    {r : Request} (hr : r ∈ zipRequests a.constraintName a.constraintType a.constraintUnit a.constraintValue)
    (ht : r.type = "<=") {u : ℝ} (hu : r.unit = .scalar u) (hu0 : u ≠ 0) {func : P → Dofs → Val} {aux : String} {pd : Bool}
    (hq : reg r.name = some (.quantity (Quantity.generateLinf func aux pd false))) :
    ∀ x ∈ (func qp dofs).entries, |x| ≤ r.value + τ * |u| := by
  have hw : 0 < |u| := abs_pos.2 hu0
  obtain ⟨-, -, -, h1, -, -⟩ := reported_request hcount hs hrun he hg hh hr hu hq
  rw [hsm] at h1
  simp only [addedOf, Option.some.injEq, String.reduceEq, reduceCtorEq, if_false, Quantity.generateLinf, Bool.false_eq_true,
    Val.entries, List.mem_singleton, forall_eq] at h1
  intro x hx
  have hmem : x / |u| ∈ (Val.map2 (· / ·) (func qp dofs) (Val.scalar |u|)).entries := by
    cases hv : func qp dofs with
    | scalar y =>
      rw [hv] at hx
      simp only [Val.entries, List.mem_singleton] at hx
      simp [Val.map2, Val.entries, hx]
    | array ys =>
      rw [hv] at hx
      simp only [Val.map2, Val.entries, List.mem_map]
      exact ⟨x, hx, rfl⟩
  have hle := (le_linfLse he hmem).trans (h1 ht)
  rw [abs_div, abs_of_pos hw, div_le_iff₀ hw, add_mul, div_mul_cancel₀ _ hw.ne'] at hle
  exact hle

/-- **C105 (the square of a maximum in approx form).** The code divides the field by the unit and not by its square root
(see C21), so what is bounded is `x ^ 2 / w ^ 2 ≤ v / w + tau`: the request, up to `tau`, only for the unit 1. -/
theorem C105_certificate_square_approx_partial {reg : Registry P} {qp : P} {a : QuadcoilArgs} {phiUnit : ℝ} {S : Setup}
    {opt : Optimizer ℝ} (hcount : opt.CountContract) {gradOp : (List ℝ → ℝ) → List ℝ → List ℝ} {st : Status ℝ} {dofs : Dofs} {τ : ℝ}
    (hs : quadcoilSetup reg qp a phiUnit = .ok S) (hrun : quadcoilSolve opt gradOp S = some (.outer st, dofs))
    (he : 0 < a.sp.lseEpsilon) (hg : ∀ v ∈ st.finG, v ≤ τ) (hh : ∀ v ∈ st.finH, |v| ≤ τ) (hsm : a.smoothing = some "approx")
    {r : Request} (hr : r ∈ zipRequests a.constraintName a.constraintType a.constraintUnit a.constraintValue)
    (ht : r.type = "<=") {u : ℝ} (hu : r.unit = .scalar u) (hu0 : u ≠ 0) {func : P → Dofs → Val} {aux : String} {pd : Bool}
    (hq : reg r.name = some (.quantity (Quantity.generateLinf func aux pd true))) :
    ∀ x ∈ (func qp dofs).entries, x ^ 2 / |u| ≤ r.value + τ * |u| := by
  have hw : 0 < |u| := abs_pos.2 hu0
  obtain ⟨-, -, -, h1, -, -⟩ := reported_request hcount hs hrun he hg hh hr hu hq
  rw [hsm] at h1
  simp only [addedOf, Option.some.injEq, String.reduceEq, reduceCtorEq, if_false, Quantity.generateLinf, if_true,
    Val.entries, List.mem_singleton, forall_eq] at h1
  intro x hx
  have hmem : x / |u| ∈ (Val.map2 (· / ·) (func qp dofs) (Val.scalar |u|)).entries := by
    cases hv : func qp dofs with
    | scalar y =>
      rw [hv] at hx
      simp only [Val.entries, List.mem_singleton] at hx
      simp [Val.map2, Val.entries, hx]
    | array ys =>
      rw [hv] at hx
      simp only [Val.map2, Val.entries, List.mem_map]
      exact ⟨x, hx, rfl⟩
  have hsq : (x / |u|) ^ 2 ≤ r.value / |u| + τ := by
    rw [← sq_abs (x / |u|)]
    exact (pow_le_pow_left₀ (abs_nonneg _) (le_linfLse he hmem) 2).trans (h1 ht)
  have e : x ^ 2 / |u| = (x / |u|) ^ 2 * |u| := by field_simp
  have e2 : r.value + τ * |u| = (r.value / |u| + τ) * |u| := by field_simp
  rw [e, e2]
  exact mul_le_mul_of_nonneg_right hsq hw.le

theorem slackIneq_array_le {field : Val} {w τ : ℝ} {ps : List ℝ} {pd : Bool}
    (hpd : pd = true → ∀ x ∈ field.entries, 0 ≤ x)
    (h : ∀ v ∈ (Quantity.slackIneq field (Val.scalar w) (Val.array ps) pd).entries, v ≤ τ) :
    ∀ xp ∈ field.entries.zip ps, |xp.1| / w ≤ xp.2 + τ := by
  have key : ∀ (xs ps : List ℝ), ∀ xp ∈ xs.zip ps, xp.1 - xp.2 ∈ List.zipWith (· - ·) xs ps := by
    intro xs
    induction xs with
    | nil => simp
    | cons x xs ih =>
      intro ps
      cases ps with
      | nil => simp
      | cons p ps =>
        intro xp hxp
        rw [List.zip_cons_cons, List.mem_cons] at hxp
        rw [List.zipWith_cons_cons, List.mem_cons]
        rcases hxp with rfl | hxp
        · exact Or.inl rfl
        · exact Or.inr (ih ps xp hxp)
  rintro ⟨x, p⟩ hxp
  have hx := (List.of_mem_zip hxp).1
  have hmap : ∀ f : ℝ → ℝ, (f x, p) ∈ (field.entries.map f).zip ps := by
    intro f
    rw [List.zip_map_left, List.mem_map]
    exact ⟨_, hxp, rfl⟩
  cases pd with
  | true =>
    have := h (x / w - p) (by
      simp only [Quantity.slackIneq, Val.map2, Val.entries, if_true]
      exact key _ _ _ (hmap fun x => x / w))
    simp only
    rw [abs_of_nonneg (hpd rfl x hx)]
    linarith
  | false =>
    have h1 := h (x / w - p) (by
      simp only [Quantity.slackIneq, Val.map2, Val.map, Val.entries, Bool.false_eq_true, if_false]
      exact List.mem_append_left _ (key _ _ _ (hmap fun x => x / w)))
    have h2 := h (-x / w - p) (by
      simp only [Quantity.slackIneq, Val.map2, Val.map, Val.entries, Bool.false_eq_true, if_false, List.map_map]
      exact List.mem_append_right _ (key _ _ _ (hmap fun x => -x / w)))
    simp only
    rcases abs_cases x with ⟨e, -⟩ | ⟨e, -⟩ <;> rw [e] <;> linarith

theorem l1_sum_le {da xs ps : List ℝ} {w τ : ℝ} (hw : 0 < w) (hτ : 0 ≤ τ) (hda : ∀ d ∈ da, 0 ≤ d) (hlen : xs.length = ps.length)
    (h : ∀ xp ∈ xs.zip ps, |xp.1| / w ≤ xp.2 + τ) :
    (List.zipWith (fun d x => d * |x|) da xs).sum ≤
      w * ((List.zipWith (· * ·) da (ps.map fun x => |x|)).sum + τ * da.sum) := by
  induction da generalizing xs ps with
  | nil => simp
  | cons d da ih =>
    have hd := hda d List.mem_cons_self
    have hda' : ∀ d ∈ da, 0 ≤ d := fun d h => hda d (List.mem_cons_of_mem _ h)
    cases xs with
    | nil =>
      have hp : ps = [] := by
        cases ps with
        | nil => rfl
        | cons _ _ => simp at hlen
      subst hp
      have : 0 ≤ (d :: da).sum := List.sum_nonneg hda
      simp only [List.zipWith_nil_right, List.map_nil, List.sum_nil, zero_add]
      positivity
    | cons x xs =>
      cases ps with
      | nil => simp at hlen
      | cons p ps =>
        have h1 := ih hda' (by simpa using hlen) (fun xp hxp => h xp (by rw [List.zip_cons_cons]; exact List.mem_cons_of_mem _ hxp))
        have h2 := h (x, p) (by rw [List.zip_cons_cons]; exact List.mem_cons_self)
        simp only at h2
        rw [div_le_iff₀ hw] at h2
        have h3 : |x| ≤ (|p| + τ) * w := h2.trans (mul_le_mul_of_nonneg_right (by linarith [le_abs_self p]) hw.le)
        have h4 := mul_le_mul_of_nonneg_left h3 hd
        simp only [List.zipWith_cons_cons, List.map_cons, List.sum_cons]
        nlinarith

/-- **C105 (an L1 norm in slack form).** The L1 norm exceeds the requested bound by at most `tau` times the unit times one plus
the area of the surface, because each of the auxiliary variables may be violated by `tau`. The number of entries of the field
must only depend on the number of coefficients. -/
theorem C105_certificate_l1 {reg : Registry P} (hreg : AuxNames reg) {qp : P} {a : QuadcoilArgs} {phiUnit : ℝ} {S : Setup}
    {opt : Optimizer ℝ} (hcount : opt.CountContract) {gradOp : (List ℝ → ℝ) → List ℝ → List ℝ} {st : Status ℝ} {dofs : Dofs} {τ : ℝ}
    (hs : quadcoilSetup reg qp a phiUnit = .ok S) (hrun : quadcoilSolve opt gradOp S = some (.outer st, dofs))
    (he : 0 < a.sp.lseEpsilon) (hτ : 0 ≤ τ) (hg : ∀ v ∈ st.finG, v ≤ τ) (hh : ∀ v ∈ st.finH, |v| ≤ τ)
    (hsm : a.smoothing = some "slack") (hshape : opt.ShapeContract gradOp)
    {r : Request} (hr : r ∈ zipRequests a.constraintName a.constraintType a.constraintUnit a.constraintValue)
    (ht : r.type = "<=") {u : ℝ} (hu : r.unit = .scalar u) (hu0 : u ≠ 0) {func : P → Dofs → Val} {aux : String} {pd : Bool}
    (hq : reg r.name = some (.quantity (Quantity.generateL1 func aux pd)))
    (hown : OwnsAux reg (Quantity.generateL1 func aux pd) aux)
    (hpd : pd = true → ∀ x ∈ (func qp dofs).entries, 0 ≤ x)
    (hda : ∀ d ∈ HasQp.da qp, 0 ≤ d) (hnfp : 0 ≤ HasQp.nfp qp)
    (hlen : ∀ d d' phi phi', d "phi" = .array phi → d' "phi" = .array phi' → phi.length = phi'.length →
      (func qp d).entries.length = (func qp d').entries.length) :
    l1Norm qp (func qp dofs).entries ≤ r.value + τ * |u| * (1 + (HasQp.da qp).sum * HasQp.nfp qp) := by
  have hw : 0 < |u| := abs_pos.2 hu0
  obtain ⟨-, -, h0, h1, -, -⟩ := reported_request hcount hs hrun he hg hh hr hu hq
  obtain ⟨o, c, fn, htm, hok, hfn, ⟨n, q', unit, w, init, hq', hwu, hi, rfl⟩, hx0⟩ :=
    request_aux hreg hs hsm hr hq (aux := aux) (by simp [Quantity.generateL1])
  have hd := solve_dofs hrun
  obtain ⟨-, -, -, -, hpu, -⟩ := quadcoilSetup_ok hs
  rw [htm, hpu] at hd
  have hx := solve_finX_length hshape hrun
  rw [hx0, htm] at hx
  obtain rfl := hown n q' init hq' hi
  obtain ⟨-, -, -, hsh⟩ := dofsOf_aux hreg hok qp (a.phiInit.getD (List.replicate (HasQp.ndofs qp) 0)) phiUnit st.finX hfn
  obtain ⟨phi, hphi, hphil⟩ := dofsOf_phi_array hreg hok qp (a.phiInit.getD (List.replicate (HasQp.ndofs qp) 0)) phiUnit st.finX
  rw [← hd] at hphi hsh
  have hl := hlen dofs (phiOnly (.array (a.phiInit.getD (List.replicate (HasQp.ndofs qp) 0)))) phi _ hphi rfl (hphil hx)
  obtain ⟨w', hw'⟩ := unit_scalar (q := Quantity.generateL1 func aux pd) (fun _ _ => rfl) hwu qp
  have hsv := hsh hx
  simp only [Quantity.generateL1, Option.getD_some, List.mem_singleton, Prod.mk.injEq, true_and] at hi
  subst hi
  simp only [hw', Val.map, Val.map2] at hsv
  cases hv : dofs aux with
  | scalar y => rw [hv] at hsv; exact hsv.elim
  | array ps =>
    rw [hv] at hsv
    simp only [SameShape, List.length_map] at hsv
    rw [hsm] at h0 h1
    simp only [addedOf, if_true, Quantity.generateL1, Option.map_some, Option.toList_some, List.mem_singleton, forall_eq,
      hv, Val.entries] at h0 h1
    have hb := slackIneq_array_le hpd h0
    have hpv := h1 ht
    have hsum := l1_sum_le hw hτ hda (hl.trans hsv.symm) hb
    unfold Quantity.l1Integral at hpv
    unfold l1Norm
    have h2 := mul_le_mul_of_nonneg_right hsum hnfp
    have h3 := mul_le_mul_of_nonneg_left hpv hw.le
    have e : |u| * (r.value / |u| + τ) = r.value + τ * |u| := by field_simp
    rw [e] at h3
    nlinarith

/-! ## The hypotheses are met -/

/-- Arguments of a small problem: minimise `f_Phi` with a maximum, an L1 norm and two fields constrained. -/
noncomputable def toyArgs (sm : Option String) : QuadcoilArgs where
  objectiveName := .one "f_Phi"
  objectiveUnit := .one (.scalar 5)
  objectiveWeight := .one 1
  constraintName := ["f_max_Phi", "f_max_Phi2", "f_l1_Phi", "K_theta", "K_dot_grad_K"]
  constraintType := ["<=", "<=", "<=", ">=", "=="]
  constraintUnit := [.scalar 2, .scalar 3, .scalar 4, .scalar (-3), .scalar 1]
  constraintValue := [3, 4, 5, -1, 0]
  smoothing := sm
  sp := ⟨1 / 10⟩
  mergeConstraints := false
  phiInit := none
  cInit := 1
  cGrowth := 2
  xstopOuter := 1
  ctolOuter := 1
  fstopInner := 1
  xstopInner := 1
  gtolInner := 1
  fstopInnerLast := 1
  xstopInnerLast := 1
  gtolInnerLast := 1
  maxiterTot := 5
  maxiterInner := 5

theorem toy_auxNames : AuxNames toyRegistry := by
  intro n q h
  unfold toyRegistry at h
  split at h <;> [skip; (split at h <;> [skip; (split at h <;> [skip; (split at h <;> [skip; (split at h <;> [skip; (split at h <;> [skip; (split at h)])])])])])]
  all_goals first
    | (cases h; simp [Quantity.generateC2, Quantity.generateLinf, Quantity.generateL1])
    | simp at h

theorem toy_owns (q : Quantity ToyQp) (aux : String)
    (h : (q, aux) = (Quantity.generateLinf toyPhi "scaled_max_Phi" false false, "scaled_max_Phi") ∨
      (q, aux) = (Quantity.generateLinf toyPhi "scaled_max_Phi_f_max_Phi2" false true, "scaled_max_Phi_f_max_Phi2") ∨
      (q, aux) = (Quantity.generateL1 toyPhi "scaled_abs_Phi" false, "scaled_abs_Phi")) : OwnsAux toyRegistry q aux := by
  intro n q' init hq hm
  unfold toyRegistry at hq
  split at hq <;> [skip; (split at hq <;> [skip; (split at hq <;> [skip; (split at hq <;> [skip; (split at hq <;> [skip; (split at hq <;> [skip; (split at hq)])])])])])]
  all_goals first
    | (cases hq
       rcases h with h | h | h <;> cases h <;> simp [Quantity.generateC2, Quantity.generateLinf, Quantity.generateL1] at hm ⊢)
    | simp at hq

/-- The setup of the small problem succeeds in all three modes, and the solver returns a status with some bounds. -/
example (sm : Option String) (hsm : knownSmoothing sm) :
    ∃ S st dofs τ, quadcoilSetup toyRegistry ⟨0⟩ (toyArgs sm) 7 = .ok S ∧
      quadcoilSolve (gradientDescent realGrad (1 / 4)) realGrad S = some (.outer st, dofs) ∧ 0 ≤ τ ∧
      (∀ v ∈ st.finG, v ≤ τ) ∧ (∀ v ∈ st.finH, |v| ≤ τ) := by
  have hS : ∃ S, quadcoilSetup toyRegistry ⟨0⟩ (toyArgs sm) 7 = .ok S ∧ S.unconstrained = false := by
    rcases hsm with rfl | rfl | rfl <;> exact ⟨_, rfl, rfl⟩
  obtain ⟨S, hS, hun⟩ := hS
  obtain ⟨_, _, st, _, _, _, hst, _⟩ := C04_outer_terminates (gradientDescent realGrad (1 / 4)) (gradientDescent_count _ _) realGrad
    S.problem gplusHard S.x0
  obtain ⟨τ, h0, h1⟩ : ∃ τ : ℝ, 0 ≤ τ ∧ ∀ v ∈ st.finG ++ st.finH, |v| ≤ τ := by
    generalize st.finG ++ st.finH = l
    induction l with
    | nil => exact ⟨0, le_rfl, by simp⟩
    | cons v l ih =>
      obtain ⟨τ, h0, h1⟩ := ih
      refine ⟨max τ |v|, h0.trans (le_max_left _ _), fun y hy => ?_⟩
      rcases List.mem_cons.1 hy with rfl | hy
      · exact le_max_right _ _
      · exact (h1 y hy).trans (le_max_left _ _)
  refine ⟨S, st, dofsOf S.template S.phiUnit st.finX, τ, hS, ?_, h0, ?_, ?_⟩
  · unfold quadcoilSolve
    rw [hun, if_neg Bool.false_ne_true, hst]
    rfl
  · exact fun v hv => (le_abs_self v).trans (h1 v (List.mem_append_left _ hv))
  · exact fun v hv => h1 v (List.mem_append_right _ hv)

end Verif
