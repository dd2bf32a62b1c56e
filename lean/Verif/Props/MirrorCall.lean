import Verif.Props.MirrorImage

/-!
# C161: a call for the mirror image of a device returns the same potential
-/

namespace Verif

variable {others : List String} {sm : Option String} {sp : SmoothingParams} {Q : FieldProblem}

/-! ## Parsed parts -/

/-- What the property needs: no constraint on single components of vectors, and the Huber loss is not smoothed. -/
structure Mirrorable (sm : Option String) (objs : List ObjectiveItem) (cons : List Request) : Prop where
  handed : ∀ r ∈ cons, r.name ∉ handedNames
  huber : sm = none ∨ (∀ o ∈ objs, o.name ≠ "f_huber_K") ∧ ∀ r ∈ cons, r.name ≠ "f_huber_K"

/-- **C161.** The code accepts no objective that depends on the handedness. -/
theorem C161_objectives (others : List String) (sm : Option String) {n : String} {u : UnitArg}
    (h : LegalUse (shippedRegistry FieldProblem.fns others) sm n u "f") : n ∉ handedNames := by
  obtain ⟨⟨q, hq, hc⟩, -⟩ := h
  have hp := shipped_lookup _ hq
  simp only [shipped, List.mem_cons, List.not_mem_nil, or_false, Prod.mk.injEq] at hp
  rcases hp with ⟨rfl, rfl⟩ | ⟨rfl, rfl⟩ | ⟨rfl, rfl⟩ | ⟨rfl, rfl⟩ | ⟨rfl, rfl⟩ | ⟨rfl, rfl⟩ | ⟨rfl, rfl⟩ | ⟨rfl, rfl⟩ | ⟨rfl, rfl⟩ |
    ⟨rfl, rfl⟩ | ⟨rfl, rfl⟩ | ⟨rfl, rfl⟩ | ⟨rfl, rfl⟩ | ⟨rfl, rfl⟩ | ⟨rfl, rfl⟩ | ⟨rfl, rfl⟩ | ⟨rfl, rfl⟩ | ⟨rfl, rfl⟩ | ⟨rfl, rfl⟩ |
    ⟨rfl, rfl⟩ | ⟨rfl, rfl⟩ | ⟨rfl, rfl⟩ | ⟨rfl, rfl⟩ | ⟨rfl, rfl⟩ | ⟨rfl, rfl⟩ | ⟨rfl, rfl⟩ | ⟨rfl, rfl⟩ <;>
    simp [handedNames, Quantity.generateC2] at hc ⊢

theorem call_mirrored {n : String} {q : Quantity FieldProblem} (hq : shippedRegistry FieldProblem.fns others n = some (.quantity q)) (d : Dofs) :
    q.call Q.mirrored d = mirroredValue n (q.call Q d) :=
  C161_values Q _ _ (shipped_lookup _ hq)

theorem unit_mirrored {n : String} {q : Quantity FieldProblem} (hq : shippedRegistry FieldProblem.fns others n = some (.quantity q))
    (he : n ∉ handedNames) {unit : UnitArg} {u : FieldProblem → Val} (hu : unitCallable q unit = .ok u) : u Q.mirrored = u Q := by
  cases unit with
  | none =>
    simp only [unitCallable, Except.ok.injEq] at hu
    subst hu
    have := call_mirrored (Q := Q) hq (phiOnly (.array (List.replicate (HasQp.ndofs Q) 0)))
    rw [mirroredValue_same he] at this
    exact this
  | scalar w =>
    simp only [unitCallable, Except.ok.injEq] at hu
    subst hu
    rfl
  | other => simp [unitCallable] at hu

/-- What the code adds for a quantity that does not depend on the handedness. -/
theorem added_mirrored {name uc : String} {unit : UnitArg} {A : Added FieldProblem} (he : name ∉ handedNames)
    (hh : sm = none ∨ name ≠ "f_huber_K") (h : addQuantity (shippedRegistry FieldProblem.fns others) name unit uc sm sp = .ok A) (d0 : Dofs) :
    (∀ d, A.val Q.mirrored d = A.val Q d) ∧ A.unit Q.mirrored = A.unit Q ∧ A.h = [] ∧
      List.Forall₂ (Corresponds Q.mirrored Q id d0) A.g A.g := by
  have hst := added_static (registry_static others Q) h
  obtain ⟨q, u, hq, -, -, hu, rfl⟩ := addQuantity_ok.1 h
  have hu' : u Q.mirrored = u Q := unit_mirrored hq he hu
  have hraw := fun d => C161_values Q d _ (shipped_lookup _ hq)
  simp only [mirroredValue_same he] at hraw
  unfold addedOf at hst ⊢
  split at hst
  · rename_i hs
    have hhub : name ≠ "f_huber_K" := by
      rcases hh with h | h
      · rw [h] at hs
        simp at hs
      · exact h
    have hf := mirrored_forms Q _ (shipped_lookup _ hq) he hhub
    simp only [if_pos hs]
    refine ⟨fun d => by rw [hu', hf.slackF], hu', by rw [hf.slackH]; rfl, ?_⟩
    cases hg : q.slackG with
    | none => exact .nil
    | some fn =>
      refine .cons ?_ .nil
      have hsf : Static fun d => fn Q d (u Q) := hst.2.1 (fun qp d => fn qp d (u qp)) (by simp [hg])
      rcases hf.slackG fn (by simp [hg]) with h | h
      · exact .of_eq hsf fun d => by simp only [hu', h, id]
      · obtain ⟨A0, B0, e0, e1, -⟩ := h d0 (u Q)
        have hs0 : (mirrorSigns A0.length).length = A0.length := mirrorSigns_length _
        refine ⟨_, _, Rearranges.mix (mirrorSigns A0.length), fun d hd => ?_⟩
        obtain ⟨A, B, e, e2, e3⟩ := h d (u Q)
        have hl := (hsf d d0 hd).length
        simp only [e1, e2, List.length_append] at hl
        have hA : A.length = A0.length := by omega
        simp only [hu', id]
        rw [e3, e2, hs0]
        refine ⟨by rw [List.length_append]; omega, ?_⟩
        rw [List.take_left' hA, List.drop_left' hA, hA]
  · rename_i hs
    simp only [if_neg hs]
    by_cases hn : sm = none
    · simp only [if_pos hn]
      exact ⟨fun d => by rw [hu', hraw], hu', trivial, .nil⟩
    · simp only [if_neg hn]
      refine ⟨fun d => ?_, hu', trivial, .nil⟩
      rw [hu']
      exact C161_smoothed Q d _ sp _ (shipped_lookup _ hq) he (hh.resolve_left hn)

theorem init_mirrored {k : String} {fn : FieldProblem → Dofs → Val} (h : FromReg (shippedRegistry FieldProblem.fns others) k fn) (d : Dofs) :
    fn Q.mirrored d = fn Q d := by
  obtain ⟨n, q, unit, u, init, hq, hu, hm, rfl⟩ := h
  have hp := shipped_lookup _ hq
  have he : n ∉ handedNames := by
    intro hn
    have hc : ∃ f c, q = Quantity.generateC2 f c := by
      simp only [handedNames, List.mem_cons, List.not_mem_nil, or_false] at hn
      simp only [shipped, List.mem_cons, List.not_mem_nil, or_false, Prod.mk.injEq] at hp
      rcases hn with h | h | h | h <;> rw [h] at hp <;> simp at hp <;> exact ⟨_, _, hp⟩
    obtain ⟨f, c, rfl⟩ := hc
    simp [Quantity.generateC2] at hm
  have hh : n ≠ "f_huber_K" := by
    rintro rfl
    have hr : shippedRegistry FieldProblem.fns others "f_huber_K" = some (.quantity (Quantity.generateHuber FieldProblem.fns.K)) := rfl
    rw [hr] at hq
    simp only [Option.some.injEq, Attr.quantity.injEq] at hq
    rw [← hq] at hm
    simp [Quantity.generateHuber] at hm
  simp only [unit_mirrored hq he hu]
  exact (mirrored_forms Q _ hp he hh).slackInit _ hm d _

theorem conVal_mirrored {r : Request} (hodd : r.name ∉ handedNames) (hhub : sm = none ∨ r.name ≠ "f_huber_K")
    (h : ∃ c, conPart (shippedRegistry FieldProblem.fns others) sm sp r = .ok c) (d0 : Dofs) :
    List.Forall₂ (Corresponds Q.mirrored Q id d0) (conVal (shippedRegistry FieldProblem.fns others) sm sp r).g
      (conVal (shippedRegistry FieldProblem.fns others) sm sp r).g ∧
    List.Forall₂ (Corresponds Q.mirrored Q id d0) (conVal (shippedRegistry FieldProblem.fns others) sm sp r).h
      (conVal (shippedRegistry FieldProblem.fns others) sm sp r).h := by
  have hst := conVal_static (registry_static others Q) h
  obtain ⟨c, hc⟩ := h
  rw [conVal_eq hc] at hst ⊢
  obtain ⟨A, hA, hcase⟩ := parseStep_ok.1 hc
  obtain ⟨v, u, hh, hg⟩ := added_mirrored (Q := Q) hodd hhub hA d0
  have hf : ∀ sign d, consFunc A r.value sign sm sp Q.mirrored (id d) = consFunc A r.value sign sm sp Q d := by
    intro sign d
    simp only [consFunc, v, u, id]
  rcases hcase with ⟨-, rfl⟩ | ⟨-, rfl⟩ | ⟨-, rfl⟩
  · simp only [List.nil_append, hh] at hst ⊢
    exact ⟨hg, .cons (.of_eq (hst.2 _ (by simp)) (hf _)) .nil⟩
  · simp only [List.nil_append, hh] at hst ⊢
    exact ⟨List.rel_append hg (.cons (.of_eq (hst.1 _ (by simp)) (hf _)) .nil), .nil⟩
  · simp only [List.nil_append, hh] at hst ⊢
    exact ⟨List.rel_append hg (.cons (.of_eq (hst.1 _ (by simp)) (hf _)) .nil), .nil⟩

theorem objVal_mirrored {o : ObjectiveItem} (hhub : sm = none ∨ o.name ≠ "f_huber_K")
    (h : ∃ c, objPart (shippedRegistry FieldProblem.fns others) sm sp o = .ok c) (d0 : Dofs) :
    (∀ d, (objVal (shippedRegistry FieldProblem.fns others) sm sp o).val Q.mirrored d =
      (objVal (shippedRegistry FieldProblem.fns others) sm sp o).val Q d) ∧
    List.Forall₂ (Corresponds Q.mirrored Q id d0) (objVal (shippedRegistry FieldProblem.fns others) sm sp o).g
      (objVal (shippedRegistry FieldProblem.fns others) sm sp o).g ∧
    (objVal (shippedRegistry FieldProblem.fns others) sm sp o).h = [] := by
  obtain ⟨c, hc⟩ := h
  rw [objVal_eq hc]
  have hl := (addQuantity_ok_iff (shippedRegistry FieldProblem.fns others) sm sp o.name o.unit "f").1 ⟨c, hc⟩
  obtain ⟨v, -, hh, hg⟩ := added_mirrored (Q := Q) (C161_objectives others sm hl) hhub hc d0
  exact ⟨v, hg, hh⟩

variable {objs : List ObjectiveItem} {cons : List Request}

theorem joined_mirrored (hr : Mirrorable sm objs cons) (hok : AllOk (shippedRegistry FieldProblem.fns others) sm sp objs cons) (d0 : Dofs) :
    (∀ d, (joinedVal (shippedRegistry FieldProblem.fns others) sm sp objs cons).f Q.mirrored d =
      (joinedVal (shippedRegistry FieldProblem.fns others) sm sp objs cons).f Q d) ∧
    List.Forall₂ (Corresponds Q.mirrored Q id d0) (joinedVal (shippedRegistry FieldProblem.fns others) sm sp objs cons).g
      (joinedVal (shippedRegistry FieldProblem.fns others) sm sp objs cons).g ∧
    List.Forall₂ (Corresponds Q.mirrored Q id d0) (joinedVal (shippedRegistry FieldProblem.fns others) sm sp objs cons).h
      (joinedVal (shippedRegistry FieldProblem.fns others) sm sp objs cons).h := by
  have ho := fun o (hm : o ∈ objs) => objVal_mirrored (Q := Q) (hr.huber.imp_right fun h => h.1 o hm) (hok.1 o hm) d0
  have hc := fun r (hm : r ∈ cons) => conVal_mirrored (Q := Q) (hr.handed r hm) (hr.huber.imp_right fun h => h.2 r hm) (hok.2 r hm) d0
  simp only [joinedVal]
  refine ⟨fun d => fTot_congr (List.forall_mem_map.2 fun o hm => (ho o hm).1 d) _, ?_, ?_⟩
  · exact List.rel_append (forall₂_flatMap _ fun o hm => (ho o hm).2.1) (forall₂_flatMap _ fun r hm => (hc r hm).1)
  · refine List.rel_append (forall₂_flatMap _ fun o hm => ?_) (forall₂_flatMap _ fun r hm => (hc r hm).2)
    rw [(ho o hm).2.2]
    exact .nil

/-! ## The problem handed to the solver -/

theorem xTemplate_mirrored {slack : List (String × (FieldProblem → Dofs → Val))} (h : SlackOk (shippedRegistry FieldProblem.fns others) slack)
    (phi : List ℝ) (u : ℝ) : xTemplate Q.mirrored phi u slack = xTemplate Q phi u slack := by
  have h2 : (slack.map fun kv => (kv.1, kv.2 Q.mirrored (phiOnly (Val.array phi)))) =
      slack.map fun kv => (kv.1, kv.2 Q (phiOnly (Val.array phi))) :=
    List.map_congr_left fun kv hkv => by rw [init_mirrored (h.2 kv.1 kv.2 (lookup_of_mem h.1 hkv))]
  rw [xTemplate, h2, xTemplate]

theorem fghFromY_mirrored (Q : FieldProblem) (a : QuadcoilArgs) (objs : List ObjectiveItem) (cons : List Request) :
    (∃ e, fghFromY (shippedRegistry FieldProblem.fns others) Q.mirrored (a.listing objs cons) = .error e ∧
      fghFromY (shippedRegistry FieldProblem.fns others) Q (a.listing objs cons) = .error e) ∨
    (AllOk (shippedRegistry FieldProblem.fns others) a.smoothing a.sp objs cons ∧
      fghFromY (shippedRegistry FieldProblem.fns others) Q.mirrored (a.listing objs cons) =
        .ok (fghOf Q.mirrored a (joinedVal (shippedRegistry FieldProblem.fns others) a.smoothing a.sp objs cons)) ∧
      fghFromY (shippedRegistry FieldProblem.fns others) Q (a.listing objs cons) =
        .ok (fghOf Q a (joinedVal (shippedRegistry FieldProblem.fns others) a.smoothing a.sp objs cons))) := by
  by_cases h : AllOk (shippedRegistry FieldProblem.fns others) a.smoothing a.sp objs cons
  · exact .inr ⟨h, (fghFromY_listing ..).2 ⟨h, rfl⟩, (fghFromY_listing ..).2 ⟨h, rfl⟩⟩
  · left
    cases h' : fghFromY (shippedRegistry FieldProblem.fns others) Q (a.listing objs cons) with
    | ok p => exact absurd ((fghFromY_listing ..).1 h').1 h
    | error e =>
      refine ⟨e, ?_, rfl⟩
      rw [← h']
      revert h'
      unfold fghFromY
      simp only [bind, Except.bind]
      generalize parseObjectives (shippedRegistry FieldProblem.fns others) _ _ _ _ _ = o
      generalize parseConstraints (shippedRegistry FieldProblem.fns others) _ _ _ _ _ _ = c
      cases o with
      | error e => exact fun _ => rfl
      | ok o =>
        cases c with
        | error e => exact fun _ => rfl
        | ok c =>
          intro h
          cases h

theorem quadcoilSetup_mirrored (a : QuadcoilArgs) (hr : Mirrorable a.smoothing objs cons) (u : ℝ) :
    (∃ e, quadcoilSetup (shippedRegistry FieldProblem.fns others) Q.mirrored (a.listing objs cons) u = .error e ∧
      quadcoilSetup (shippedRegistry FieldProblem.fns others) Q (a.listing objs cons) u = .error e) ∨
    ∃ S' S, quadcoilSetup (shippedRegistry FieldProblem.fns others) Q.mirrored (a.listing objs cons) u = .ok S' ∧
      quadcoilSetup (shippedRegistry FieldProblem.fns others) Q (a.listing objs cons) u = .ok S ∧ CorrespondingSetup id S' S := by
  rcases fghFromY_mirrored (others := others) Q a objs cons with ⟨e, h', h⟩ | ⟨hall, h', h⟩
  · unfold quadcoilSetup
    rw [h', h]
    exact .inl ⟨e, rfl, rfl⟩
  rw [quadcoilSetup_from _ _ _ _ _ h', quadcoilSetup_from _ _ _ _ _ h]
  have hreg := shipped_auxNames FieldProblem.fns others
  have hok := joined_slackOk hreg hall
  have hphis := xTemplate_phi hreg hok Q (a.phiInit.getD (List.replicate (HasQp.ndofs Q) 0)) u
  have ht : xTemplate Q.mirrored (a.phiInit.getD (List.replicate (HasQp.ndofs Q.mirrored) 0)) u
      (fghOf Q.mirrored a (joinedVal (shippedRegistry FieldProblem.fns others) a.smoothing a.sp objs cons)).slack =
      xTemplate Q (a.phiInit.getD (List.replicate (HasQp.ndofs Q) 0)) u
        (joinedVal (shippedRegistry FieldProblem.fns others) a.smoothing a.sp objs cons).slack := xTemplate_mirrored hok _ _
  rw [ht]
  have hsl : (fghOf Q a (joinedVal (shippedRegistry FieldProblem.fns others) a.smoothing a.sp objs cons)).slack =
      (joinedVal (shippedRegistry FieldProblem.fns others) a.smoothing a.sp objs cons).slack := rfl
  rw [hsl]
  generalize xTemplate Q (a.phiInit.getD (List.replicate (HasQp.ndofs Q) 0)) u
    (joinedVal (shippedRegistry FieldProblem.fns others) a.smoothing a.sp objs cons).slack = t at hphis ⊢
  obtain ⟨hf, hg, hh⟩ := joined_mirrored (Q := Q) hr hall (dofsOf t u (ravel t))
  rcases setupFrom_correspond a hphis (ρ := id) (fun _ _ => rfl) hf hg hh _ _ with ⟨e, h1, h2⟩ | ⟨S', S, h1, h2, hS⟩
  · exact .inl ⟨e, h1, h2⟩
  · exact .inr ⟨S', S, h1, h2, hS⟩

/-! ## The arguments -/

variable {a : CallArgs}

/-- The generator of the winding surface, given the mirror image of the plasma and the opposite distance, generates the mirror image. -/
def CallArgs.GeneratorMirrors (a : CallArgs) : Prop := ∀ d, a.plasmaCoilDistance = some d →
  a.generator (a.plasmaGamma.map fun r => r.map mirrorZ) (-d) a.nfp a.plasmaStellsym a.windingMpol a.windingNtor =
    SurfaceShape.mirrorDofs ⟨a.nfp, a.stellsym, a.windingMpol, a.windingNtor⟩
      (a.generator a.plasmaGamma d a.nfp a.plasmaStellsym a.windingMpol a.windingNtor)

/-- The automatic unit of the potential reads coefficients of `R`, or is not used. -/
def CallArgs.UnitReadsR (a : CallArgs) : Prop :=
  a.phiUnit.isSome ∨ a.plasmaCoilDistance.isSome ∨ 1 ≤ a.plasmaMpol ∧ 1 ≤ a.windingMpol

theorem mirrorDofs_length (S : SurfaceShape) (d : List ℝ) : (S.mirrorDofs d).length = d.length := by
  simp only [SurfaceShape.mirrorDofs, List.length_append, List.length_take, List.length_map, List.length_drop]
  omega

theorem mirrored_plasmaGamma : a.mirrored.plasmaGamma = a.plasmaGamma.map fun r => r.map mirrorZ := by
  simp only [CallArgs.plasmaGamma, List.map_map]
  refine List.map_congr_left fun p _ => ?_
  simp only [Function.comp_apply, List.map_map]
  exact List.map_congr_left fun t _ => gamma_mirror ..

theorem mirrored_windingData (hg : a.GeneratorMirrors) : a.mirrored.windingData = (a.windingData.1, a.windingShape.mirrorDofs a.windingData.2) := by
  simp only [CallArgs.windingShape, CallArgs.windingData, mirrored_plasmaGamma]
  cases h : a.plasmaCoilDistance with
  | none =>
    simp only [CallArgs.mirrored, h, Option.map_none]
    cases a.windingDofs <;> simp [SurfaceShape.mirrorDofs]
  | some d =>
    simp only [CallArgs.mirrored, h, Option.map_some]
    rw [hg d h]

theorem mirrored_described (hg : a.GeneratorMirrors) : a.mirrored.described = a.described.mirrored := by
  have hw : a.mirrored.described.cp = a.described.mirrored.cp := by
    show a.mirrored.described.cp = { a.described.cp with wdofs := a.described.cp.surf.mirrorDofs a.described.cp.wdofs }
    rw [described_cp, described_cp, mirrored_windingData hg]
    rfl
  have h : ∀ X Y : FieldProblem, X.cp = Y.cp → X.bPlasma = Y.bPlasma → X.wPhis = Y.wPhis → X.wThetas = Y.wThetas → X.ePhis = Y.ePhis →
      X.eThetas = Y.eThetas → X.plasma = Y.plasma → X = Y := by
    intro X Y
    cases X
    cases Y
    simp only [FieldProblem.mk.injEq]
    exact fun h1 h2 h3 h4 h5 h6 h7 => ⟨h1, h3, h4, h5, h6, h7, h2⟩
  exact h _ _ hw rfl rfl rfl rfl rfl rfl

theorem numR_gt {S : SurfaceShape} (h : 1 ≤ S.mpol) : S.ntor * 2 + 1 < S.numR := by
  have : 1 * (2 * S.ntor + 1) ≤ S.mpol * (2 * S.ntor + 1) := Nat.mul_le_mul_right _ h
  unfold SurfaceShape.numR
  split <;> omega

/-- The coefficient read as minor radius belongs to `R`. -/
theorem minorRadius_mirror {S : SurfaceShape} (h : 1 ≤ S.mpol) (d : List ℝ) : minorRadius S.ntor (S.mirrorDofs d) = minorRadius S.ntor d := by
  have hn := numR_gt h
  by_cases hl : S.ntor * 2 + 1 < d.length
  · have h1 : S.ntor * 2 + 1 < (d.take S.numR).length := by
      rw [List.length_take]
      omega
    have e : ∀ x y : ℝ, (S.mirrorDofs d).getD (S.ntor * 2 + 1) x = d.getD (S.ntor * 2 + 1) y := by
      intro x y
      rw [SurfaceShape.mirrorDofs, List.getD_append _ _ _ _ h1, List.getD_eq_getElem _ _ h1, List.getElem_take, List.getD_eq_getElem _ _ hl]
    exact e _ _
  · have e : S.mirrorDofs d = d := by
      rw [SurfaceShape.mirrorDofs, List.take_of_length_le (by omega), List.drop_eq_nil_of_le (by omega), List.map_nil, List.append_nil]
    rw [e]

theorem mirrored_unit (hu : a.UnitReadsR) (Q : FieldProblem) : a.mirrored.unit Q.mirrored = a.unit Q := by
  unfold CallArgs.unit
  rw [bnormal_mirrored]
  have hi : a.mirrored.phiInit = a.phiInit := rfl
  rw [hi]
  simp only [CallArgs.mirrored]
  cases hp : a.phiUnit with
  | some u => rfl
  | none =>
    cases hd : a.plasmaCoilDistance with
    | some d => simp only [Option.getD_none, phiUnitAuto, Option.map_some, abs_neg]
    | none =>
      have hm : 1 ≤ a.plasmaMpol ∧ 1 ≤ a.windingMpol := by
        rcases hu with h | h | h
        · simp [hp] at h
        · simp [hd] at h
        · exact h
      simp only [Option.getD_none, phiUnitAuto, Option.map_none]
      have h1 : minorRadius a.plasmaNtor (a.plasmaShape.mirrorDofs a.plasmaDofs) = minorRadius a.plasmaNtor a.plasmaDofs :=
        minorRadius_mirror (S := a.plasmaShape) hm.1 _
      rw [h1]
      cases a.windingDofs with
      | none => rfl
      | some w =>
        simp only [Option.map_some, Option.getD_some]
        have h2 : minorRadius a.windingNtor (SurfaceShape.mirrorDofs ⟨a.nfp, a.windingStellsym, a.windingMpol, a.windingNtor⟩ w) =
            minorRadius a.windingNtor w := minorRadius_mirror (S := ⟨a.nfp, a.windingStellsym, a.windingMpol, a.windingNtor⟩) hm.2 _
        rw [h2]

theorem mirrored_generatorShapes : a.mirrored.generatorShapes = a.generatorShapes := by
  unfold CallArgs.generatorShapes
  have h : requireShape (a.mirrored.plasmaDofs.length = a.mirrored.plasmaShape.columns) =
      requireShape (a.plasmaDofs.length = a.plasmaShape.columns) := requireShape_congr (by
    rw [show a.mirrored.plasmaDofs.length = a.plasmaDofs.length from mirrorDofs_length _ _]
    rfl)
  rw [h]
  simp only [CallArgs.mirrored, Option.isSome_map]

theorem mirrored_unitShapes (hg : a.GeneratorMirrors) : a.mirrored.unitShapes = a.unitShapes := by
  have h1 : requireShape (a.mirrored.plasmaDofs.length = a.mirrored.plasmaShape.columns) =
      requireShape (a.plasmaDofs.length = a.plasmaShape.columns) := requireShape_congr (by
    rw [show a.mirrored.plasmaDofs.length = a.plasmaDofs.length from mirrorDofs_length _ _]
    rfl)
  have h2 : requireShape (a.mirrored.windingData.2.length = a.mirrored.windingShape.columns) =
      requireShape (a.windingData.2.length = a.windingShape.columns) := requireShape_congr (by
    rw [CallArgs.windingShape, mirrored_windingData hg, mirrorDofs_length]
    rfl)
  unfold CallArgs.unitShapes
  rw [h1, h2]
  rfl

theorem setup_mirrored (hr : Mirrorable a.opts.smoothing objs cons) (hg : a.GeneratorMirrors) (hu : a.UnitReadsR) :
    (∃ e, (a.mirrored.listing objs cons).setup (shippedRegistry FieldProblem.fns others) = .error e ∧
      (a.listing objs cons).setup (shippedRegistry FieldProblem.fns others) = .error e) ∨
    ∃ Q S' S, (a.mirrored.listing objs cons).setup (shippedRegistry FieldProblem.fns others) = .ok (Q.mirrored, S') ∧
      (a.listing objs cons).setup (shippedRegistry FieldProblem.fns others) = .ok (Q, S) ∧ CorrespondingSetup id S' S := by
  unfold CallArgs.setup
  have e1 : (a.mirrored.listing objs cons).checked = (a.listing objs cons).checked := by
    simp only [CallArgs.checked, CallArgs.listing, CallArgs.mirrored, Option.isSome_map]
  rw [e1]
  by_cases hn : a.nfp = 0
  · have h1 : (a.listing objs cons).nfp = 0 := hn
    have h2 : (a.mirrored.listing objs cons).nfp = 0 := hn
    rw [if_pos h1, if_pos h2]
    exact .inl ⟨_, rfl, rfl⟩
  have h1 : (a.listing objs cons).nfp ≠ 0 := hn
  have h2 : (a.mirrored.listing objs cons).nfp ≠ 0 := hn
  rw [if_neg h1, if_neg h2]
  simp only [bind, Except.bind]
  cases quadcoilChecks (a.listing objs cons).checked with
  | error e => exact .inl ⟨_, rfl, rfl⟩
  | ok _ =>
  have e2 : (a.mirrored.listing objs cons).generatorShapes = (a.listing objs cons).generatorShapes := mirrored_generatorShapes (a := a)
  have e3 : ∀ (a : CallArgs) os cs, (a.listing os cs).paramsObj = a.paramsObj := fun _ _ _ => rfl
  have e4 : (a.mirrored.listing objs cons).unitShapes = (a.listing objs cons).unitShapes := mirrored_unitShapes (a := a) hg
  have e5 : (a.mirrored.listing objs cons).phiInit = (a.listing objs cons).phiInit := rfl
  have e6 : ∀ Q, (a.mirrored.listing objs cons).unit (FieldProblem.mirrored Q) = (a.listing objs cons).unit Q := mirrored_unit (a := a) hu
  have e7 : ∀ os cs, (a.listing os cs).opts = a.opts.listing os cs := fun _ _ => rfl
  have e8 : (a.mirrored.listing objs cons).opts = a.opts.listing objs cons := rfl
  simp only [e2, e3, e4, e5, e7, e8]
  cases (a.listing objs cons).generatorShapes with
  | error e => exact .inl ⟨_, rfl, rfl⟩
  | ok _ =>
  by_cases hdvd : a.nfp ∣ a.wPhi.length
  · obtain ⟨o, ho, hQ, hN⟩ := paramsObj_ok hdvd
    obtain ⟨o', ho', hQ', hN'⟩ := paramsObj_ok (a := a.mirrored) hdvd
    rw [mirrored_described hg, ← hQ] at hQ'
    rw [show a.mirrored.paramsObj = .ok o' from ho', ho]
    have hN2 : o'.ndofs = o.ndofs := hN'.trans hN.symm
    simp only [hQ', hN2, e6]
    rcases fghFromY_mirrored (others := others) o.toField a.opts objs cons with ⟨e, h', h⟩ | ⟨-, h', h⟩
    · rw [h', h]
      exact .inl ⟨e, rfl, rfl⟩
    rw [h', h]
    simp only
    cases requireShape ((a.listing objs cons).phiInit.length = o.ndofs) with
    | error e => exact .inl ⟨_, rfl, rfl⟩
    | ok _ =>
    cases (a.listing objs cons).unitShapes with
    | error e => exact .inl ⟨_, rfl, rfl⟩
    | ok _ =>
    simp only
    rcases quadcoilSetup_mirrored (others := others) (Q := o.toField) a.opts hr ((a.listing objs cons).unit o.toField) with
      ⟨e, h1', h1⟩ | ⟨S', S, h1', h1, hS⟩
    · rw [h1', h1]
      exact .inl ⟨_, rfl, rfl⟩
    · rw [h1', h1]
      exact .inr ⟨_, S', S, rfl, rfl, hS⟩
  · rw [paramsObj_error hdvd, show a.mirrored.paramsObj = _ from paramsObj_error (a := a.mirrored) hdvd]
    exact .inl ⟨_, rfl, rfl⟩

/-! ## The output -/

theorem mirroredOut_dictSet (out : List (String × MetricOut Val)) (n : String) (m : MetricOut Val) :
    mirroredOut (dictSet out n m) = dictSet (mirroredOut out) n { m with value := mirroredValue n m.value } := by
  simp only [mirroredOut, dictSet, List.map_append, List.map_cons, List.map_nil, List.filter_map]
  rfl

theorem foldlM_mirrored {step' step : List (String × MetricOut Val) → String → Except PyErr (List (String × MetricOut Val))}
    (h : ∀ out n, step' (mirroredOut out) n = (step out n).map mirroredOut) (names : List String) (out : List (String × MetricOut Val)) :
    names.foldlM step' (mirroredOut out) = (names.foldlM step out).map mirroredOut := by
  induction names generalizing out with
  | nil => rfl
  | cons n ns ih =>
    rw [List.foldlM_cons, List.foldlM_cons, h]
    cases step out n with
    | error e => rfl
    | ok o => exact ih o

theorem metricValue_mirrored (d : Dofs) (n : String) :
    metricValue (shippedRegistry FieldProblem.fns others) Q.mirrored d n =
      (metricValue (shippedRegistry FieldProblem.fns others) Q d n).map (mirroredValue n) := by
  unfold metricValue
  cases hq : getQuantity (shippedRegistry FieldProblem.fns others) n with
  | error e => rfl
  | ok q => simp only [Bind.bind, Except.bind, Except.map, call_mirrored (getQuantity_ok.1 hq) d]

theorem outDict_mirrored {p' p : Fgh FieldProblem} {d : Dofs} (hp : p'.f d = p.f d) :
    (a.mirrored.listing objs cons).outDict (shippedRegistry FieldProblem.fns others) Q.mirrored p' d =
      ((a.listing objs cons).outDict (shippedRegistry FieldProblem.fns others) Q p d).map mirroredOut := by
  unfold CallArgs.outDict
  have hm : (a.mirrored.listing objs cons).metrics = (a.listing objs cons).metrics := rfl
  have hy : (a.mirrored.listing objs cons).yArgs = (a.listing objs cons).yArgs := by
    simp only [CallArgs.yArgs, CallArgs.mirrored, CallArgs.listing, Option.isSome_map]
  have hv : (a.mirrored.listing objs cons).valueOnly = (a.listing objs cons).valueOnly := rfl
  rw [hm, hy, hv, hp]
  by_cases hvo : (a.listing objs cons).valueOnly = true
  · rw [if_pos hvo, if_pos hvo]
    refine foldlM_mirrored (fun out n => ?_) _ []
    unfold valueOnlyStep
    by_cases hn : n = "f_obj"
    · rw [if_pos hn, if_pos hn]
      rfl
    · rw [if_neg hn, if_neg hn, metricValue_mirrored]
      cases metricValue (shippedRegistry FieldProblem.fns others) Q d n with
      | error e => rfl
      | ok v => simp only [Bind.bind, Except.bind, Except.map, mirroredOut_dictSet]
  · rw [if_neg hvo, if_neg hvo]
    refine foldlM_mirrored (fun out n => ?_) _ []
    unfold gradientStep
    by_cases hn : n = "f_obj"
    · subst hn
      simp only [if_true, Bind.bind, Except.bind, Except.map, mirroredOut_dictSet, mirroredValue_same (n := "f_obj") (by simp [handedNames])]
    · rw [if_neg hn, if_neg hn, metricValue_mirrored]
      cases metricValue (shippedRegistry FieldProblem.fns others) Q d n with
      | error e => rfl
      | ok v => simp only [Bind.bind, Except.bind, Except.map, mirroredOut_dictSet]

/-- **C161.** A call for the mirror image of a device fails in the same way as the call for the device, or stops if and only if it stops and returns
the same potential, the mirror image of the problem, and every output with the value that its quantity has in the mirror image. -/
theorem C161_call {opt : Optimizer ℝ} {gradOp : (List ℝ → ℝ) → List ℝ → List ℝ} (hsh : opt.ShapeContract gradOp)
    (hloc : opt.LocalContract gradOp) (others : List String) (a : CallArgs) {objs : List ObjectiveItem} {cons : List Request}
    (hg : ∀ d, a.plasmaCoilDistance = some d →
      a.generator (a.plasmaGamma.map fun r => r.map mirrorZ) (-d) a.nfp a.plasmaStellsym a.windingMpol a.windingNtor =
        SurfaceShape.mirrorDofs ⟨a.nfp, a.stellsym, a.windingMpol, a.windingNtor⟩
          (a.generator a.plasmaGamma d a.nfp a.plasmaStellsym a.windingMpol a.windingNtor))
    (hu : a.phiUnit.isSome ∨ a.plasmaCoilDistance.isSome ∨ 1 ≤ a.plasmaMpol ∧ 1 ≤ a.windingMpol)
    (hn : ∀ r ∈ cons, r.name ≠ "K" ∧ r.name ≠ "K_dot_grad_K" ∧ r.name ≠ "K_dot_grad_K_cyl" ∧ r.name ≠ "winding_surface_B")
    (hh : a.opts.smoothing = none ∨ (∀ o ∈ objs, o.name ≠ "f_huber_K") ∧ ∀ r ∈ cons, r.name ≠ "f_huber_K") :
    MirroredResults (quadcoilCall opt gradOp (shippedRegistry FieldProblem.fns others) (a.mirrored.listing objs cons))
      (quadcoilCall opt gradOp (shippedRegistry FieldProblem.fns others) (a.listing objs cons)) := by
  have hr : Mirrorable a.opts.smoothing objs cons := ⟨fun r hm => by simpa [handedNames] using hn r hm, hh⟩
  unfold quadcoilCall
  rcases setup_mirrored (others := others) hr hg hu with ⟨e, h', h⟩ | ⟨Q, S', S, h', h, hS⟩
  · rw [h', h]
    exact .error _
  rw [h', h]
  simp only [bind, Except.bind]
  have e7 : (a.listing objs cons).opts = a.opts.listing objs cons := rfl
  have e8 : (a.mirrored.listing objs cons).opts = a.opts.listing objs cons := rfl
  simp only [e7, e8]
  rcases fghFromY_mirrored (others := others) Q a.opts objs cons with ⟨e, h1', h1⟩ | ⟨hall, h1', h1⟩
  · rw [h1', h1]
    exact .error _
  rw [h1', h1]
  simp only
  rcases quadcoilSolve_correspond hsh hloc hS with ⟨k1, k2⟩ | ⟨r', r, x, k1, k2, hr2⟩
  · rw [k1, k2]
    exact .none
  rw [k1, k2]
  simp only [id]
  rw [outDict_mirrored (a := a) (p := fghOf Q a.opts (joinedVal (shippedRegistry FieldProblem.fns others) a.opts.smoothing a.opts.sp objs cons))
    ((joined_mirrored (Q := Q) hr hall fun _ => .scalar 0).1 _)]
  cases (a.listing objs cons).outDict (shippedRegistry FieldProblem.fns others) Q
    (fghOf Q a.opts (joinedVal (shippedRegistry FieldProblem.fns others) a.opts.smoothing a.opts.sp objs cons)) (dofsOf S.template S.phiUnit x) with
  | error e => exact .error _
  | ok out => exact .some hr2

/-! ## Examples -/

/-- A call with a given winding surface in slack mode, with a maximum norm of forces and a maximum norm of the potential. -/
example (a : CallArgs) (others : List String) (hd : a.plasmaCoilDistance = none) (hp : a.plasmaMpol = 4) (hw : a.windingMpol = 6) :
    MirroredResults
      (quadcoilCall (gradientDescent realGrad (1 / 4)) realGrad (shippedRegistry FieldProblem.fns others)
        (a.mirrored.listing [⟨"f_B", .none, 1⟩, ⟨"f_max_force_cyl", .scalar 3, 1 / 2⟩] [⟨"K_theta", ">=", .none, 0⟩, ⟨"f_max_Phi", "<=", .none, 7⟩]))
      (quadcoilCall (gradientDescent realGrad (1 / 4)) realGrad (shippedRegistry FieldProblem.fns others)
        (a.listing [⟨"f_B", .none, 1⟩, ⟨"f_max_force_cyl", .scalar 3, 1 / 2⟩] [⟨"K_theta", ">=", .none, 0⟩, ⟨"f_max_Phi", "<=", .none, 7⟩])) :=
  C161_call (gradientDescent_shape _ (by simp [realGrad]) _) (gradientDescent_local _) others a (by simp [hd])
    (.inr (.inr ⟨by omega, by omega⟩)) (by simp) (.inr (by simp))

/-- The mirror image of a stellarator-symmetric surface with `mpol = 1`, `ntor = 0`: the coefficient of `Z` changes sign. -/
example : SurfaceShape.mirrorDofs ⟨3, true, 1, 0⟩ [5, 1, 2] = [5, 1, -2] := by simp [SurfaceShape.mirrorDofs, SurfaceShape.numR]

/-- A vector changes, an integral does not. -/
example : mirroredValue "K" (.array [1, 2, 3, 4, 5, 6]) = .array [1, 2, -3, 4, 5, -6] ∧
    mirroredValue "winding_surface_B" (.array [1, 2, 3]) = .array [-1, -2, 3] ∧ mirroredValue "f_B" (.scalar 2) = .scalar 2 := by
  simp [mirroredValue, mirrorVectors, mirrorEntries, Val.entries]

end Verif
