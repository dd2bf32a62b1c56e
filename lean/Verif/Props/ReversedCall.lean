import Verif.Lemmas.ReversedForms
import Verif.Props.UnitSign
import Verif.Spec.ReversedCall

/-!
# C160: a call with all currents reversed returns the reversed solution
-/

namespace Verif

variable {others : List String} {sm : Option String} {sp : SmoothingParams} {Q : FieldProblem}

/-! ## Parsing -/

/-- What the property needs: constraints that are linear in the currents have a unit given by the user, and the Huber loss is not smoothed. -/
structure Reversible (sm : Option String) (objs : List ObjectiveItem) (cons : List Request) : Prop where
  units : ∀ r ∈ cons, r.name ∈ oddQuantities → r.unit ≠ .none
  huber : sm = none ∨ (∀ o ∈ objs, o.name ≠ "f_huber_K") ∧ ∀ r ∈ cons, r.name ≠ "f_huber_K"

theorem conPart_ok_iff (r : Request) : (∃ c, conPart (shippedRegistry FieldProblem.fns others) sm sp r = .ok c) ↔
    LegalUse (shippedRegistry FieldProblem.fns others) sm r.name r.unit r.type ∧ (r.type = "==" ∨ r.type = "<=" ∨ r.type = ">=") := by
  rw [← addQuantity_ok_iff (shippedRegistry FieldProblem.fns others) sm sp]
  constructor
  · rintro ⟨c, hc⟩
    obtain ⟨A, hA, h⟩ := parseStep_ok.1 hc
    refine ⟨⟨A, hA⟩, ?_⟩
    rcases h with ⟨h, -⟩ | ⟨h, -⟩ | ⟨h, -⟩
    · exact .inl h
    · exact .inr (.inl h)
    · exact .inr (.inr h)
  · rintro ⟨⟨A, hA⟩, h | h | h⟩
    · exact ⟨_, parseStep_ok.2 ⟨A, hA, .inl ⟨h, rfl⟩⟩⟩
    · exact ⟨_, parseStep_ok.2 ⟨A, hA, .inr (.inl ⟨h, rfl⟩)⟩⟩
    · exact ⟨_, parseStep_ok.2 ⟨A, hA, .inr (.inr ⟨h, rfl⟩)⟩⟩

theorem conPart_reversed_ok (r : Request) : (∃ c, conPart (shippedRegistry FieldProblem.fns others) sm sp r.reversed = .ok c) ↔
    ∃ c, conPart (shippedRegistry FieldProblem.fns others) sm sp r = .ok c := by
  rw [conPart_ok_iff, conPart_ok_iff, C158_constraints]
  refine and_congr_right fun _ => ?_
  unfold Request.reversed
  split
  · simp only [oppositeType]
    by_cases h1 : r.type = "<="
    · simp [h1]
    by_cases h2 : r.type = ">="
    · simp [h2]
    · simp [h1, h2]
  · rfl

theorem allOk_reversed (objs : List ObjectiveItem) (cons : List Request) :
    AllOk (shippedRegistry FieldProblem.fns others) sm sp objs (cons.map Request.reversed) ↔
      AllOk (shippedRegistry FieldProblem.fns others) sm sp objs cons := by
  unfold AllOk
  simp only [List.forall_mem_map, conPart_reversed_ok]

theorem conVal_reversed {r : Request} (hunit : r.name ∈ oddQuantities → r.unit ≠ .none) (hhub : sm = none ∨ r.name ≠ "f_huber_K")
    (h : ∃ c, conPart (shippedRegistry FieldProblem.fns others) sm sp r = .ok c) (d0 : Dofs) :
    (conVal (shippedRegistry FieldProblem.fns others) sm sp r.reversed).slack = (conVal (shippedRegistry FieldProblem.fns others) sm sp r).slack ∧
    List.Forall₂ (Corresponds Q.reversed Q reversedDofs d0) (conVal (shippedRegistry FieldProblem.fns others) sm sp r.reversed).g
      (conVal (shippedRegistry FieldProblem.fns others) sm sp r).g ∧
    List.Forall₂ (Corresponds Q.reversed Q reversedDofs d0) (conVal (shippedRegistry FieldProblem.fns others) sm sp r.reversed).h
      (conVal (shippedRegistry FieldProblem.fns others) sm sp r).h := by
  have hst := conVal_static (registry_static others Q) h
  obtain ⟨c, hc⟩ := h
  obtain ⟨c', hc'⟩ := (conPart_reversed_ok (others := others) (sm := sm) (sp := sp) r).2 ⟨c, hc⟩
  rw [conVal_eq hc] at hst ⊢
  rw [conVal_eq hc']
  by_cases hodd : r.name ∈ oddQuantities
  · obtain ⟨q, u, hq, hu, -, h1, h2, h3⟩ := odd_constraint hodd hc
    obtain ⟨q', u', -, -, -, h1', h2', h3'⟩ := odd_constraint (by rw [request_reversed_name]; exact hodd) hc'
    have hw : ∃ w, r.unit = .scalar w := by
      cases hr : r.unit with
      | none => exact absurd hr (hunit hodd)
      | scalar w => exact ⟨w, rfl⟩
      | other =>
        rw [hr] at hu
        simp [unitCallable] at hu
    obtain ⟨w, hw⟩ := hw
    have e := C158_given_unit hodd hw hc hc' Q
    rw [h1, h2, h1', h2', h3']
    refine ⟨rfl, ?_, .nil⟩
    rw [h3] at hst e ⊢
    refine .cons (.of_eq (hst.1 _ (by simp)) fun d => ?_) .nil
    have := e d
    rw [h3'] at this
    simpa using this
  · have hr : r.reversed = r := by rw [Request.reversed, if_neg hodd]
    rw [hr, hc] at hc'
    cases hc'
    refine ⟨rfl, ?_⟩
    obtain ⟨A, hA, hcase⟩ := parseStep_ok.1 hc
    obtain ⟨v, u, hh, hg⟩ := added_reversed (Q := Q) hodd hhub hA d0
    have hf : ∀ sign d, consFunc A r.value sign sm sp Q.reversed (reversedDofs d) = consFunc A r.value sign sm sp Q d := by
      intro sign d
      simp only [consFunc, v, u]
    rcases hcase with ⟨-, rfl⟩ | ⟨-, rfl⟩ | ⟨-, rfl⟩
    · simp only [List.nil_append, hh] at hst ⊢
      exact ⟨hg, .cons (.of_eq (hst.2 _ (by simp)) (hf _)) .nil⟩
    · simp only [List.nil_append, hh] at hst ⊢
      exact ⟨List.rel_append hg (.cons (.of_eq (hst.1 _ (by simp)) (hf _)) .nil), .nil⟩
    · simp only [List.nil_append, hh] at hst ⊢
      exact ⟨List.rel_append hg (.cons (.of_eq (hst.1 _ (by simp)) (hf _)) .nil), .nil⟩

theorem objVal_reversed {o : ObjectiveItem} (hhub : sm = none ∨ o.name ≠ "f_huber_K")
    (h : ∃ c, objPart (shippedRegistry FieldProblem.fns others) sm sp o = .ok c) (d0 : Dofs) :
    (∀ d, (objVal (shippedRegistry FieldProblem.fns others) sm sp o).val Q.reversed (reversedDofs d) =
      (objVal (shippedRegistry FieldProblem.fns others) sm sp o).val Q d) ∧
    List.Forall₂ (Corresponds Q.reversed Q reversedDofs d0) (objVal (shippedRegistry FieldProblem.fns others) sm sp o).g
      (objVal (shippedRegistry FieldProblem.fns others) sm sp o).g ∧
    (objVal (shippedRegistry FieldProblem.fns others) sm sp o).h = [] := by
  obtain ⟨c, hc⟩ := h
  rw [objVal_eq hc]
  have hl := (addQuantity_ok_iff (shippedRegistry FieldProblem.fns others) sm sp o.name o.unit "f").1 ⟨c, hc⟩
  obtain ⟨v, -, hh, hg⟩ := added_reversed (Q := Q) (C158_objectives others sm hl) hhub hc d0
  exact ⟨v, hg, hh⟩

theorem forall₂_flatMap {α β γ : Type} {R : β → γ → Prop} (l : List α) {f : α → List β} {g : α → List γ} (h : ∀ a ∈ l, List.Forall₂ R (f a) (g a)) :
    List.Forall₂ R (l.flatMap f) (l.flatMap g) := by
  induction l with
  | nil => exact .nil
  | cons a l ih =>
    rw [List.flatMap_cons, List.flatMap_cons]
    exact List.rel_append (h a (by simp)) (ih fun b hb => h b (List.mem_cons_of_mem _ hb))

theorem fTot_congr {P : Type} {fs : List (P → Dofs → Val)} {qp' qp : P} {d' d : Dofs} (h : ∀ fn ∈ fs, fn qp' d' = fn qp d) (ws : List ℝ) :
    fTot fs ws qp' d' = fTot fs ws qp d := by
  unfold fTot
  generalize Val.scalar 0 = acc
  induction fs generalizing ws acc with
  | nil => rfl
  | cons f fs ih =>
    cases ws with
    | nil => rfl
    | cons w ws =>
      simp only [List.zip_cons_cons, List.foldl_cons]
      rw [h f (by simp)]
      exact ih (fun fn hfn => h fn (List.mem_cons_of_mem _ hfn)) ws _

variable {objs : List ObjectiveItem} {cons : List Request}

theorem joined_reversed (hr : Reversible sm objs cons) (hok : AllOk (shippedRegistry FieldProblem.fns others) sm sp objs cons) (d0 : Dofs) :
    (∀ d, (joinedVal (shippedRegistry FieldProblem.fns others) sm sp objs (cons.map Request.reversed)).f Q.reversed (reversedDofs d) =
      (joinedVal (shippedRegistry FieldProblem.fns others) sm sp objs cons).f Q d) ∧
    (joinedVal (shippedRegistry FieldProblem.fns others) sm sp objs (cons.map Request.reversed)).slack =
      (joinedVal (shippedRegistry FieldProblem.fns others) sm sp objs cons).slack ∧
    List.Forall₂ (Corresponds Q.reversed Q reversedDofs d0)
      (joinedVal (shippedRegistry FieldProblem.fns others) sm sp objs (cons.map Request.reversed)).g
      (joinedVal (shippedRegistry FieldProblem.fns others) sm sp objs cons).g ∧
    List.Forall₂ (Corresponds Q.reversed Q reversedDofs d0)
      (joinedVal (shippedRegistry FieldProblem.fns others) sm sp objs (cons.map Request.reversed)).h
      (joinedVal (shippedRegistry FieldProblem.fns others) sm sp objs cons).h := by
  have ho := fun o (hm : o ∈ objs) => objVal_reversed (Q := Q) (hr.huber.imp_right fun h => h.1 o hm) (hok.1 o hm) d0
  have hc := fun r (hm : r ∈ cons) => conVal_reversed (Q := Q) (hr.units r hm) (hr.huber.imp_right fun h => h.2 r hm) (hok.2 r hm) d0
  simp only [joinedVal, List.flatMap_map, List.map_map]
  refine ⟨fun d => fTot_congr (List.forall_mem_map.2 fun o hm => (ho o hm).1 d) _, ?_, ?_, ?_⟩
  · congr 2
    exact List.map_congr_left fun r hm => (hc r hm).1
  · exact List.rel_append (forall₂_flatMap _ fun o hm => (ho o hm).2.1) (forall₂_flatMap _ fun r hm => (hc r hm).2.1)
  · refine List.rel_append (forall₂_flatMap _ fun o hm => ?_) (forall₂_flatMap _ fun r hm => (hc r hm).2.2)
    rw [(ho o hm).2.2]
    exact .nil

/-! ## The problem handed to the solver -/

/-- The options with the opposite initial potential. -/
noncomputable def QuadcoilArgs.reversed (o : QuadcoilArgs) : QuadcoilArgs := { o with phiInit := o.phiInit.map fun c => c.map fun x => -x }

theorem xTemplate_reversed {slack : List (String × (FieldProblem → Dofs → Val))} (h : SlackOk (shippedRegistry FieldProblem.fns others) slack)
    (phi : List ℝ) (u : ℝ) : xTemplate Q.reversed (phi.map fun x => -x) (-u) slack = xTemplate Q phi u slack := by
  have h1 : (phi.map fun x => -x).map (fun t => t / (-u)) = phi.map fun t => t / u := by
    rw [List.map_map]
    exact List.map_congr_left fun t _ => neg_div_neg_eq t u
  have h2 : (slack.map fun kv => (kv.1, kv.2 Q.reversed (phiOnly (Val.array (phi.map fun x => -x))))) =
      slack.map fun kv => (kv.1, kv.2 Q (phiOnly (Val.array phi))) := by
    refine List.map_congr_left fun kv hkv => ?_
    have := init_reversed (Q := Q) (h.2 kv.1 kv.2 (lookup_of_mem h.1 hkv)) (phiOnly (Val.array phi))
    rw [phiOnly_reversed] at this
    rw [this]
  rw [xTemplate, h1, h2, xTemplate]

theorem phiInit_reversed (o : QuadcoilArgs) (Q : FieldProblem) : o.reversed.phiInit.getD (List.replicate (HasQp.ndofs Q.reversed) 0) =
    (o.phiInit.getD (List.replicate (HasQp.ndofs Q) 0)).map fun x => -x := by
  simp only [QuadcoilArgs.reversed]
  cases o.phiInit with
  | some c => rfl
  | none =>
    simp only [Option.map_none, Option.getD_none, List.map_replicate, neg_zero]
    rfl

theorem fghFromY_reversed (Q : FieldProblem) (a : QuadcoilArgs) (objs : List ObjectiveItem) (cons : List Request) :
    ((∃ e', fghFromY (shippedRegistry FieldProblem.fns others) Q.reversed (a.reversed.listing objs (cons.map Request.reversed)) = .error e') ∧
      ∃ e, fghFromY (shippedRegistry FieldProblem.fns others) Q (a.listing objs cons) = .error e) ∨
    (AllOk (shippedRegistry FieldProblem.fns others) a.smoothing a.sp objs cons ∧
      fghFromY (shippedRegistry FieldProblem.fns others) Q.reversed (a.reversed.listing objs (cons.map Request.reversed)) =
        .ok (fghOf Q.reversed a (joinedVal (shippedRegistry FieldProblem.fns others) a.smoothing a.sp objs (cons.map Request.reversed))) ∧
      fghFromY (shippedRegistry FieldProblem.fns others) Q (a.listing objs cons) =
        .ok (fghOf Q a (joinedVal (shippedRegistry FieldProblem.fns others) a.smoothing a.sp objs cons))) := by
  by_cases h : AllOk (shippedRegistry FieldProblem.fns others) a.smoothing a.sp objs cons
  · exact .inr ⟨h, (fghFromY_listing ..).2 ⟨(allOk_reversed objs cons).2 h, rfl⟩, (fghFromY_listing ..).2 ⟨h, rfl⟩⟩
  · left
    constructor
    · cases h' : fghFromY (shippedRegistry FieldProblem.fns others) Q.reversed (a.reversed.listing objs (cons.map Request.reversed)) with
      | error e => exact ⟨e, rfl⟩
      | ok p => exact absurd ((allOk_reversed objs cons).1 ((fghFromY_listing ..).1 h').1) h
    · cases h' : fghFromY (shippedRegistry FieldProblem.fns others) Q (a.listing objs cons) with
      | error e => exact ⟨e, rfl⟩
      | ok p => exact absurd ((fghFromY_listing ..).1 h').1 h

/-- The opposite unit of the potential makes up for the opposite potential. -/
theorem quadcoilSetup_reversed (a : QuadcoilArgs) (hr : Reversible a.smoothing objs cons) (u : ℝ) :
    ((∃ e', quadcoilSetup (shippedRegistry FieldProblem.fns others) Q.reversed (a.reversed.listing objs (cons.map Request.reversed)) (-u) = .error e') ∧
      ∃ e, quadcoilSetup (shippedRegistry FieldProblem.fns others) Q (a.listing objs cons) u = .error e) ∨
    ∃ S' S ys, quadcoilSetup (shippedRegistry FieldProblem.fns others) Q.reversed (a.reversed.listing objs (cons.map Request.reversed)) (-u) = .ok S' ∧
      quadcoilSetup (shippedRegistry FieldProblem.fns others) Q (a.listing objs cons) u = .ok S ∧ CorrespondingSetup reversedDofs S' S ∧
      S.template.lookup "phi_scaled" = some (Val.array ys) := by
  rcases fghFromY_reversed (others := others) Q a objs cons with ⟨⟨e', h'⟩, e, h⟩ | ⟨hall, h', h⟩
  · unfold quadcoilSetup
    rw [h', h]
    exact .inl ⟨⟨e', rfl⟩, e, rfl⟩
  rw [quadcoilSetup_from _ _ _ _ _ h', quadcoilSetup_from _ _ _ _ _ h, phiInit_reversed]
  have hreg := shipped_auxNames FieldProblem.fns others
  have hok := joined_slackOk hreg hall
  have hphis := xTemplate_phi hreg hok Q (a.phiInit.getD (List.replicate (HasQp.ndofs Q) 0)) u
  have ht : xTemplate Q.reversed ((a.phiInit.getD (List.replicate (HasQp.ndofs Q) 0)).map fun x => -x) (-u)
      (fghOf Q.reversed a (joinedVal (shippedRegistry FieldProblem.fns others) a.smoothing a.sp objs (cons.map Request.reversed))).slack =
      xTemplate Q (a.phiInit.getD (List.replicate (HasQp.ndofs Q) 0)) u
        (joinedVal (shippedRegistry FieldProblem.fns others) a.smoothing a.sp objs cons).slack := by
    rw [← xTemplate_reversed hok]
    simp only [fghOf, (joined_reversed (Q := Q) hr hall fun _ => .scalar 0).2.1]
  rw [ht]
  have hsl : (fghOf Q a (joinedVal (shippedRegistry FieldProblem.fns others) a.smoothing a.sp objs cons)).slack =
      (joinedVal (shippedRegistry FieldProblem.fns others) a.smoothing a.sp objs cons).slack := rfl
  rw [hsl]
  generalize xTemplate Q (a.phiInit.getD (List.replicate (HasQp.ndofs Q) 0)) u
    (joinedVal (shippedRegistry FieldProblem.fns others) a.smoothing a.sp objs cons).slack = t at hphis ⊢
  obtain ⟨hf, -, hg, hh⟩ := joined_reversed (Q := Q) hr hall (dofsOf t u (ravel t))
  have hn : (fghOf Q.reversed a (joinedVal (shippedRegistry FieldProblem.fns others) a.smoothing a.sp objs (cons.map Request.reversed))).nG =
      (fghOf Q a (joinedVal (shippedRegistry FieldProblem.fns others) a.smoothing a.sp objs cons)).nG := by
    simp only [fghOf, hg.length_eq]
  have hn' : (fghOf Q.reversed a (joinedVal (shippedRegistry FieldProblem.fns others) a.smoothing a.sp objs (cons.map Request.reversed))).nH =
      (fghOf Q a (joinedVal (shippedRegistry FieldProblem.fns others) a.smoothing a.sp objs cons)).nH := by
    simp only [fghOf, hh.length_eq]
  rw [hn, hn']
  have hρ : ∀ x : List ℝ, x.length = (ravel t).length → dofsOf t (-u) x = reversedDofs (dofsOf t u x) := by
    intro x _
    have := dofsOf_scale ⟨_, hphis⟩ (fun v hv => ⟨_, Option.some.inj (hv.symm.trans hphis)⟩) (-1) u x
    rw [neg_one_mul] at this
    rw [this, reversedDofs_eq]
  rcases setupFrom_correspond a hphis hρ hf hg hh _ _ with ⟨e, h1, h2⟩ | ⟨S', S, h1, h2, hS⟩
  · exact .inl ⟨⟨e, h1⟩, e, h2⟩
  · refine .inr ⟨S', S, (a.phiInit.getD (List.replicate (HasQp.ndofs Q) 0)).map (fun t => t / u), h1, h2, hS, ?_⟩
    rw [setupFrom_template h2]
    exact hphis

/-! ## The arguments -/

variable {a : CallArgs}

theorem reversed_plasmaGamma : a.reversed.plasmaGamma = a.plasmaGamma := rfl

theorem reversed_phiInit : a.reversed.phiInit = a.phiInit.map fun x => -x := by
  unfold CallArgs.phiInit
  simp only [CallArgs.reversed]
  cases a.opts.phiInit <;> simp

theorem reversed_bnormalArr : a.reversed.bnormalArr = a.bnormalArr.map fun r => r.map fun x => -x := by
  unfold CallArgs.bnormalArr
  simp only [CallArgs.reversed]
  cases a.bnormalPlasma with
  | some b => rfl
  | none =>
    simp only [Option.map_none, Option.getD_none, List.map_map]
    refine List.map_congr_left fun p _ => ?_
    simp only [Function.comp_apply, List.map_map]
    refine List.map_congr_left fun t _ => ?_
    simp

theorem reversed_described : a.reversed.described = a.described.reversed := by
  have hb : a.reversed.described.bPlasma = a.described.reversed.bPlasma := by
    simp only [CallArgs.described, CallArgs.reversed, FieldProblem.reversed]
    cases a.bnormalPlasma with
    | some b => simp [List.map_flatten]
    | none =>
      simp only [Option.map_none, List.map_replicate, neg_zero]
      rfl
  have hw : a.reversed.described.cp = a.described.reversed.cp := by
    show a.reversed.described.cp = { a.described.cp with G := -a.described.cp.G, I := -a.described.cp.I }
    rw [described_cp, described_cp]
    rfl
  have h : ∀ X Y : FieldProblem, X.cp = Y.cp → X.bPlasma = Y.bPlasma → X.wPhis = Y.wPhis → X.wThetas = Y.wThetas → X.ePhis = Y.ePhis →
      X.eThetas = Y.eThetas → X.plasma = Y.plasma → X = Y := by
    intro X Y
    cases X
    cases Y
    simp only [FieldProblem.mk.injEq]
    exact fun h1 h2 h3 h4 h5 h6 h7 => ⟨h1, h3, h4, h5, h6, h7, h2⟩
  exact h _ _ hw hb rfl rfl rfl rfl rfl

theorem reversed_unit (Q : FieldProblem) : a.reversed.unit Q.reversed = a.unit Q := by
  unfold CallArgs.unit
  have hb := (C158_fields Q (phiOnly (.array a.phiInit))).Bnormal
  rw [phiOnly_reversed] at hb
  have hb' : Q.reversed.bnormal (a.phiInit.map fun x => -x) = (Q.bnormal a.phiInit).map fun x => -x := hb
  rw [reversed_phiInit, hb']
  simp only [CallArgs.reversed]
  cases a.phiUnit with
  | some u => rfl
  | none =>
    simp only [Option.getD_none, phiUnitAuto, List.map_map, Function.comp_def, abs_neg, List.length_map]

theorem reversed_unitShapes : a.reversed.unitShapes = a.unitShapes := by
  have h2 : requireShape (a.reversed.bnormalArr.map List.length = a.reversed.pPhi.map fun _ => a.reversed.pTheta.length) =
      requireShape (a.bnormalArr.map List.length = a.pPhi.map fun _ => a.pTheta.length) := requireShape_congr (by
    rw [reversed_bnormalArr, List.map_map, show (List.length ∘ fun r : List ℝ => r.map fun x => -x) = List.length by
      funext r; simp]
    rfl)
  unfold CallArgs.unitShapes
  rw [h2]
  rfl

/-- Problem and setup of the call for reversed currents: the setup with the opposite unit corresponds to the given one. -/
theorem setup_reversed (hr : Reversible a.opts.smoothing objs cons) :
    ((∃ e', (a.reversed.listing objs (cons.map Request.reversed)).setup (shippedRegistry FieldProblem.fns others) = .error e') ∧
      ∃ e, (a.listing objs cons).setup (shippedRegistry FieldProblem.fns others) = .error e) ∨
    ∃ Q S' T S s ys, (a.reversed.listing objs (cons.map Request.reversed)).setup (shippedRegistry FieldProblem.fns others) = .ok (Q.reversed, S') ∧
      (a.listing objs cons).setup (shippedRegistry FieldProblem.fns others) = .ok (Q, S) ∧ FlippedSetup s S' T ∧
      CorrespondingSetup reversedDofs T S ∧ S.template.lookup "phi_scaled" = some (Val.array ys) := by
  unfold CallArgs.setup
  have e1 : (a.reversed.listing objs (cons.map Request.reversed)).checked = (a.listing objs cons).checked := by
    simp only [CallArgs.checked, CallArgs.listing, CallArgs.reversed, List.length_map]
  rw [e1]
  by_cases hn : a.nfp = 0
  · have h1 : (a.listing objs cons).nfp = 0 := hn
    have h2 : (a.reversed.listing objs (cons.map Request.reversed)).nfp = 0 := hn
    rw [if_pos h1, if_pos h2]
    exact .inl ⟨⟨_, rfl⟩, _, rfl⟩
  have h1 : (a.listing objs cons).nfp ≠ 0 := hn
  have h2 : (a.reversed.listing objs (cons.map Request.reversed)).nfp ≠ 0 := hn
  rw [if_neg h1, if_neg h2]
  simp only [bind, Except.bind]
  cases quadcoilChecks (a.listing objs cons).checked with
  | error e => exact .inl ⟨⟨_, rfl⟩, _, rfl⟩
  | ok _ =>
  have e2 : (a.reversed.listing objs (cons.map Request.reversed)).generatorShapes = (a.listing objs cons).generatorShapes := rfl
  have e3 : ∀ (a : CallArgs) os cs, (a.listing os cs).paramsObj = a.paramsObj := fun _ _ _ => rfl
  have e4 : (a.reversed.listing objs (cons.map Request.reversed)).unitShapes = (a.listing objs cons).unitShapes := reversed_unitShapes (a := a)
  have e5 : (a.reversed.listing objs (cons.map Request.reversed)).phiInit = (a.listing objs cons).phiInit.map fun x => -x := reversed_phiInit (a := a)
  have e6 : ∀ Q, (a.reversed.listing objs (cons.map Request.reversed)).unit (FieldProblem.reversed Q) = (a.listing objs cons).unit Q :=
    reversed_unit (a := a)
  have e7 : ∀ os cs, (a.listing os cs).opts = a.opts.listing os cs := fun _ _ => rfl
  have e8 : (a.reversed.listing objs (cons.map Request.reversed)).opts = a.opts.reversed.listing objs (cons.map Request.reversed) := rfl
  simp only [e2, e3, e4, e5, e7, e8, List.length_map]
  cases (a.listing objs cons).generatorShapes with
  | error e => exact .inl ⟨⟨_, rfl⟩, _, rfl⟩
  | ok _ =>
  by_cases hdvd : a.nfp ∣ a.wPhi.length
  · obtain ⟨o, ho, hQ, hN⟩ := paramsObj_ok hdvd
    obtain ⟨o', ho', hQ', hN'⟩ := paramsObj_ok (a := a.reversed) hdvd
    rw [reversed_described, ← hQ] at hQ'
    rw [show a.reversed.paramsObj = .ok o' from ho', ho]
    have hN2 : o'.ndofs = o.ndofs := hN'.trans hN.symm
    simp only [hQ', hN2, e6]
    rcases fghFromY_reversed (others := others) o.toField a.opts objs cons with ⟨⟨e', h'⟩, e, h⟩ | ⟨-, h', h⟩
    · rw [h', h]
      exact .inl ⟨⟨e', rfl⟩, e, rfl⟩
    rw [h', h]
    simp only
    cases requireShape ((a.listing objs cons).phiInit.length = o.ndofs) with
    | error e => exact .inl ⟨⟨_, rfl⟩, _, rfl⟩
    | ok _ =>
    cases (a.listing objs cons).unitShapes with
    | error e => exact .inl ⟨⟨_, rfl⟩, _, rfl⟩
    | ok _ =>
    simp only
    have hneg := quadcoilSetup_neg (shipped_auxNames FieldProblem.fns others) o.toField.reversed
      (a.opts.reversed.listing objs (cons.map Request.reversed)) (-(a.listing objs cons).unit o.toField)
    rw [neg_neg] at hneg
    rcases quadcoilSetup_reversed (others := others) (Q := o.toField) a.opts hr ((a.listing objs cons).unit o.toField) with
      ⟨⟨e', h1'⟩, e, h1⟩ | ⟨T, S, ys, h1', h1, hS, hys⟩
    · rcases hneg with ⟨e2, k1, -⟩ | ⟨s, S', T, -, k2, -⟩
      · rw [k1, h1]
        exact .inl ⟨⟨_, rfl⟩, _, rfl⟩
      · rw [h1'] at k2
        cases k2
    · rcases hneg with ⟨e2, -, k2⟩ | ⟨s, S', T', k1, k2, hflip⟩
      · rw [h1'] at k2
        cases k2
      · rw [h1'] at k2
        cases k2
        rw [k1, h1]
        exact .inr ⟨_, S', T, S, s, ys, rfl, rfl, hflip, hS, hys⟩
  · rw [paramsObj_error hdvd, show a.reversed.paramsObj = _ from paramsObj_error (a := a.reversed) hdvd]
    exact .inl ⟨⟨_, rfl⟩, _, rfl⟩

/-! ## The output -/

theorem reversedOut_dictSet (out : List (String × MetricOut Val)) (n : String) (m : MetricOut Val) :
    reversedOut (dictSet out n m) = dictSet (reversedOut out) n { m with value := reversedValue n m.value } := by
  simp only [reversedOut, dictSet, List.map_append, List.map_cons, List.map_nil, List.filter_map]
  rfl

theorem foldlM_reversed {step' step : List (String × MetricOut Val) → String → Except PyErr (List (String × MetricOut Val))}
    (h : ∀ out n, step' (reversedOut out) n = (step out n).map reversedOut) (names : List String) (out : List (String × MetricOut Val)) :
    names.foldlM step' (reversedOut out) = (names.foldlM step out).map reversedOut := by
  induction names generalizing out with
  | nil => rfl
  | cons n ns ih =>
    rw [List.foldlM_cons, List.foldlM_cons, h]
    cases step out n with
    | error e => rfl
    | ok o => exact ih o

theorem metricValue_reversed {d : Dofs} (hd : ∃ c, d "phi" = .array c) (n : String) :
    metricValue (shippedRegistry FieldProblem.fns others) Q.reversed (reversedDofs d) n =
      (metricValue (shippedRegistry FieldProblem.fns others) Q d n).map (reversedValue n) := by
  unfold metricValue
  cases hq : getQuantity (shippedRegistry FieldProblem.fns others) n with
  | error e => rfl
  | ok q =>
    simp only [Bind.bind, Except.bind, Except.map, call_reversed (getQuantity_ok.1 hq) d hd]

theorem reversedValue_fObj (v : Val) : reversedValue "f_obj" v = v := by simp [reversedValue, oddQuantities]

theorem outDict_reversed {p' p : Fgh FieldProblem} {d : Dofs} (hp : p'.f (reversedDofs d) = p.f d) (hd : ∃ c, d "phi" = .array c) :
    (a.reversed.listing objs (cons.map Request.reversed)).outDict (shippedRegistry FieldProblem.fns others) Q.reversed p' (reversedDofs d) =
      ((a.listing objs cons).outDict (shippedRegistry FieldProblem.fns others) Q p d).map reversedOut := by
  unfold CallArgs.outDict
  have hm : (a.reversed.listing objs (cons.map Request.reversed)).metrics = (a.listing objs cons).metrics := rfl
  have hy : (a.reversed.listing objs (cons.map Request.reversed)).yArgs = (a.listing objs cons).yArgs := by
    simp only [CallArgs.yArgs, CallArgs.reversed, CallArgs.listing, Option.isSome_map, List.length_map]
  have hv : (a.reversed.listing objs (cons.map Request.reversed)).valueOnly = (a.listing objs cons).valueOnly := rfl
  rw [hm, hy, hv, hp]
  by_cases hvo : (a.listing objs cons).valueOnly = true
  · rw [if_pos hvo, if_pos hvo]
    refine foldlM_reversed (fun out n => ?_) _ []
    unfold valueOnlyStep
    by_cases hn : n = "f_obj"
    · rw [if_pos hn, if_pos hn]
      rfl
    · rw [if_neg hn, if_neg hn, metricValue_reversed hd]
      cases metricValue (shippedRegistry FieldProblem.fns others) Q d n with
      | error e => rfl
      | ok v =>
        simp only [Bind.bind, Except.bind, Except.map, reversedOut_dictSet]
  · rw [if_neg hvo, if_neg hvo]
    refine foldlM_reversed (fun out n => ?_) _ []
    unfold gradientStep
    by_cases hn : n = "f_obj"
    · subst hn
      simp only [if_true, Bind.bind, Except.bind, Except.map, reversedOut_dictSet, reversedValue_fObj]
    · rw [if_neg hn, if_neg hn, metricValue_reversed hd]
      cases metricValue (shippedRegistry FieldProblem.fns others) Q d n with
      | error e => rfl
      | ok v =>
        simp only [Bind.bind, Except.bind, Except.map, reversedOut_dictSet]

theorem phi_array_of_template {t : List (String × Val)} {ys : List ℝ} (h : t.lookup "phi_scaled" = some (.array ys)) (u : ℝ) (x : List ℝ) :
    ∃ c, dofsOf t u x "phi" = .array c := by
  obtain ⟨w, hw, hs, -⟩ := unravelLike_lookup (x := x) h
  cases w with
  | scalar y => cases hs
  | array zs => exact ⟨_, dofsOf_phi hw⟩

/-- **C160.** A call in which both net currents, the plasma field and the initial potential are reversed and the constraints are reversed fails if
and only if the call fails, stops if and only if it stops, and returns the reversed solution: the opposite potential, and every output with the
sign of its quantity. -/
theorem C160_reversed {opt : Optimizer ℝ} {gradOp : (List ℝ → ℝ) → List ℝ → List ℝ} (hsh : opt.ShapeContract gradOp)
    (hloc : opt.LocalContract gradOp) (hsg : opt.SignContract gradOp) (others : List String) (a : CallArgs) {objs : List ObjectiveItem}
    {cons : List Request} (hu : ∀ r ∈ cons, r.name ∈ oddQuantities → r.unit ≠ .none)
    (hh : a.opts.smoothing = none ∨ (∀ o ∈ objs, o.name ≠ "f_huber_K") ∧ ∀ r ∈ cons, r.name ≠ "f_huber_K") :
    ReversedResults (quadcoilCall opt gradOp (shippedRegistry FieldProblem.fns others) (a.reversed.listing objs (cons.map Request.reversed)))
      (quadcoilCall opt gradOp (shippedRegistry FieldProblem.fns others) (a.listing objs cons)) := by
  have hr : Reversible a.opts.smoothing objs cons := ⟨hu, hh⟩
  unfold quadcoilCall
  rcases setup_reversed (others := others) hr with ⟨⟨e', h'⟩, e, h⟩ | ⟨Q, S', T, S, s, ys, h', h, hT, hS, hys⟩
  · rw [h', h]
    exact .error _ _
  rw [h', h]
  simp only [bind, Except.bind]
  have e7 : (a.listing objs cons).opts = a.opts.listing objs cons := rfl
  have e8 : (a.reversed.listing objs (cons.map Request.reversed)).opts = a.opts.reversed.listing objs (cons.map Request.reversed) := rfl
  simp only [e7, e8]
  rcases fghFromY_reversed (others := others) Q a.opts objs cons with ⟨⟨e', h1'⟩, e, h1⟩ | ⟨hall, h1', h1⟩
  · rw [h1', h1]
    exact .error _ _
  rw [h1', h1]
  simp only
  rcases quadcoilSolve_flip hsh hloc hsg hT with ⟨k1, k2⟩ | ⟨r', t, d', k1, k2, hl, hrt⟩
  · rcases quadcoilSolve_correspond hsh hloc hS with ⟨k3, k4⟩ | ⟨r', r, x, k3, -, -⟩
    · rw [k1, k4]
      exact .none
    · rw [k2] at k3
      cases k3
  rcases quadcoilSolve_correspond hsh hloc hS with ⟨k3, k4⟩ | ⟨t', r, x, k3, k4, hr2⟩
  · rw [k2] at k3
    cases k3
  rw [k2] at k3
  simp only [Option.some.injEq, Prod.mk.injEq] at k3
  obtain ⟨rfl, rfl⟩ := k3
  rw [k1, k4]
  simp only
  rw [outDict_reversed (a := a) (p := fghOf Q a.opts (joinedVal (shippedRegistry FieldProblem.fns others) a.opts.smoothing a.opts.sp objs cons))
    ((joined_reversed (Q := Q) hr hall fun _ => .scalar 0).1 _) (phi_array_of_template hys _ _)]
  cases (a.listing objs cons).outDict (shippedRegistry FieldProblem.fns others) Q
    (fghOf Q a.opts (joinedVal (shippedRegistry FieldProblem.fns others) a.opts.smoothing a.opts.sp objs cons)) (dofsOf S.template S.phiUnit x) with
  | error e => exact .error _ _
  | ok out => exact .some hT.signs hl hrt hr2

/-! ## Examples -/

/-- A call in slack mode with an odd constraint with a unit, and a maximum norm as objective. -/
example (a : CallArgs) (others : List String) :
    ReversedResults
      (quadcoilCall (gradientDescent realGrad (1 / 4)) realGrad (shippedRegistry FieldProblem.fns others)
        (a.reversed.listing [⟨"f_B", .none, 1⟩, ⟨"f_max_Phi", .scalar 3, 1 / 2⟩]
          [⟨"K_theta", "<=", .scalar 2, 0⟩, ⟨"Bnormal", ">=", .scalar 1, -1 / 100⟩, ⟨"f_max_K2", "<=", .none, 7⟩]))
      (quadcoilCall (gradientDescent realGrad (1 / 4)) realGrad (shippedRegistry FieldProblem.fns others)
        (a.listing [⟨"f_B", .none, 1⟩, ⟨"f_max_Phi", .scalar 3, 1 / 2⟩]
          [⟨"K_theta", ">=", .scalar 2, 0⟩, ⟨"Bnormal", "<=", .scalar 1, 1 / 100⟩, ⟨"f_max_K2", "<=", .none, 7⟩])) := by
  have := C160_reversed (gradientDescent_shape _ (by simp [realGrad]) _) (gradientDescent_local _) (gradientDescent_signs (1 / 4)) others a
    (objs := [⟨"f_B", .none, 1⟩, ⟨"f_max_Phi", .scalar 3, 1 / 2⟩])
    (cons := [⟨"K_theta", ">=", .scalar 2, 0⟩, ⟨"Bnormal", "<=", .scalar 1, 1 / 100⟩, ⟨"f_max_K2", "<=", .none, 7⟩])
    (by simp [oddQuantities]) (.inr (by simp))
  simpa [Request.reversed, oddQuantities, oppositeType, neg_div] using this

/-- The reversed arguments of a call. -/
example (a : CallArgs) (h : a.bnormalPlasma = some [[1, -2]]) (hi : a.opts.phiInit = none) (hG : a.netPoloidal = 5) :
    a.reversed.bnormalPlasma = some [[-1, 2]] ∧ a.reversed.opts.phiInit = none ∧ a.reversed.netPoloidal = -5 ∧ a.reversed.nfp = a.nfp := by
  refine ⟨?_, ?_, ?_, rfl⟩
  · simp [CallArgs.reversed, h]
  · simp [CallArgs.reversed, hi]
  · simp [CallArgs.reversed, hG]

end Verif
