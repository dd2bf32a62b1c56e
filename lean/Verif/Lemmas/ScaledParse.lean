import Verif.Lemmas.ScaledForms
import Verif.Model.Quadcoil
import Verif.Lemmas.Flatten
import Verif.Props.Exact

/-!
# Objectives and constraints in other units
-/

namespace Verif

/-- Both computations raise the same error, or both return, related results. -/
inductive SameOutcome {α β : Type} (R : α → β → Prop) : Except PyErr α → Except PyErr β → Prop
  | ok {a b} (h : R a b) : SameOutcome R (.ok a) (.ok b)
  | error (e) : SameOutcome R (.error e) (.error e)

theorem SameOutcome.bind {α β γ δ : Type} {R : α → β → Prop} {T : γ → δ → Prop} {x : Except PyErr α} {y : Except PyErr β}
    {f : α → Except PyErr γ} {g : β → Except PyErr δ} (h : SameOutcome R x y) (hf : ∀ a b, R a b → SameOutcome T (f a) (g b)) :
    SameOutcome T (x >>= f) (y >>= g) := by
  cases h with
  | ok h => exact hf _ _ h
  | error e => exact .error e

theorem SameOutcome.bind_same {α γ δ : Type} {T : γ → δ → Prop} (x : Except PyErr α)
    {f : α → Except PyErr γ} {g : α → Except PyErr δ} (hf : ∀ a, x = .ok a → SameOutcome T (f a) (g a)) :
    SameOutcome T (x >>= f) (x >>= g) := by
  cases x with
  | ok a => exact hf a rfl
  | error e => exact .error e

theorem SameOutcome.ite {α β : Type} {R : α → β → Prop} {c : Prop} [Decidable c] {x x' : Except PyErr α} {y y' : Except PyErr β}
    (h : SameOutcome R x y) (h' : SameOutcome R x' y') : SameOutcome R (if c then x else x') (if c then y else y') := by
  by_cases hc : c
  · rwa [if_pos hc, if_pos hc]
  · rwa [if_neg hc, if_neg hc]

theorem lookup_forall₂ {α β : Type} {R : String × α → String × β → Prop} {l : List (String × α)} {m : List (String × β)}
    (h : List.Forall₂ (fun a b => a.1 = b.1 ∧ R a b) l m) {k : String} {v : α} (hv : l.lookup k = some v) :
    ∃ w, m.lookup k = some w ∧ R (k, v) (k, w) := by
  induction h with
  | nil => simp at hv
  | @cons a b l m hab _ ih =>
    obtain ⟨ka, va⟩ := a
    obtain ⟨kb, vb⟩ := b
    obtain rfl : ka = kb := hab.1
    rw [List.lookup_cons] at hv ⊢
    by_cases hk : k = ka
    · subst hk
      simp only [beq_self_eq_true, Option.some.injEq] at hv ⊢
      subst hv
      exact ⟨vb, rfl, hab.2⟩
    · have : (k == ka) = false := by simpa using hk
      simp only [this] at hv ⊢
      exact ih hv

section

variable (Q : FieldProblem) (l mu : ℝ)

/-- In other units the function has the same values. -/
def Agree (f' f : FieldProblem → Dofs → Val) : Prop := ∀ d, f' (Q.rescale l mu) (rescaleDofs mu d) = f Q d

/-- The same key of an auxiliary variable, and in other units the same values. -/
def AgreeAt (p' p : String × (FieldProblem → Dofs → Val)) : Prop := p'.1 = p.1 ∧ p.1 ≠ "phi_scaled" ∧ Agree Q l mu p'.2 p.2

structure AgreeAdded (e : ℝ) (A' A : Added FieldProblem) : Prop where
  val : Agree Q l mu A'.val A.val
  g : List.Forall₂ (Agree Q l mu) A'.g A.g
  h : List.Forall₂ (Agree Q l mu) A'.h A.h
  unit : A'.unit (Q.rescale l mu) = (A.unit Q).map (e * ·)
  slack : List.Forall₂ (AgreeAt Q l mu) A'.slack A.slack

end

variable {Q : FieldProblem} {l mu : ℝ} {others : List String} {sm : Option String} {sp : SmoothingParams}

theorem registry_forms (hl : 0 < l) (hmu : 0 < mu) {name : String} {q : Quantity FieldProblem}
    (h : shippedRegistry FieldProblem.fns others name = some (.quantity q)) (sm : Option String) :
    FormsScale sm name q Q l mu (factorOf l mu name) ∧ 0 < factorOf l mu name := by
  unfold shippedRegistry at h
  have hq : (shipped FieldProblem.fns).lookup name = some q := by
    revert h
    cases (shipped FieldProblem.fns).lookup name with
    | none =>
      intro h
      simp only at h
      split_ifs at h
      simp at h
    | some q' =>
      intro h
      simp only [Option.some.injEq, Attr.quantity.injEq] at h
      rw [h]
  obtain ⟨w, hw, hf⟩ := lookup_forall₂ (R := fun nq nf => FormsScale sm nq.1 nq.2 Q l mu nf.2) (forms_scale Q l mu hl hmu sm) hq
  have e : factorOf l mu name = w := by rw [factorOf, hw, Option.getD_some]
  rw [e]
  refine ⟨hf, valueFactor_pos l mu hl hmu (name, w) ?_⟩
  exact mem_of_lookup hw

theorem unitCallable_scale {q : Quantity FieldProblem} {e : ℝ} (he : 0 < e) (hr : RawScales q Q l mu e) (u : UnitArg) :
    SameOutcome (fun u' u => u' (Q.rescale l mu) = (u Q).map (e * ·)) (unitCallable q (u.times e)) (unitCallable q u) := by
  cases u with
  | none =>
    refine .ok ?_
    have := hr.call (phiOnly (Val.array (List.replicate (HasQp.ndofs Q) 0)))
    rw [rescaleDofs_phiOnly] at this
    simp only [Val.entries, List.map_replicate, mul_zero] at this
    exact this
  | scalar x =>
    refine .ok ?_
    simp only [Val.map, abs_mul, abs_of_pos he]
  | other => exact .error _

theorem addQuantity_scale (hl : 0 < l) (hmu : 0 < mu) {name : String} (hn : ¬ UnitBound l mu sm name) (u : UnitArg) (useCase : String) :
    SameOutcome (AgreeAdded Q l mu (factorOf l mu name))
      (addQuantity (shippedRegistry FieldProblem.fns others) name (u.times (factorOf l mu name)) useCase sm sp)
      (addQuantity (shippedRegistry FieldProblem.fns others) name u useCase sm sp) := by
  unfold addQuantity
  refine SameOutcome.bind_same _ fun q hq => ?_
  have hq' : shippedRegistry FieldProblem.fns others name = some (.quantity q) := by
    revert hq
    unfold getQuantity
    cases shippedRegistry FieldProblem.fns others name with
    | none => intro h; cases h
    | some x =>
      cases x with
      | other => intro h; cases h
      | quantity q' => intro h; cases h; rfl
  obtain ⟨hf, he⟩ := registry_forms (Q := Q) hl hmu hq' sm
  set e := factorOf l mu name
  refine SameOutcome.bind_same _ fun f hsf => SameOutcome.bind_same _ fun g hsg => SameOutcome.bind_same _ fun h hsh =>
    SameOutcome.bind_same _ fun s hss => SameOutcome.ite (.error _) ?_
  refine (unitCallable_scale he hf.raw u).bind fun u' u'' hu => .ok ?_
  by_cases h1 : sm = some "slack"
  · subst h1
    have hs := hf.slack rfl hn
    simp only [Quantity.scaledF, Quantity.scaledG, Quantity.scaledH, Quantity.scaledInit, if_true, Except.ok.injEq] at hsf hsg hsh hss
    subst hsf hsg hsh hss
    refine ⟨fun d => ?_, ?_, ?_, hu, ?_⟩
    · simp only [hu, hs.f]
    · cases hg : q.slackG with
      | none => exact .nil
      | some g => exact .cons (fun d => by simp only [hu, hs.g g hg]) .nil
    · cases hg : q.slackH with
      | none => exact .nil
      | some g => exact .cons (fun d => by simp only [hu, hs.h g hg]) .nil
    · cases hg : q.slackInit with
      | none => exact .nil
      | some s =>
        simp only [Option.getD_some]
        rw [List.forall₂_map_left_iff, List.forall₂_map_right_iff, List.forall₂_same]
        refine fun kv hkv => ⟨rfl, fun hk => ?_, fun d => by simp only [hu, hs.init s hg kv hkv]⟩
        refine (aux_mem FieldProblem.fns _ (shipped_lookup FieldProblem.fns hq')).2.2.2.2 (List.mem_map.2 ⟨kv, ?_, hk⟩)
        rw [hg]
        exact hkv
  by_cases h2 : sm = none
  · subst h2
    simp [Quantity.scaledF, Quantity.scaledG, Quantity.scaledH, Quantity.scaledInit] at hsf hsg hsh hss
    subst hsf hsg hsh hss
    refine ⟨fun d => ?_, .nil, .nil, hu, .nil⟩
    simp only [hu, hf.raw d, map2_div_scale _ _ he.ne']
  by_cases h3 : sm = some "approx"
  · subst h3
    simp [Quantity.scaledF, Quantity.scaledG, Quantity.scaledH, Quantity.scaledInit] at hsf hsg hsh hss
    subst hsf hsg hsh hss
    refine ⟨fun d => ?_, .nil, .nil, hu, .nil⟩
    simp only [hu]
    exact hf.approx rfl hn d _ sp
  · simp [Quantity.scaledF, h1, h2, h3] at hsf

theorem lookup_agree {x' x : List (String × (FieldProblem → Dofs → Val))} (h : List.Forall₂ (AgreeAt Q l mu) x' x) (k : String) :
    (x'.lookup k = none ∧ x.lookup k = none) ∨ ∃ v' v, x'.lookup k = some v' ∧ x.lookup k = some v ∧ Agree Q l mu v' v := by
  induction h with
  | nil => exact .inl ⟨rfl, rfl⟩
  | @cons p' p x' x hp _ ih =>
    obtain ⟨k', v'⟩ := p'
    obtain ⟨k2, v⟩ := p
    obtain rfl : k' = k2 := hp.1
    rw [List.lookup_cons, List.lookup_cons]
    by_cases hk : k = k'
    · subst hk
      simp only [beq_self_eq_true]
      exact .inr ⟨v', v, rfl, rfl, hp.2.2⟩
    · have : (k == k') = false := by simpa using hk
      simp only [this]
      exact ih

theorem dictUnion_agree {a' a b' b : List (String × (FieldProblem → Dofs → Val))} (ha : List.Forall₂ (AgreeAt Q l mu) a' a)
    (hb : List.Forall₂ (AgreeAt Q l mu) b' b) : List.Forall₂ (AgreeAt Q l mu) (dictUnion a' b') (dictUnion a b) := by
  unfold dictUnion
  refine List.rel_append ?_ ?_
  · rw [List.forall₂_map_left_iff, List.forall₂_map_right_iff]
    refine ha.imp fun p' p hp => ⟨hp.1, hp.2.1, ?_⟩
    show Agree Q l mu ((b'.lookup p'.1).getD p'.2) ((b.lookup p.1).getD p.2)
    rw [hp.1]
    rcases lookup_agree hb p.1 with ⟨h1, h2⟩ | ⟨v', v, h1, h2, h3⟩
    · rw [h1, h2]
      exact hp.2.2
    · rw [h1, h2]
      exact h3
  · have hk : ∀ k, (a'.lookup k).isNone = (a.lookup k).isNone := by
      intro k
      rcases lookup_agree ha k with ⟨h1, h2⟩ | ⟨v', v, h1, h2, _⟩ <;> rw [h1, h2] <;> rfl
    simp only [hk]
    clear ha hk
    induction hb with
    | nil => exact .nil
    | @cons p' p x' x hp _ ih =>
      rw [List.filter_cons, List.filter_cons, hp.1]
      by_cases hk : (a.lookup p.1).isNone = true
      · rw [if_pos hk, if_pos hk]
        exact .cons hp ih
      · rw [if_neg hk, if_neg hk]
        exact ih

/-! ## Objectives -/

structure AgreeObj (A' A : ObjAcc FieldProblem) : Prop where
  f : List.Forall₂ (Agree Q l mu) A'.f A.f
  g : List.Forall₂ (Agree Q l mu) A'.g A.g
  h : List.Forall₂ (Agree Q l mu) A'.h A.h
  slack : List.Forall₂ (AgreeAt Q l mu) A'.slack A.slack

theorem parseObjLoop_scale (hl : 0 < l) (hmu : 0 < mu) {names : List String} (hn : ∀ n ∈ names, ¬ UnitBound l mu sm n) (units : List UnitArg)
    {A' A : ObjAcc FieldProblem} (hA : AgreeObj (Q := Q) (l := l) (mu := mu) A' A) :
    SameOutcome (AgreeObj (Q := Q) (l := l) (mu := mu))
      (parseObjLoop (shippedRegistry FieldProblem.fns others) sm sp names (timesUnits l mu names units) A')
      (parseObjLoop (shippedRegistry FieldProblem.fns others) sm sp names units A) := by
  induction names generalizing units A' A with
  | nil =>
    simp only [parseObjLoop]
    exact .ok hA
  | cons n ns ih =>
    cases units with
    | nil => exact .error _
    | cons u us =>
      simp only [parseObjLoop, timesUnits]
      refine (addQuantity_scale (Q := Q) hl hmu (hn n (by simp)) u "f").bind fun a' a ha => ?_
      exact ih (fun m hm => hn m (by simp [hm])) us
        ⟨List.rel_append hA.f (.cons ha.val .nil), List.rel_append hA.g ha.g, List.rel_append hA.h ha.h,
          dictUnion_agree hA.slack ha.slack⟩

theorem fTot_scale {fs' fs : List (FieldProblem → Dofs → Val)} (h : List.Forall₂ (Agree Q l mu) fs' fs) (ws : List ℝ) :
    Agree Q l mu (fTot fs' ws) (fTot fs ws) := by
  intro d
  unfold fTot
  generalize Val.scalar 0 = out
  induction h generalizing ws out with
  | nil => rfl
  | cons hf _ ih =>
    cases ws with
    | nil => rfl
    | cons w ws =>
      simp only [List.zip_cons_cons, List.foldl_cons, hf d]
      exact ih ws _

structure AgreeParsedObj (A' A : ParsedObj FieldProblem) : Prop where
  f : Agree Q l mu A'.f A.f
  g : List.Forall₂ (Agree Q l mu) A'.g A.g
  h : List.Forall₂ (Agree Q l mu) A'.h A.h
  slack : List.Forall₂ (AgreeAt Q l mu) A'.slack A.slack

theorem parseObjectives_scale (hl : 0 < l) (hmu : 0 < mu) {names : OneOrMany String} (hn : ∀ n ∈ names.list, ¬ UnitBound l mu sm n)
    (units : OneOrMany UnitArg) (ws : OneOrMany ℝ) :
    SameOutcome (AgreeParsedObj (Q := Q) (l := l) (mu := mu))
      (parseObjectives (shippedRegistry FieldProblem.fns others) names (timesObjectiveUnit l mu names units) ws sm sp)
      (parseObjectives (shippedRegistry FieldProblem.fns others) names units ws sm sp) := by
  have hrun : ∀ (ns : List String) (us : List UnitArg) (ws : List ℝ), (∀ n ∈ ns, ¬ UnitBound l mu sm n) →
      SameOutcome (AgreeParsedObj (Q := Q) (l := l) (mu := mu))
        (if ns.length ≠ ws.length then .error .valueError
          else do
            let acc ← parseObjLoop (shippedRegistry FieldProblem.fns others) sm sp ns (timesUnits l mu ns us) ⟨[], [], [], []⟩
            .ok ⟨fTot acc.f ws, acc.g, acc.h, acc.slack⟩)
        (if ns.length ≠ ws.length then .error .valueError
          else do
            let acc ← parseObjLoop (shippedRegistry FieldProblem.fns others) sm sp ns us ⟨[], [], [], []⟩
            .ok ⟨fTot acc.f ws, acc.g, acc.h, acc.slack⟩) := by
    intro ns us ws hns
    refine SameOutcome.ite (.error _) ?_
    refine (parseObjLoop_scale (Q := Q) hl hmu hns us ⟨.nil, .nil, .nil, .nil⟩).bind fun a' a ha => .ok ?_
    exact ⟨fTot_scale ha.f ws, ha.g, ha.h, ha.slack⟩
  unfold parseObjectives
  cases names with
  | one n =>
    cases units with
    | one u => exact hrun [n] [u] [1] hn
    | many us => exact hrun [n] [.other] [1] hn
  | many ns =>
    cases ws with
    | one w =>
      cases units <;> exact .error _
    | many ws =>
      cases units with
      | many us => exact hrun ns us ws hn
      | one u =>
        refine SameOutcome.ite (.error _) (SameOutcome.ite ?_ (.error _))
        exact hrun [] [] [] (by simp)

/-! ## Constraints -/

theorem consFunc_scale {e : ℝ} (he : 0 < e) {a' a : Added FieldProblem} (h : AgreeAdded Q l mu e a' a) (v sign : ℝ) :
    Agree Q l mu (consFunc a' (e * v) sign sm sp) (consFunc a v sign sm sp) := by
  intro d
  have h1 : Val.map2 (· / ·) (Val.scalar (e * v)) ((a.unit Q).map (e * ·)) = Val.map2 (· / ·) (Val.scalar v) (a.unit Q) :=
    map2_div_scale (.scalar v) _ he.ne'
  simp only [consFunc, h.val d, h.unit, h1]

structure AgreeParsed (A' A : Parsed FieldProblem) : Prop where
  g : List.Forall₂ (Agree Q l mu) A'.g A.g
  h : List.Forall₂ (Agree Q l mu) A'.h A.h
  slack : List.Forall₂ (AgreeAt Q l mu) A'.slack A.slack

theorem factorOf_pos (hl : 0 < l) (hmu : 0 < mu) (n : String) : 0 < factorOf l mu n := by
  unfold factorOf
  cases h : (valueFactor l mu).lookup n with
  | none => exact one_pos
  | some w => exact valueFactor_pos l mu hl hmu (n, w) (mem_of_lookup h)

theorem parseStep_scale (hl : 0 < l) (hmu : 0 < mu) {A' A : Parsed FieldProblem} (hA : AgreeParsed (Q := Q) (l := l) (mu := mu) A' A)
    {name : String} (hn : ¬ UnitBound l mu sm name) (type : String) (u : UnitArg) (v : ℝ) :
    SameOutcome (AgreeParsed (Q := Q) (l := l) (mu := mu))
      (parseStep (shippedRegistry FieldProblem.fns others) sm sp A' ⟨name, type, u.times (factorOf l mu name), factorOf l mu name * v⟩)
      (parseStep (shippedRegistry FieldProblem.fns others) sm sp A ⟨name, type, u, v⟩) := by
  unfold parseStep
  refine (addQuantity_scale (Q := Q) hl hmu hn u type).bind fun a' a ha => ?_
  have hf : ∀ s, Agree Q l mu (consFunc a' (factorOf l mu name * v) s sm sp) (consFunc a v s sm sp) :=
    consFunc_scale (factorOf_pos hl hmu name) ha v
  have hg := List.rel_append hA.g ha.g
  have hh := List.rel_append hA.h ha.h
  have hs := dictUnion_agree hA.slack ha.slack
  exact SameOutcome.ite (.ok ⟨hg, List.rel_append hh (.cons (hf _) .nil), hs⟩)
    (SameOutcome.ite (.ok ⟨List.rel_append hg (.cons (hf _) .nil), hh, hs⟩) (.error _))

theorem timesUnits_length (l mu : ℝ) (ns : List String) (us : List UnitArg) : (timesUnits l mu ns us).length = us.length := by
  induction ns generalizing us with
  | nil => simp [timesUnits]
  | cons n ns ih => cases us <;> simp [timesUnits, ih]

theorem timesValues_length (l mu : ℝ) (ns : List String) (vs : List ℝ) : (timesValues l mu ns vs).length = vs.length := by
  induction ns generalizing vs with
  | nil => simp [timesValues]
  | cons n ns ih => cases vs <;> simp [timesValues, ih]

theorem parseConstraints_scale (hl : 0 < l) (hmu : 0 < mu) {names : List String} (hn : ∀ n ∈ names, ¬ UnitBound l mu sm n)
    (types : List String) (units : List UnitArg) (values : List ℝ) :
    SameOutcome (AgreeParsed (Q := Q) (l := l) (mu := mu))
      (parseConstraints (shippedRegistry FieldProblem.fns others) names types (timesUnits l mu names units) (timesValues l mu names values)
        sm sp)
      (parseConstraints (shippedRegistry FieldProblem.fns others) names types units values sm sp) := by
  unfold parseConstraints
  rw [timesUnits_length, timesValues_length]
  refine SameOutcome.ite (.error _) ?_
  suffices H : ∀ A' A : Parsed FieldProblem, AgreeParsed (Q := Q) (l := l) (mu := mu) A' A →
      SameOutcome (AgreeParsed (Q := Q) (l := l) (mu := mu))
      ((zipRequests names types (timesUnits l mu names units) (timesValues l mu names values)).foldlM
        (parseStep (shippedRegistry FieldProblem.fns others) sm sp) A')
      ((zipRequests names types units values).foldlM (parseStep (shippedRegistry FieldProblem.fns others) sm sp) A) from
    H _ _ ⟨.nil, .nil, .nil⟩
  induction names generalizing types units values with
  | nil =>
    intro A' A hA
    simp only [zipRequests, List.zip_nil_left, List.zipWith_nil_left, List.foldlM_nil]
    exact .ok hA
  | cons n ns ih =>
    intro A' A hA
    cases types with
    | nil => exact .ok hA
    | cons t ts =>
      cases units with
      | nil => exact .ok hA
      | cons u us =>
        cases values with
        | nil => exact .ok hA
        | cons v vs =>
          simp only [zipRequests, timesUnits, timesValues, List.zip_cons_cons, List.zipWith_cons_cons, List.foldlM_cons]
          refine (parseStep_scale hl hmu hA (hn n (by simp)) t u v).bind fun a' a ha => ?_
          exact ih (fun m hm => hn m (by simp [hm])) ts us vs a' a ha

/-! ## Both together -/

structure AgreeFgh (p' p : Fgh FieldProblem) : Prop where
  f : ∀ d, p'.f (rescaleDofs mu d) = p.f d
  g : ∀ d, p'.g (rescaleDofs mu d) = p.g d
  h : ∀ d, p'.h (rescaleDofs mu d) = p.h d
  nG : p'.nG = p.nG
  nH : p'.nH = p.nH
  slack : List.Forall₂ (AgreeAt Q l mu) p'.slack p.slack

theorem mergeCallables_scale {c' c : List (FieldProblem → Dofs → Val)} (h : List.Forall₂ (Agree Q l mu) c' c) (b : Bool)
    (sm : Option String) (d : Dofs) :
    mergeCallables (c'.map some) b sm sp (Q.rescale l mu) (rescaleDofs mu d) = mergeCallables (c.map some) b sm sp Q d := by
  have e : (c'.map fun fn => (fn (Q.rescale l mu) (rescaleDofs mu d)).entries) = c.map fun fn => (fn Q d).entries := by
    induction h with
    | nil => rfl
    | cons hf _ ih => simp only [List.map_cons, hf d, ih]
  simp only [mergeCallables, List.filterMap_map, Function.comp_def, id_eq, List.filterMap_some, e]

theorem fghFromY_scale (hl : 0 < l) (hmu : 0 < mu) (o : QuadcoilArgs)
    (hn : ∀ n ∈ o.objectiveName.list ++ o.constraintName, ¬ UnitBound l mu o.smoothing n) :
    SameOutcome (AgreeFgh (Q := Q) (l := l) (mu := mu))
      (fghFromY (shippedRegistry FieldProblem.fns others) (Q.rescale l mu) (o.rescale l mu))
      (fghFromY (shippedRegistry FieldProblem.fns others) Q o) := by
  unfold fghFromY
  simp only [QuadcoilArgs.rescale]
  refine (parseObjectives_scale (Q := Q) hl hmu (fun n h => hn n (by simp [h])) o.objectiveUnit _).bind fun a' a ha => ?_
  have hv : (if o.constraintName.length > 0 then timesValues l mu o.constraintName o.constraintValue else []) =
      timesValues l mu o.constraintName (if o.constraintName.length > 0 then o.constraintValue else []) := by
    cases o.constraintName <;> simp [timesValues]
  have hp := parseConstraints_scale (Q := Q) (others := others) (sm := o.smoothing) (sp := o.sp) hl hmu (names := o.constraintName)
    (fun n h => hn n (by simp [h])) o.constraintType
    o.constraintUnit (if o.constraintName.length > 0 then o.constraintValue else [])
  rw [← hv] at hp
  refine hp.bind fun c' c hc => .ok ?_
  have hg := List.rel_append ha.g hc.g
  have hh := List.rel_append ha.h hc.h
  refine ⟨ha.f, fun d => mergeCallables_scale hg _ _ d, fun d => mergeCallables_scale hh _ _ d, ?_, hh.length_eq,
    dictUnion_agree ha.slack hc.slack⟩
  simp only [joinParsed, hg.length_eq]

end Verif
