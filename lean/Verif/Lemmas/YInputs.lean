import Verif.Model.CallGradient
import Verif.Props.Sensitivity
import Verif.Props.CallReturned

/-!
# The inputs of a call as a flat vector
-/

namespace Verif

open Filter Topology

/-- The same key and the same shape. -/
def SameLeaf (a b : String × Val) : Prop :=
  a.1 = b.1 ∧ ((∃ x y, a.2 = Val.scalar x ∧ b.2 = Val.scalar y) ∨ ∃ x y, a.2 = Val.array x ∧ b.2 = Val.array y ∧ x.length = y.length)

theorem forall₂_sortKeys {l m : List (String × Val)} (h : List.Forall₂ SameLeaf l m) : List.Forall₂ SameLeaf (sortKeys l) (sortKeys m) := by
  have hlen := h.length_eq
  have hl : l = (l.zip m).map Prod.fst := by rw [List.map_fst_zip hlen.le]
  have hm : m = (l.zip m).map Prod.snd := by rw [List.map_snd_zip hlen.ge]
  have hz : ∀ z ∈ l.zip m, SameLeaf z.1 z.2 := fun z hz => (List.forall₂_iff_zip.1 h).2 hz
  set z := l.zip m with hzdef
  have e1 : sortKeys l = (z.mergeSort fun a b => decide (a.1.1 ≤ b.1.1)).map Prod.fst := by
    rw [List.map_mergeSort (r := fun a b : (String × Val) × String × Val => decide (a.1.1 ≤ b.1.1))
      (s := fun a b : String × Val => decide (a.1 ≤ b.1)) (fun a _ b _ => rfl), ← hl]
    rfl
  have e2 : sortKeys m = (z.mergeSort fun a b => decide (a.1.1 ≤ b.1.1)).map Prod.snd := by
    rw [List.map_mergeSort (r := fun a b : (String × Val) × String × Val => decide (a.1.1 ≤ b.1.1))
      (s := fun a b : String × Val => decide (a.1 ≤ b.1)) (fun a ha b hb => by rw [(hz a ha).1, (hz b hb).1]), ← hm]
    rfl
  rw [e1, e2, List.forall₂_map_left_iff, List.forall₂_map_right_iff, List.forall₂_same]
  intro a ha
  exact hz a ((List.mergeSort_perm _ _).mem_iff.1 ha)

theorem reshapeLike_flatten : ∀ (b : List (List ℝ)) (y : List ℝ), (reshapeLike b y).flatten = y.take b.flatten.length
  | [], y => by simp [reshapeLike]
  | r :: b, y => by
    rw [reshapeLike, List.flatten_cons, reshapeLike_flatten b, List.flatten_cons, List.length_append]
    rw [List.take_add]

theorem reshapeLike_self : ∀ {b c : List (List ℝ)}, b.map List.length = c.map List.length → reshapeLike b c.flatten = c
  | [], c, h => by
    cases c with
    | nil => rfl
    | cons => simp at h
  | r :: b, [], h => by simp at h
  | r :: b, q :: c, h => by
    simp only [List.map_cons, List.cons.injEq] at h
    rw [reshapeLike, List.flatten_cons, h.1, List.take_left, List.drop_left, reshapeLike_self h.2]

section
variable {E : Type} [NormedAddCommGroup E] [NormedSpace ℝ E] {n : WithTop ℕ∞} {e0 : E}

theorem SmoothList.take {l : E → List ℝ} (h : SmoothList n l e0) (k : ℕ) : SmoothList n (fun e => (l e).take k) e0 := by
  obtain ⟨fs, hl, hf⟩ := h
  exact ⟨fs.take k, fun e => by simp only [hl, List.map_take], fun f hf' => hf f (List.mem_of_mem_take hf')⟩

theorem SmoothList.drop {l : E → List ℝ} (h : SmoothList n l e0) (k : ℕ) : SmoothList n (fun e => (l e).drop k) e0 := by
  obtain ⟨fs, hl, hf⟩ := h
  exact ⟨fs.drop k, fun e => by simp only [hl, List.map_drop], fun f hf' => hf f (List.mem_of_mem_drop hf')⟩

theorem SmoothList.getD {l : E → List ℝ} (h : SmoothList n l e0) (k : ℕ) : ContDiffAt ℝ n (fun e => (l e).getD k 0) e0 := by
  obtain ⟨fs, hl, hf⟩ := h
  by_cases hk : k < fs.length
  · have e : (fun e => (l e).getD k 0) = fs[k] := by
      funext e
      rw [hl, List.getD_eq_getElem _ _ (by simpa using hk), List.getElem_map]
    rw [e]
    exact hf _ (List.getElem_mem _)
  · have e : (fun e => (l e).getD k 0) = fun _ => 0 := by
      funext e
      rw [hl, List.getD_eq_default _ _ (by simpa using hk)]
    rw [e]
    exact contDiffAt_const

theorem headD_eq_getD (l : List ℝ) : l.headD 0 = l.getD 0 0 := by cases l <;> rfl

theorem SmoothList.headD {l : E → List ℝ} (h : SmoothList n l e0) : ContDiffAt ℝ n (fun e => (l e).headD 0) e0 := by
  simp only [headD_eq_getD]
  exact h.getD 0

theorem SmoothList.entriesAt {l : E → List ℝ} (h : SmoothList n l e0) (t : List (String × Val)) (k : String) :
    SmoothList n (fun e => entriesAt (unravelLike t (l e)) k) e0 := by
  induction t generalizing l with
  | nil => exact SmoothList.const []
  | cons a t ih =>
    obtain ⟨ka, va⟩ := a
    by_cases hk : k = ka
    · cases va with
      | scalar y =>
        have e : (fun e => Verif.entriesAt (unravelLike ((ka, .scalar y) :: t) (l e)) k) = fun e => [(l e).headD 0] := by
          funext e
          simp only [Verif.entriesAt, unravelLike, lookup_cons_ite, if_pos hk]
          rfl
        rw [e]
        exact ⟨[fun e => (l e).headD 0], fun _ => rfl, fun f hf => by
          obtain rfl := List.mem_singleton.1 hf
          exact h.headD⟩
      | array v =>
        have e : (fun e => Verif.entriesAt (unravelLike ((ka, .array v) :: t) (l e)) k) = fun e => (l e).take v.length := by
          funext e
          simp only [Verif.entriesAt, unravelLike, lookup_cons_ite, if_pos hk]
          rfl
        rw [e]
        exact h.take _
    · cases va with
      | scalar y =>
        have e : (fun e => Verif.entriesAt (unravelLike ((ka, .scalar y) :: t) (l e)) k) =
            fun e => Verif.entriesAt (unravelLike t ((l e).drop 1)) k := by
          funext e
          simp only [Verif.entriesAt, unravelLike, lookup_cons_ite, if_neg hk]
        rw [e]
        exact ih (h.drop 1)
      | array v =>
        have e : (fun e => Verif.entriesAt (unravelLike ((ka, .array v) :: t) (l e)) k) =
            fun e => Verif.entriesAt (unravelLike t ((l e).drop v.length)) k := by
          funext e
          simp only [Verif.entriesAt, unravelLike, lookup_cons_ite, if_neg hk]
        rw [e]
        exact ih (h.drop _)

theorem SmoothList.numberAt {l : E → List ℝ} (h : SmoothList n l e0) (t : List (String × Val)) (k : String) :
    ContDiffAt ℝ n (fun e => numberAt (unravelLike t (l e)) k) e0 := (h.entriesAt t k).headD

end

/-! ## Other inputs -/

/-- `b` differs from `a` only in the values of the inputs with respect to which gradients are taken. A string objective has the weight 1. -/
structure OtherInputs (a b : CallArgs) : Prop where
  rest : b = { a with
    plasmaDofs := b.plasmaDofs, netPoloidal := b.netPoloidal, netToroidal := b.netToroidal, bnormalPlasma := b.bnormalPlasma,
    plasmaCoilDistance := b.plasmaCoilDistance, windingDofs := b.windingDofs,
    opts := { a.opts with objectiveWeight := b.opts.objectiveWeight, constraintValue := b.opts.constraintValue } }
  plasma : b.plasmaDofs.length = a.plasmaDofs.length
  field : b.bnormalPlasma.map (List.map List.length) = a.bnormalPlasma.map (List.map List.length)
  distance : b.plasmaCoilDistance.isSome = a.plasmaCoilDistance.isSome
  winding : b.windingDofs.map List.length = a.windingDofs.map List.length
  one : a.plasmaCoilDistance.isSome ≠ a.windingDofs.isSome
  weights : match a.opts.objectiveName with
    | .one _ => b.opts.objectiveWeight = .one 1
    | .many _ => ∃ v w, a.opts.objectiveWeight = .many v ∧ b.opts.objectiveWeight = .many w ∧ w.length = v.length
  values : b.opts.constraintValue.length = a.opts.constraintValue.length
  no_values : a.opts.constraintName = [] → b.opts.constraintValue = []

theorem yInserted_nodup (a : CallArgs) : (a.yInserted.map Prod.fst).Nodup := by
  unfold CallArgs.yInserted
  cases a.opts.objectiveName <;> cases a.bnormalPlasma <;> cases a.plasmaCoilDistance <;> split_ifs <;> simp

theorem yDict_lookup (a : CallArgs) (k : String) : a.yDict.lookup k = a.yInserted.lookup k := sortKeys_lookup (yInserted_nodup a) k

theorem OtherInputs.sameLeaves {a b : CallArgs} (h : OtherInputs a b) : List.Forall₂ SameLeaf a.yDict b.yDict := by
  refine forall₂_sortKeys ?_
  have e1 : b.opts.objectiveName = a.opts.objectiveName := by rw [h.rest]
  have e2 : b.opts.constraintName = a.opts.constraintName := by rw [h.rest]
  have hw := h.weights
  have hf := h.field
  have hd := h.distance
  have ho := h.one
  have hwd := h.winding
  unfold CallArgs.yInserted
  rw [e1, e2]
  refine List.rel_append (List.rel_append (List.rel_append (List.rel_append ?_ ?_) ?_) ?_) ?_
  · refine .cons ⟨rfl, .inr ⟨_, _, rfl, rfl, h.plasma.symm⟩⟩ (.cons ⟨rfl, .inl ⟨_, _, rfl, rfl⟩⟩ (.cons ⟨rfl, .inl ⟨_, _, rfl, rfl⟩⟩ .nil))
  · cases hn : a.opts.objectiveName with
    | one => exact .nil
    | many =>
      rw [hn] at hw
      obtain ⟨v, w, h1, h2, h3⟩ := hw
      rw [h1, h2]
      exact .cons ⟨rfl, .inr ⟨_, _, rfl, rfl, h3.symm⟩⟩ .nil
  · split_ifs
    · exact .cons ⟨rfl, .inr ⟨_, _, rfl, rfl, h.values.symm⟩⟩ .nil
    · exact .nil
  · cases ha : a.bnormalPlasma <;> cases hb : b.bnormalPlasma <;> rw [ha, hb] at hf <;> simp at hf
    · exact .nil
    · refine .cons ⟨rfl, .inr ⟨_, _, rfl, rfl, ?_⟩⟩ .nil
      rw [List.length_flatten, List.length_flatten, hf]
  · cases ha : a.plasmaCoilDistance <;> cases hb : b.plasmaCoilDistance <;> rw [ha, hb] at hd <;> simp at hd
    · refine .cons ⟨rfl, .inr ⟨_, _, rfl, rfl, ?_⟩⟩ .nil
      cases hwa : a.windingDofs <;> cases hwb : b.windingDofs <;> rw [hwa, hwb] at hwd <;> simp at hwd
      · exact hwd.symm
    · exact .cons ⟨rfl, .inl ⟨_, _, rfl, rfl⟩⟩ .nil

/-- All other values of the inputs are reached by flat vectors. -/
theorem OtherInputs.atY {a b : CallArgs} (h : OtherInputs a b) : a.atY b.yFlat = b := by
  have e : unravelLike a.yDict b.yFlat = b.yDict := C73_flatten_roundtrip _ _ h.sameLeaves
  have e1 : b.opts.objectiveName = a.opts.objectiveName := by rw [h.rest]
  have e2 : b.opts.constraintName = a.opts.constraintName := by rw [h.rest]
  rw [CallArgs.atY, e]
  have hl := yDict_lookup b
  have hrest := h.rest
  have hw := h.weights
  have hf := h.field
  have hd := h.distance
  have ho := h.one
  have hwd := h.winding
  have hnv := h.no_values
  have l1 : entriesAt b.yDict "plasma_dofs" = b.plasmaDofs := by
    rw [entriesAt, hl]
    simp [CallArgs.yInserted, Val.entries]
  have l2 : numberAt b.yDict "net_poloidal_current_amperes" = b.netPoloidal := by
    rw [numberAt, entriesAt, hl]
    simp [CallArgs.yInserted, Val.entries, lookup_cons_ite]
  have l3 : numberAt b.yDict "net_toroidal_current_amperes" = b.netToroidal := by
    rw [numberAt, entriesAt, hl]
    simp [CallArgs.yInserted, Val.entries, lookup_cons_ite]
  have l4 : (a.bnormalPlasma.map fun c => reshapeLike c (entriesAt b.yDict "Bnormal_plasma")) = b.bnormalPlasma := by
    cases ha : a.bnormalPlasma <;> cases hb : b.bnormalPlasma <;> rw [ha, hb] at hf <;> simp at hf
    · rfl
    · rename_i c c'
      have : entriesAt b.yDict "Bnormal_plasma" = c'.flatten := by
        rw [entriesAt, hl]
        simp only [CallArgs.yInserted, hb]
        cases b.opts.objectiveName <;> split_ifs <;> simp [lookup_cons_ite, Val.entries]
      rw [Option.map_some, this, reshapeLike_self hf.symm]
  have l5 : (a.plasmaCoilDistance.map fun _ => numberAt b.yDict "plasma_coil_distance") = b.plasmaCoilDistance := by
    cases ha : a.plasmaCoilDistance <;> cases hb : b.plasmaCoilDistance <;> rw [ha, hb] at hd <;> simp at hd
    · rfl
    · rename_i c c'
      rw [Option.map_some, numberAt, entriesAt, hl]
      simp only [CallArgs.yInserted, hb]
      cases b.opts.objectiveName <;> cases b.bnormalPlasma <;> split_ifs <;> simp [lookup_cons_ite, Val.entries]
  have l6 : (if a.plasmaCoilDistance.isNone then some (entriesAt b.yDict "winding_dofs") else a.windingDofs) = b.windingDofs := by
    cases ha : a.plasmaCoilDistance <;> cases hb : b.plasmaCoilDistance <;> rw [ha, hb] at hd <;> simp at hd <;> rw [ha] at ho
    · cases hwa : a.windingDofs <;> cases hwb : b.windingDofs <;> rw [hwa, hwb] at hwd <;> rw [hwa] at ho <;> simp at hwd ho
      rw [if_pos (by rfl : (none : Option ℝ).isNone = true)]
      simp only [entriesAt, hl, CallArgs.yInserted, hb, hwb]
      cases b.opts.objectiveName <;> cases b.bnormalPlasma <;> split_ifs <;> simp [lookup_cons_ite, Val.entries]
    · cases hwa : a.windingDofs <;> cases hwb : b.windingDofs <;> rw [hwa, hwb] at hwd <;> rw [hwa] at ho <;> simp at hwd ho
      rfl
  have l7 : leafWeights (b.yDict.lookup "objective_weight") = b.opts.objectiveWeight := by
    rw [hl]
    simp only [CallArgs.yInserted]
    rw [e1]
    cases hn : a.opts.objectiveName with
    | one =>
      rw [hn] at hw
      rw [hw]
      cases b.bnormalPlasma <;> cases b.plasmaCoilDistance <;> split_ifs <;> simp [lookup_cons_ite, leafWeights]
    | many =>
      rw [hn] at hw
      obtain ⟨v, w, h1, h2, h3⟩ := hw
      rw [h2]
      simp [lookup_cons_ite, weightsVal, leafWeights]
  have l8 : entriesAt b.yDict "constraint_value" = b.opts.constraintValue := by
    rw [entriesAt, hl]
    simp only [CallArgs.yInserted]
    rw [e2]
    by_cases hc : a.opts.constraintName = []
    · rw [hnv hc, hc]
      cases b.opts.objectiveName <;> cases b.bnormalPlasma <;> cases b.plasmaCoilDistance <;> simp [lookup_cons_ite]
    · rw [if_pos (List.length_pos_iff.2 hc)]
      cases b.opts.objectiveName <;> simp [lookup_cons_ite, Val.entries]
  unfold CallArgs.withY
  rw [l1, l2, l3, l4, l5, l6, l7, l8]
  exact hrest.symm

end Verif
