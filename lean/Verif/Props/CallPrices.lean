import Verif.Props.Prices
import Verif.Props.ReturnedPotential

/-! # The multipliers that a call reports, and other constraint values

C143, for the problem that a call passes to the solver. -/

namespace Verif

/-- The requests differ in their values only. -/
def SameButValue (r r' : Request) : Prop := r'.name = r.name ∧ r'.type = r.type ∧ r'.unit = r.unit

/-- The same call with other constraint values. -/
def QuadcoilArgs.withValues (a : QuadcoilArgs) (w : List ℝ) : QuadcoilArgs := { a with constraintValue := w }

section
variable {P : Type} [HasQp P]

/-- Functions that are equal, or the functions of two requests with different values. -/
def ShiftedPair (sm : Option String) (sp : SmoothingParams) (ps : List ((Request × Request) × Added P)) (f f' : P → Dofs → Val) : Prop :=
  f = f' ∨ ∃ p ∈ ps, ∃ sign : ℝ, (p.1.1.type = "<=" ∧ sign = 1 ∨ p.1.1.type = ">=" ∧ sign = -1) ∧
    f = consFunc p.2 p.1.1.value sign sm sp ∧ f' = consFunc p.2 p.1.2.value sign sm sp

omit [HasQp P] in
theorem ShiftedPair.mono {sm : Option String} {sp : SmoothingParams} {ps qs : List ((Request × Request) × Added P)} (h : ∀ p ∈ ps, p ∈ qs)
    {f f' : P → Dofs → Val} (hf : ShiftedPair sm sp ps f f') : ShiftedPair sm sp qs f f' :=
  hf.imp id fun ⟨p, hp, s⟩ => ⟨p, h p hp, s⟩

/-- Two lists of requests that differ in their values only are parsed to the same auxiliary variables and to functions that differ in
the values only. -/
theorem parse_shifted (reg : Registry P) (sm : Option String) (sp : SmoothingParams) {rs rs' : List Request}
    (hrs : List.Forall₂ SameButValue rs rs') {A B p p' : Parsed P} (qs : List ((Request × Request) × Added P))
    (hslack : A.slack = B.slack) (hg : List.Forall₂ (ShiftedPair sm sp qs) A.g B.g)
    (h : rs.foldlM (parseStep reg sm sp) A = .ok p) (h' : rs'.foldlM (parseStep reg sm sp) B = .ok p') :
    ∃ As, List.Forall₂ (fun r A => addQuantity reg r.name r.unit r.type sm sp = .ok A) rs As ∧ p.slack = p'.slack ∧
      List.Forall₂ (ShiftedPair sm sp (qs ++ (rs.zip rs').zip As)) p.g p'.g := by
  induction hrs generalizing A B qs with
  | nil =>
    rw [foldlM_except_nil] at h h'
    cases h
    cases h'
    exact ⟨[], .nil, hslack, by simpa using hg⟩
  | @cons r r' rs rs' hr hrs ih =>
    obtain ⟨b, hb, hrest⟩ := (foldlM_except_cons _ _ _ _ _).1 h
    obtain ⟨b', hb', hrest'⟩ := (foldlM_except_cons _ _ _ _ _).1 h'
    obtain ⟨X, hX, hc⟩ := parseStep_ok.1 hb
    obtain ⟨X', hX', hc'⟩ := parseStep_ok.1 hb'
    obtain ⟨h1, h2, h3⟩ := hr
    rw [h1, h2, h3] at hX'
    obtain rfl : X = X' := Except.ok.inj (hX.symm.trans hX')
    rw [h2] at hc'
    have hm : ∀ q ∈ qs, q ∈ qs ++ [((r, r'), X)] := fun q hq => List.mem_append_left _ hq
    have hg' : List.Forall₂ (ShiftedPair sm sp (qs ++ [((r, r'), X)])) (A.g ++ X.g) (B.g ++ X.g) :=
      List.rel_append (hg.imp fun _ _ h => h.mono hm) (List.forall₂_same.2 fun f _ => .inl rfl)
    have hs' : dictUnion A.slack X.slack = dictUnion B.slack X.slack := by rw [hslack]
    have key : ∃ As, List.Forall₂ (fun r A => addQuantity reg r.name r.unit r.type sm sp = .ok A) rs As ∧ p.slack = p'.slack ∧
        List.Forall₂ (ShiftedPair sm sp ((qs ++ [((r, r'), X)]) ++ (rs.zip rs').zip As)) p.g p'.g := by
      rcases hc with ⟨ht, rfl⟩ | ⟨ht, rfl⟩ | ⟨ht, rfl⟩
      · rcases hc' with ⟨ht', rfl⟩ | ⟨ht', rfl⟩ | ⟨ht', rfl⟩
        · exact ih (qs ++ [((r, r'), X)]) hs' hg' hrest hrest'
        · rw [ht] at ht'; simp at ht'
        · rw [ht] at ht'; simp at ht'
      · rcases hc' with ⟨ht', rfl⟩ | ⟨ht', rfl⟩ | ⟨ht', rfl⟩
        · rw [ht] at ht'; simp at ht'
        · exact ih (qs ++ [((r, r'), X)]) hs' (List.rel_append hg' (.cons (.inr ⟨((r, r'), X), by simp, 1, .inl ⟨ht, rfl⟩, rfl, rfl⟩) .nil))
            hrest hrest'
        · rw [ht] at ht'; simp at ht'
      · rcases hc' with ⟨ht', rfl⟩ | ⟨ht', rfl⟩ | ⟨ht', rfl⟩
        · rw [ht] at ht'; simp at ht'
        · rw [ht] at ht'; simp at ht'
        · exact ih (qs ++ [((r, r'), X)]) hs' (List.rel_append hg' (.cons (.inr ⟨((r, r'), X), by simp, -1, .inr ⟨ht, rfl⟩, rfl, rfl⟩) .nil))
            hrest hrest'
    obtain ⟨As, hA, hsl, hG⟩ := key
    exact ⟨X :: As, .cons hX hA, hsl, by simpa using hG⟩

theorem zipRequests_values (ns ts : List String) (us : List UnitArg) (v w : List ℝ) (h : v.length = w.length) :
    List.Forall₂ SameButValue (zipRequests ns ts us v) (zipRequests ns ts us w) := by
  induction ns generalizing ts us v w with
  | nil => simp [zipRequests]
  | cons n ns ih =>
    cases ts with
    | nil => simp [zipRequests]
    | cons t ts =>
      cases us with
      | nil => simp [zipRequests]
      | cons u us =>
        cases v with
        | nil =>
          obtain rfl : w = [] := by simpa using h.symm
          simp [zipRequests]
        | cons x v =>
          cases w with
          | nil => simp at h
          | cons y w =>
            have := ih ts us v w (by simpa using h)
            simp only [zipRequests, List.zip_cons_cons, List.zipWith_cons_cons] at this ⊢
            exact .cons ⟨rfl, rfl, rfl⟩ this

/-- Two calls that differ in their constraint values only: the solver gets the same unknowns and the same objective, and inequality
functions that come in pairs. -/
theorem setup_shifted {reg : Registry P} {qp : P} {a : QuadcoilArgs} {w : List ℝ} {phiUnit : ℝ} {S S' : Setup}
    (hm : a.mergeConstraints = false) (hs : quadcoilSetup reg qp a phiUnit = .ok S)
    (hs' : quadcoilSetup reg qp (a.withValues w) phiUnit = .ok S') :
    S'.template = S.template ∧ S'.x0 = S.x0 ∧ (∀ y, S'.problem.f y = S.problem.f y) ∧
      List.Forall₂ SameButValue a.requests (a.withValues w).requests ∧
      ∃ As g g', List.Forall₂ (fun r A => addQuantity reg r.name r.unit r.type a.smoothing a.sp = .ok A) a.requests As ∧
        (∀ y, S.problem.g y = g.flatMap fun f => (f qp (dofsOf S.template phiUnit y)).entries) ∧
        (∀ y, S'.problem.g y = g'.flatMap fun f => (f qp (dofsOf S.template phiUnit y)).entries) ∧
        List.Forall₂ (ShiftedPair a.smoothing a.sp ((a.requests.zip (a.withValues w).requests).zip As)) g g' := by
  obtain ⟨o, c, ho, hc, hpu, ht, hx0, -, -, -, hf, hg, -⟩ := quadcoilSetup_ok hs
  obtain ⟨o', c', ho', hc', hpu', ht', hx0', -, -, -, hf', hg', -⟩ := quadcoilSetup_ok hs'
  obtain rfl : o = o' := Except.ok.inj (ho.symm.trans ho')
  have fold : ∀ (b : QuadcoilArgs) (c : Parsed P), parseConstraints reg b.constraintName b.constraintType b.constraintUnit
      (if b.constraintName.length > 0 then b.constraintValue else []) b.smoothing b.sp = .ok c →
      b.requests.foldlM (parseStep reg b.smoothing b.sp) ⟨[], [], []⟩ = .ok c ∧
        (b.constraintName.length > 0 → b.constraintName.length = b.constraintValue.length) := by
    intro b c hc
    unfold parseConstraints at hc
    rw [zipRequests_value] at hc
    by_cases hlen : b.constraintName.length ≠ b.constraintType.length ∨ b.constraintName.length ≠ b.constraintUnit.length ∨
        b.constraintName.length ≠ (if b.constraintName.length > 0 then b.constraintValue else []).length
    · rw [if_pos hlen] at hc
      cases hc
    · rw [if_neg hlen] at hc
      refine ⟨hc, fun h => ?_⟩
      push Not at hlen
      have := hlen.2.2
      rwa [if_pos h] at this
  obtain ⟨hfold, hl⟩ := fold a c hc
  obtain ⟨hfold', hl'⟩ := fold (a.withValues w) c' hc'
  have hsame : List.Forall₂ SameButValue a.requests (a.withValues w).requests := by
    by_cases h0 : a.constraintName.length > 0
    · exact zipRequests_values _ _ _ _ _ ((hl h0).symm.trans (hl' h0))
    · have : a.constraintName = [] := by simpa using h0
      simp [QuadcoilArgs.requests, QuadcoilArgs.withValues, this, zipRequests]
  obtain ⟨As, hAs, hsl, hG⟩ := parse_shifted reg a.smoothing a.sp hsame [] rfl .nil hfold hfold'
  have htt : S'.template = S.template := by
    rw [ht, ht']
    simp only [joinParsed, hsl]
    rfl
  refine ⟨htt, by rw [hx0, hx0', htt], fun y => by rw [hf, hf', htt]; rfl, hsame, As, o.g ++ c.g, o.g ++ c'.g, hAs, ?_, ?_,
    List.rel_append (List.forall₂_same.2 fun f _ => .inl rfl) (by simpa using hG)⟩
  · intro y
    rw [hg, hm, okList_merge]
    rfl
  · intro y
    have := hg' y
    rw [show (a.withValues w).mergeConstraints = false from hm] at this
    rw [this, okList_merge, htt]
    rfl
end

/-- **C143 (calls).** A run of a call with smooth convex quantities, converged or not, bounds what other constraint values can bring. If
no constraint is relaxed by more than `δ` times its unit, every potential that satisfies the new constraints has an objective of at
least the reported one, plus the reported products of multipliers and constraint values, minus `δ` times the sum of the reported
multipliers, minus the reported gradient norm times the distance of the unknowns. -/
theorem C143_call_prices_partial (Q : FieldProblem) (others : List String) {A B : ℕ} (R : Resolved Q A B) (hB : ∀ c, Q.bnormal c ≠ [])
    {a : QuadcoilArgs} (ha : SmoothCall a) (hca : ConvexCall a) {phiUnit : ℝ} (hpu : phiUnit ≠ 0)
    (hinit : ∀ p, a.phiInit = some p → p.length = HasQp.ndofs Q) {S : Setup}
    (hs : quadcoilSetup (shippedRegistry FieldProblem.fns others) Q a phiUnit = .ok S)
    {opt : Optimizer ℝ} (hc : opt.CountContract) (hv : opt.ValueContract) (hgr : opt.GradContract realGrad)
    (hshape : opt.ShapeContract realGrad) (hgrow : 1 ≤ a.cGrowth) (hcinit : 0 < a.cInit)
    {r : Status ℝ} (hr : solveConstrained opt realGrad S.problem gplusHard S.x0 = some r) :
    ∃ s, outerLoop opt realGrad S.problem gplusHard S.x0 = some s ∧ 0 < s.xUnit ∧ (∀ t ∈ r.finMu, 0 ≤ t) ∧
      ∀ (w : List ℝ), w.length = a.constraintValue.length → ∀ δ : ℝ, 0 ≤ δ →
        (∀ p ∈ a.requests.zip (a.withValues w).requests, p.1.relief p.2.value ≤ δ * p.1.unit.size) →
        ∀ d, Pot Q d → UserFeasible (shippedRegistry FieldProblem.fns others) (a.withValues w).requests Q d →
          ∃ y : List ℝ, y.length = S.x0.length ∧ dofsOf S.template S.phiUnit y "phi" = d "phi" ∧
            r.finF + Num.dot r.finMu r.finG - δ * r.finMu.sum - r.finGradLAug * Num.norm (Num.vsub y r.finX) / s.xUnit ≤
              userObjective (shippedRegistry FieldProblem.fns others) a.objectives Q d := by
  have hreg := shipped_auxNames FieldProblem.fns others
  obtain ⟨T⟩ := smooth_data Q others R.plasma R.eval_nonneg ha hs
  have hconv := C130_smooth_convex_partial Q others R.plasma R.eval_nonneg ha hs
  obtain ⟨hci, hcg, hl0, hm0⟩ := setup_params hs
  have hlam : S.problem.lamInit.length = 0 := by
    rw [hl0, T.hvalue]
    rfl
  obtain ⟨G, M, b, hG, hH, hf, hfd, hGc, hGd⟩ := hconv
  obtain ⟨s, hs1, hxu, hmul, hmu0, -, hbound⟩ := C143_reported_multipliers hc hv hgr hshape rfl hG hH hf hfd hGc hGd hlam rfl
    (hgrow.trans_eq hcg.symm) (hcinit.trans_eq hci.symm) hr
  refine ⟨s, hs1, hxu, hmu0, fun w hw δ hδ hrel d hd hfeas => ?_⟩
  have hmode : a.smoothing ≠ some "approx" := by
    rcases ha.mode with h | h <;> simp [h]
  -- the call with the new values
  have hzip : List.Forall₂ SameButValue a.requests (a.withValues w).requests :=
    zipRequests_values _ _ _ _ _ hw.symm
  have hmem : ∀ r' ∈ (a.withValues w).requests, ∃ r ∈ a.requests, SameButValue r r' := by
    intro r' hr'
    obtain ⟨i, hi, rfl⟩ := List.mem_iff_getElem.1 hr'
    have hl := hzip.length_eq
    exact ⟨a.requests[i], List.getElem_mem _, List.forall₂_iff_get.1 hzip |>.2 i (by omega) hi⟩
  obtain ⟨S', hs'⟩ : ∃ S', quadcoilSetup (shippedRegistry FieldProblem.fns others) Q (a.withValues w) phiUnit = .ok S' := by
    obtain ⟨h1, h2, h3⟩ := (C131_setup_succeeds_iff_legal others Q a phiUnit).1 ⟨S, hs⟩
    refine (C131_setup_succeeds_iff_legal others Q (a.withValues w) phiUnit).2 ⟨h1, ⟨h2.1, h2.2.1, fun h => ?_, fun r' hr' => ?_⟩, ?_⟩
    · exact (h2.2.2.1 h).trans hw.symm
    · obtain ⟨r, hr, e1, e2, e3⟩ := hmem r' hr'
      rw [e1, e2, e3]
      exact h2.2.2.2 r hr
    · intro h
      rw [show (a.withValues w).mergeConstraints = a.mergeConstraints from rfl, ha.merge] at h
      cases h
  have hE : Q.ePhis ≠ [] ∧ Q.eThetas ≠ [] := by
    have h1 := R.two_le_A
    have h2 := R.two_le_B
    rw [R.ePhis, R.eThetas]
    constructor <;> (intro h; have := congrArg List.length h; simp [linspace0] at this; omega)
  have hnames : (a.withValues w).requests.map (fun r : Request => r.name) = a.requests.map fun r => r.name := by
    refine List.ext_getElem (by simp [hzip.length_eq]) fun i h1 h2 => ?_
    simp only [List.getElem_map]
    exact (List.forall₂_iff_get.1 hzip |>.2 i (by simpa using h2) (by simpa using h1)).1
  have hca' : ConvexCall (a.withValues w) := by
    refine ⟨hca.mode, hca.merge, hca.objectives, hca.current, fun r' hr' => ?_, ?_, ?_⟩
    · obtain ⟨r, hr, h1, -, h3⟩ := hmem r' hr'
      rw [h1, h3]
      exact hca.constraints r hr
    · rw [hnames]
      exact hca.huber
    · rw [hnames]
      exact hca.once
  have hwell := call_wellPosed Q others hE hB R.plasma R.eval_nonneg hca'
  obtain ⟨htt, hxx, hff, -, As, g, g', hAs, hgv, hgv', hsh⟩ := setup_shifted ha.merge hs hs'
  have hSu : S.phiUnit = phiUnit := by
    obtain ⟨_, _, _, _, h, -⟩ := quadcoilSetup_ok hs
    exact h
  have hSu' : S'.phiUnit = phiUnit := by
    obtain ⟨_, _, _, _, h, -⟩ := quadcoilSetup_ok hs'
    exact h
  obtain ⟨y, ⟨hyl, hyg, -⟩, hyphi, hyf⟩ := (C107_flat_iff_user hreg hs' hpu ha.merge hinit hwell hd _).2 ⟨hfeas, le_refl _⟩
  refine ⟨y, by rw [hyl, hxx], by rw [hSu, ← hSu', ← htt]; exact hyphi, ?_⟩
  -- the constraint functions of the first call at this vector
  have hle : ∀ t ∈ S.problem.g y, t ≤ δ := by
    intro t ht
    rw [hgv] at ht
    obtain ⟨f, hfm, htf⟩ := List.mem_flatMap.1 ht
    obtain ⟨i, hi, rfl⟩ := List.mem_iff_getElem.1 hfm
    have hl := hsh.length_eq
    have hpair := List.forall₂_iff_get.1 hsh |>.2 i hi (by omega)
    simp only [List.get_eq_getElem] at hpair
    have hneg : ∀ t' ∈ (g'[i] Q (dofsOf S.template phiUnit y)).entries, t' ≤ 0 := fun t' ht' =>
      hyg t' (by rw [hgv']; exact List.mem_flatMap.2 ⟨g'[i], List.getElem_mem _, ht'⟩)
    rcases hpair with he | ⟨p, hp, sign, hsign, he, he'⟩
    · rw [he] at htf
      exact (hneg t htf).trans hδ
    · rw [he] at htf
      rw [he'] at hneg
      obtain ⟨k, hk, rfl⟩ := List.mem_iff_getElem.1 hp
      simp only [List.length_zip] at hk
      have hka : k < a.requests.length := by omega
      simp only [List.getElem_zip] at htf hneg hsign
      obtain ⟨hsu, u, hu, hu0⟩ := ha.constraints a.requests[k] (List.getElem_mem _)
      obtain ⟨q, hq⟩ := smooth_registered Q R.plasma R.eval_nonneg hsu
      have hadd := List.forall₂_iff_get.1 hAs |>.2 k hka (by omega)
      simp only [List.get_eq_getElem] at hadd
      rw [hu] at hadd
      obtain ⟨hA', -⟩ := addQuantity_scalar (q := q) (by simp [shippedRegistry, hq]) hadd
      have hunit : As[k].unit Q = .scalar |u| := by rw [hA', addedOf_unit]
      have hpos : 0 < |u| := abs_pos.2 hu0
      rw [consFunc_entries hmode hunit] at htf hneg
      obtain ⟨z, hz, rfl⟩ := List.mem_map.1 htf
      have hz' := hneg _ (List.mem_map.2 ⟨z, hz, rfl⟩)
      have hr1 := hrel (a.requests[k], (a.withValues w).requests[k]) (List.mem_iff_getElem.2 ⟨k, by simp; omega, by simp⟩)
      simp only [hu, UnitArg.size] at hr1
      beta_reduce at hz' ⊢
      have hr2 : Request.relief a.requests[k] (a.withValues w).requests[k].value / |u| ≤ δ := by
        rwa [div_le_iff₀ hpos]
      rcases hsign with ⟨hty, rfl⟩ | ⟨hty, rfl⟩
      · simp only [Request.relief, hty, String.reduceEq, if_false, sub_div] at hr2
        linarith
      · simp only [Request.relief, hty, if_true, sub_div] at hr2
        linarith
  have h1 := hbound y (by rw [hyl, hxx])
  have h2 : Num.dot r.finLam (Num.vsub (S.problem.h y) r.finH) = 0 := by
    rw [T.hvalue]
    simp [Num.dot, Num.vsub, num_sum]
  have hgl : (S.problem.g y).length = S.problem.muInit.length := by
    obtain ⟨y, rfl⟩ := exists_ofFn (hyl.trans (congrArg List.length hxx))
    rw [hG]
    simp
  have hGl : r.finG.length = S.problem.muInit.length := by
    obtain ⟨-, hG', -⟩ := C08_status_consistent opt hc realGrad S.problem gplusHard S.x0 r hr
    obtain ⟨x, hx⟩ := exists_ofFn (solve_length hshape hr)
    rw [hG', hx, hG]
    simp
  obtain ⟨γ, hγ⟩ := exists_ofFn hgl
  obtain ⟨γ', hγ'⟩ := exists_ofFn hGl
  obtain ⟨mu, hmu⟩ := exists_ofFn hmul
  have h3 : Num.dot r.finMu (Num.vsub (S.problem.g y) r.finG) ≤ δ * r.finMu.sum - Num.dot r.finMu r.finG := by
    rw [hγ] at hle ⊢
    rw [hγ']
    rw [hmu] at hmu0 ⊢
    simp only [Num.vsub, zipWith_ofFn, num_dot_ofFn, num_sub, mul_sub, Finset.sum_sub_distrib, List.sum_ofFn, Finset.mul_sum]
    refine sub_le_sub_right (Finset.sum_le_sum fun i _ => ?_) _
    rw [mul_comm δ]
    exact mul_le_mul_of_nonneg_left (hle _ (by rw [List.mem_ofFn']; exact ⟨i, rfl⟩)) (hmu0 _ (by rw [List.mem_ofFn']; exact ⟨i, rfl⟩))
  have h4 : S.problem.f y ≤ userObjective (shippedRegistry FieldProblem.fns others) a.objectives Q d := by
    rw [← hff]
    exact hyf
  linarith

end Verif
