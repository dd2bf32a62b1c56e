import Verif.Props.SetupErrors
import Verif.Lemmas.Slater

/-!
# C132: strictly feasible convex calls have multipliers
-/

namespace Verif

/-! ## Convex problems in general -/

/-- **C132 (general form).** For a convex problem with inequalities only and a strictly feasible point, every minimiser is part of a
saddle point, the hypothesis of C111. -/
theorem C132_minimiser_is_saddle {N n : ℕ} {p : Problem ℝ} (hp : IsConvexProblem N 0 n p) {z : List ℝ} (hz : z.length = N)
    (hstrict : ∀ v ∈ p.g z, v < 0) {x : List ℝ} (hx : x.length = N) (hfeas : AllNonpos (p.g x))
    (hmin : ∀ y : List ℝ, y.length = N → AllNonpos (p.g y) → p.f x ≤ p.f y) :
    ∃ mu, IsSaddle N p.f p.g p.h x [] mu ∧ listDot mu (p.g x) = 0 := by
  obtain ⟨G, A, b, hG, hH, hf, -, hGc, -⟩ := hp
  obtain ⟨z, rfl⟩ := exists_ofFn hz
  have hh : ∀ y : List ℝ, y.length = N → p.h y = [] := by
    intro y hy
    obtain ⟨y, rfl⟩ := exists_ofFn hy
    rw [hH]
    simp
  obtain ⟨mu, hmu, hL⟩ := exists_multipliers hf hGc (z := z) (fun j => hstrict _ (by rw [hG, List.mem_ofFn']; exact ⟨j, rfl⟩))
    (v := p.f x) fun y hy => hmin _ (by simp) (by
      rw [hG]
      intro v hv
      rw [List.mem_ofFn'] at hv
      obtain ⟨j, rfl⟩ := hv
      exact hy j)
  have hdot : ∀ y : Fin N → ℝ, listDot (List.ofFn mu) (p.g (List.ofFn y)) = ∑ j, mu j * G y j := fun y => by rw [hG, listDot_ofFn]
  have hsad : IsSaddle N p.f p.g p.h x [] (List.ofFn mu) := {
    length := hx
    lam_length := by rw [hh x hx]
    mu_length := by
      obtain ⟨x, rfl⟩ := exists_ofFn hx
      rw [hG]
      simp
    mu_nonneg := fun m hm => by
      rw [List.mem_ofFn'] at hm
      obtain ⟨j, rfl⟩ := hm
      exact hmu j
    ineq := hfeas
    eq := by
      rw [hh x hx]
      simp
    lagrangian := fun y hy => by
      obtain ⟨y, rfl⟩ := exists_ofFn hy
      rw [hdot, hh _ (by simp)]
      have : listDot ([] : List ℝ) [] = 0 := rfl
      rw [this, add_zero]
      exact hL y }
  refine ⟨List.ofFn mu, hsad, le_antisymm ?_ ?_⟩
  · obtain ⟨x, rfl⟩ := exists_ofFn hx
    rw [hdot]
    refine Finset.sum_nonpos fun j _ => mul_nonpos_of_nonneg_of_nonpos (hmu j) (hfeas _ ?_)
    rw [hG, List.mem_ofFn']
    exact ⟨j, rfl⟩
  · have := hsad.lagrangian x hx
    rw [hh x hx] at this
    have h0 : listDot ([] : List ℝ) [] = 0 := rfl
    linarith

/-! ## Strictly feasible potentials -/

/-- The potential satisfies all constraints strictly; there are no equalities. -/
def StrictlyFeasible {P : Type} (reg : Registry P) (rs : List Request) (qp : P) (d : Dofs) : Prop :=
  ∀ r ∈ rs, (r.type = "<=" ∧ ∀ x ∈ (rawOf reg r.name qp d).entries, x < r.value) ∨
    (r.type = ">=" ∧ ∀ x ∈ (rawOf reg r.name qp d).entries, r.value < x)

/-- A request with a margin. -/
noncomputable def Request.tighten (ε : ℝ) (r : Request) : Request := { r with value := if r.type = ">=" then r.value + ε else r.value - ε }

theorem exists_margin (l : List ℝ) (v : ℝ) (h : ∀ x ∈ l, x < v) : ∃ ε > 0, ∀ x ∈ l, x ≤ v - ε := by
  induction l with
  | nil => exact ⟨1, one_pos, by simp⟩
  | cons a l ih =>
    obtain ⟨ε, hε, h1⟩ := ih fun x hx => h x (List.mem_cons_of_mem _ hx)
    have ha := h a List.mem_cons_self
    refine ⟨min ε (v - a), lt_min hε (by linarith), fun x hx => ?_⟩
    rcases List.mem_cons.1 hx with rfl | hx
    · linarith [min_le_right ε (v - x)]
    · linarith [min_le_left ε (v - a), h1 x hx]

theorem exists_bound (l : List ℝ) : ∃ B : ℝ, ∀ x ∈ l, x < B := by
  induction l with
  | nil => exact ⟨0, by simp⟩
  | cons a l ih =>
    obtain ⟨B, hB⟩ := ih
    refine ⟨max B (a + 1), fun x hx => ?_⟩
    rcases List.mem_cons.1 hx with rfl | hx
    · exact lt_max_of_lt_right (by linarith)
    · exact lt_max_of_lt_left (hB x hx)

theorem StrictlyFeasible.tighten {P : Type} {reg : Registry P} {rs : List Request} {qp : P} {d : Dofs} (h : StrictlyFeasible reg rs qp d) :
    ∃ ε > 0, UserFeasible reg (rs.map (Request.tighten ε)) qp d := by
  have key : ∃ ε > 0, ∀ r ∈ rs, (r.type = "<=" ∧ ∀ x ∈ (rawOf reg r.name qp d).entries, x ≤ r.value - ε) ∨
      (r.type = ">=" ∧ ∀ x ∈ (rawOf reg r.name qp d).entries, r.value + ε ≤ x) := by
    induction rs with
    | nil => exact ⟨1, one_pos, by simp⟩
    | cons r rs ih =>
      obtain ⟨ε, hε, h1⟩ := ih fun r hr => h r (List.mem_cons_of_mem _ hr)
      have h2 : ∃ δ > 0, (r.type = "<=" ∧ ∀ x ∈ (rawOf reg r.name qp d).entries, x ≤ r.value - δ) ∨
          (r.type = ">=" ∧ ∀ x ∈ (rawOf reg r.name qp d).entries, r.value + δ ≤ x) := by
        rcases h r List.mem_cons_self with ⟨ht, h2⟩ | ⟨ht, h2⟩
        · obtain ⟨δ, hδ, h3⟩ := exists_margin _ _ h2
          exact ⟨δ, hδ, .inl ⟨ht, h3⟩⟩
        · obtain ⟨δ, hδ, h3⟩ := exists_margin ((rawOf reg r.name qp d).entries.map fun x => -x) (-r.value) (by
            intro x hx
            obtain ⟨y, hy, rfl⟩ := List.mem_map.1 hx
            linarith [h2 y hy])
          refine ⟨δ, hδ, .inr ⟨ht, fun x hx => ?_⟩⟩
          linarith [h3 (-x) (List.mem_map.2 ⟨x, hx, rfl⟩)]
      obtain ⟨δ, hδ, h2⟩ := h2
      refine ⟨min ε δ, lt_min hε hδ, fun r' hr' => ?_⟩
      rcases List.mem_cons.1 hr' with rfl | hr'
      · rcases h2 with ⟨ht, h2⟩ | ⟨ht, h2⟩
        · exact .inl ⟨ht, fun x hx => by linarith [h2 x hx, min_le_right ε δ]⟩
        · exact .inr ⟨ht, fun x hx => by linarith [h2 x hx, min_le_right ε δ]⟩
      · rcases h1 r' hr' with ⟨ht, h2⟩ | ⟨ht, h2⟩
        · exact .inl ⟨ht, fun x hx => by linarith [h2 x hx, min_le_left ε δ]⟩
        · exact .inr ⟨ht, fun x hx => by linarith [h2 x hx, min_le_left ε δ]⟩
  obtain ⟨ε, hε, key⟩ := key
  refine ⟨ε, hε, fun r hr => ?_⟩
  obtain ⟨r, hr', rfl⟩ := List.mem_map.1 hr
  rcases key r hr' with ⟨ht, h1⟩ | ⟨ht, h1⟩
  · simpa [FieldConstraint, Request.tighten, ht] using h1
  · simpa [FieldConstraint, Request.tighten, ht] using h1

/-! ## Large auxiliary variables -/

/-- The inequalities that come with a quantity hold strictly if its auxiliary variables are large. -/
theorem own_strict (Q : FieldProblem) {sm : Option String} (hsm : sm = none ∨ sm = some "slack") (sp : SmoothingParams)
    {name : String} (h : SmoothUse sm name) {q : Quantity FieldProblem} (hq : (shipped FieldProblem.fns).lookup name = some q) (u : ℝ)
    (phi : Val) : ∃ B : ℝ, ∀ p ≥ B, ∀ d : Dofs, d "phi" = phi → (∀ k ∈ auxOf sm q, d k = .scalar p) →
      ∀ g ∈ (addedOf q sm sp fun _ => .scalar |u|).g, ∀ v ∈ (g Q d).entries, v < 0 := by
  have hc2 : ∀ func comp, q = Quantity.generateC2 func comp → (addedOf q sm sp fun _ => .scalar |u|).g = [] := by
    rintro func comp rfl
    rcases hsm with rfl | rfl <;> rfl
  have two : ∀ (l : List ℝ) (w : ℝ), ∃ B : ℝ, ∀ p ≥ B, ∀ v ∈ (l.map fun t => t / w - p) ++ l.map fun t => -t / w - p, v < 0 := by
    intro l w
    obtain ⟨B, hB⟩ := exists_bound ((l.map fun t => t / w) ++ l.map fun t => -t / w)
    refine ⟨B, fun p hp v hv => ?_⟩
    rcases List.mem_append.1 hv with hv | hv
    · obtain ⟨t, ht, rfl⟩ := List.mem_map.1 hv
      linarith [hB (t / w) (List.mem_append_left _ (List.mem_map.2 ⟨t, ht, rfl⟩))]
    · obtain ⟨t, ht, rfl⟩ := List.mem_map.1 hv
      linarith [hB (-t / w) (List.mem_append_right _ (List.mem_map.2 ⟨t, ht, rfl⟩))]
  have hcoef : ∀ d : Dofs, d "phi" = phi → coefs d = coefs fun _ => phi := fun d hd => by simp only [coefs, hd]
  rcases h with h | h | ⟨rfl, h⟩
  · obtain ⟨func, comp, hq', -⟩ := affine_smooth (L := 0) Q name h
    rw [hq] at hq'
    rw [hc2 func comp (Option.some.inj hq')]
    exact ⟨0, by simp⟩
  · have hc : ∃ func comp, q = Quantity.generateC2 func comp := by
      simp only [quadNames, List.mem_cons, List.not_mem_nil, or_false] at h
      rcases h with rfl | rfl | rfl | rfl | rfl | rfl | rfl <;> cases hq <;> exact ⟨_, _, rfl⟩
    obtain ⟨func, comp, hc⟩ := hc
    rw [hc2 func comp hc]
    exact ⟨0, by simp⟩
  · simp only [maxNames, List.mem_cons, List.not_mem_nil, or_false] at h
    rcases h with rfl | rfl | rfl | rfl | rfl
    · cases hq
      obtain ⟨B, hB⟩ := two (FieldProblem.fns.Bnormal Q fun _ => phi) |u|
      refine ⟨B, fun p hp d hd hk g hg v hv => hB p hp v ?_⟩
      have hi := hk "scaled max Bnormal" (by simp [auxOf, Quantity.generateLinf])
      simp only [addedOf, Quantity.generateLinf, if_true, Option.map_some, Option.toList_some, List.mem_singleton] at hg
      subst hg
      simp only [hi, Bool.false_eq_true, if_false, slackIneq_entries] at hv
      simp only [arr, Val.entries, FieldProblem.fns, hcoef d hd] at hv
      exact hv
    · cases hq
      obtain ⟨B, hB⟩ := two (FieldProblem.fns.Bnormal2 Q fun _ => phi) |u|
      refine ⟨B, fun p hp d hd hk g hg v hv => hB p hp v ?_⟩
      have hi := hk "scaled max Bnormal2" (by simp [auxOf, Quantity.generateLinf])
      simp only [addedOf, Quantity.generateLinf, if_true, Option.map_some, Option.toList_some, List.mem_singleton] at hg
      subst hg
      simp only [hi, Bool.false_eq_true, if_false, if_true, slackIneq_entries, List.append_nil] at hv
      simp only [arr, Val.entries, FieldProblem.fns, hcoef d hd] at hv
      exact List.mem_append_left _ hv
    · cases hq
      obtain ⟨B, hB⟩ := two (FieldProblem.fns.Phi Q fun _ => phi) |u|
      refine ⟨B, fun p hp d hd hk g hg v hv => hB p hp v ?_⟩
      have hi := hk "scaled_max_Phi" (by simp [auxOf, Quantity.generateLinf])
      simp only [addedOf, Quantity.generateLinf, if_true, Option.map_some, Option.toList_some, List.mem_singleton] at hg
      subst hg
      simp only [hi, Bool.false_eq_true, if_false, slackIneq_entries] at hv
      simp only [arr, Val.entries, FieldProblem.fns, hcoef d hd] at hv
      exact hv
    · cases hq
      obtain ⟨B, hB⟩ := two (FieldProblem.fns.Phi Q fun _ => phi) (Real.sqrt |u|)
      refine ⟨B, fun p hp d hd hk g hg v hv => hB p hp v ?_⟩
      have hi := hk "scaled_max_Phi_f_max_Phi2" (by simp [auxOf, Quantity.generateLinf])
      simp only [addedOf, Quantity.generateLinf, if_true, Option.map_some, Option.toList_some, List.mem_singleton] at hg
      subst hg
      simp only [hi, Val.map, Bool.false_eq_true, if_false, slackIneq_entries] at hv
      simp only [arr, Val.entries, FieldProblem.fns, hcoef d hd] at hv
      exact hv
    · cases hq
      obtain ⟨B, hB⟩ := two ((FieldProblem.fns.Phi Q fun _ => phi).map fun t => t ^ 2) (Real.sqrt |u|)
      refine ⟨B, fun p hp d hd hk g hg v hv => hB p hp v ?_⟩
      have hi := hk "scaled_max_Phi2_f_max_Phi4" (by simp [auxOf, Quantity.generateLinf4])
      simp only [addedOf, Quantity.generateLinf4, if_true, Option.map_some, Option.toList_some, List.mem_singleton] at hg
      subst hg
      have e : (Val.map2 (· - ·) (Val.map2 (· / ·) (Val.map (· ^ 2) (arr FieldProblem.fns.Phi Q d))
          (Val.map Real.sqrt (.scalar |u|))) (d "scaled_max_Phi2_f_max_Phi4")).entries =
          ((FieldProblem.fns.Phi Q fun _ => phi).map fun t => t ^ 2).map fun t => t / Real.sqrt |u| - p := by
        simp [hi, arr, Val.map, Val.map2, Val.entries, Function.comp_def, FieldProblem.fns, hcoef d hd]
      simp only [e] at hv
      exact List.mem_append_left _ hv

/-! ## A strictly feasible flat vector -/

theorem forall₂_unique {α β : Type} {R : α → β → Prop} (hR : ∀ a b b', R a b → R a b' → b = b') {l : List α} {m m' : List β}
    (h : List.Forall₂ R l m) (h' : List.Forall₂ R l m') : m = m' := by
  induction h generalizing m' with
  | nil => exact (List.forall₂_nil_left_iff.1 h').symm
  | cons hab _ ih =>
    obtain ⟨b', l', hb, hl, rfl⟩ := List.forall₂_cons_left_iff.1 h'
    rw [hR _ _ _ hab hb, ih hl]

theorem EachFn.refine {N : ℕ} {p q : ((Fin N → ℝ) → ℝ) → Prop} {F : (Fin N → ℝ) → List ℝ} (hF : EachFn p F)
    (h : ∀ f, p f → (∀ x, f x ∈ F x) → q f) : EachFn q F := by
  obtain ⟨fs, e, hf⟩ := hF
  exact ⟨fs, e, fun f hfm => h f (hf f hfm) fun x => by rw [e]; exact List.mem_map.2 ⟨f, hfm, rfl⟩⟩

theorem zipRequests_map (rs : List Request) :
    zipRequests (rs.map fun r => r.name) (rs.map fun r => r.type) (rs.map fun r => r.unit) (rs.map fun r => r.value) = rs := by
  induction rs with
  | nil => rfl
  | cons r rs ih =>
    simp only [zipRequests, List.map_cons, List.zip_cons_cons, List.zipWith_cons_cons] at ih ⊢
    rw [ih]

section
variable {Q : FieldProblem} {others : List String} {a : QuadcoilArgs} {phiUnit : ℝ} {S : Setup}

/-- A potential and numbers for the auxiliary variables come from a flat vector. -/
theorem SmoothData.flatten (T : SmoothData Q others a phiUnit S) (hu : phiUnit ≠ 0)
    (hinit : ∀ p, a.phiInit = some p → p.length = HasQp.ndofs Q) {e : Dofs} (he : Pot Q e)
    (hsc : ∀ k ∈ (dictUnion T.acc.slack T.c.slack).map Prod.fst, ∃ p, e k = .scalar p) :
    ∃ x : Fin S.x0.length → ℝ, dofsOf S.template phiUnit (List.ofFn x) "phi" = e "phi" ∧
      ∀ k ∈ (dictUnion T.acc.slack T.c.slack).map Prod.fst, dofsOf S.template phiUnit (List.ofFn x) k = e k := by
  have hreg := shipped_auxNames FieldProblem.fns others
  obtain ⟨p, hp⟩ : ∃ p, p = a.phiInit.getD (List.replicate (HasQp.ndofs Q) 0) := ⟨_, rfl⟩
  have hpl : p.length = HasQp.ndofs Q := by
    rw [hp]
    cases hi : a.phiInit with
    | none => simp
    | some p => exact hinit p hi
  have ht := T.template
  rw [← hp] at ht
  obtain ⟨phi, hphi, hphil⟩ := he
  have hnd := xTemplate_nodup hreg T.slackOk Q p phiUnit
  obtain ⟨x, hxl, hxphi, hxk⟩ := exists_flat (d := e) hnd hu (xTemplate_phi hreg T.slackOk Q p phiUnit) hphi
    (by rw [List.length_map, hphil, hpl]) (by
      intro k v hkv hk
      have h3 := lookup_of_mem hnd hkv
      rw [xTemplate_lookup hreg T.slackOk Q p phiUnit k hk, Option.map_eq_some_iff] at h3
      obtain ⟨fn, hfn, rfl⟩ := h3
      obtain ⟨y, hy⟩ := hsc k ((lookup_isSome_iff _ k).1 (by rw [hfn]; rfl))
      have := T.aux_scalar k fn hfn (phiOnly (Val.array p))
      rw [hy]
      cases hv : fn Q (phiOnly (Val.array p)) with
      | scalar z => trivial
      | array l =>
        rw [hv] at this
        simp [Val.isScalar] at this)
  rw [← ht] at hxl hxphi hxk
  rw [← T.x0] at hxl
  obtain ⟨x, rfl⟩ := exists_ofFn hxl
  refine ⟨x, hxphi, fun k hk => ?_⟩
  obtain ⟨fn, hfn⟩ := Option.isSome_iff_exists.1 ((lookup_isSome_iff _ k).2 hk)
  obtain ⟨hk1, hk2, -⟩ := dofsOf_aux hreg T.slackOk Q p phiUnit (List.ofFn x) hfn
  refine hxk k (fn Q (phiOnly (Val.array p))) ?_ hk1 hk2
  rw [ht]
  apply mem_of_lookup
  rw [xTemplate_lookup hreg T.slackOk Q p phiUnit k hk2, hfn]
  rfl

/-- All uses of quantities in a well-posed call are exact. -/
theorem SmoothData.exact (T : SmoothData Q others a phiUnit S)
    (hw : WellPosed (shippedRegistry FieldProblem.fns others) a.objectives a.requests a.smoothing a.sp Q) :
    ∀ A ∈ T.As ++ T.Bs, ∃ name q u, SmoothUse a.smoothing name ∧ (shipped FieldProblem.fns).lookup name = some q ∧
      A = addedOf q a.smoothing a.sp (fun _ => .scalar |u|) ∧ ExactQuantity q a.smoothing a.sp Q := by
  have uniq : ∀ (name : String) (q q' : Quantity FieldProblem), (shipped FieldProblem.fns).lookup name = some q →
      shippedRegistry FieldProblem.fns others name = some (.quantity q') → q' = q := by
    intro name q q' h h'
    simpa [shippedRegistry, h, eq_comm] using h'
  intro A hA
  rcases List.mem_append.1 hA with h | h
  · obtain ⟨i, hi, rfl⟩ := List.mem_iff_getElem.1 h
    obtain ⟨name, q, u, w, hsu, -, hq, he, hwi, -, hni, hui⟩ := T.useA i hi
    have hmem : (name, .scalar u, w) ∈ a.objectives := by
      rw [T.objectives]
      refine List.mem_iff_getElem?.2 ⟨i, ?_⟩
      rw [List.getElem?_zip_eq_some, List.getElem?_zip_eq_some]
      exact ⟨hni, hui, hwi⟩
    obtain ⟨q', u', hq', -, -, -, hex, -⟩ := hw.objective _ hmem
    obtain rfl := uniq name q q' hq hq'
    exact ⟨name, q', u, hsu, hq, he, hex⟩
  · obtain ⟨i, hi, rfl⟩ := List.mem_iff_getElem.1 h
    have hl := T.bs.length_eq
    have hz : (a.requests[i], T.Bs[i]) ∈ a.requests.zip T.Bs := List.mem_iff_getElem.2 ⟨i, by simp; omega, by simp⟩
    obtain ⟨q, u, hsu, hq, he, -⟩ := T.useB _ hz
    obtain ⟨q', u', hq', -, -, hex⟩ := hw.constraint a.requests[i] (List.getElem_mem _)
    obtain rfl := uniq _ q q' hq hq'
    exact ⟨_, q', u, hsu, hq, he, hex⟩

/-- A potential that is feasible with a margin has auxiliary variables that satisfy the requested constraints with this margin. -/
theorem SmoothData.tight_dofs (T : SmoothData Q others a phiUnit S)
    (hw : WellPosed (shippedRegistry FieldProblem.fns others) a.objectives a.requests a.smoothing a.sp Q)
    (hineq : ∀ r ∈ a.requests, r.type = "<=" ∨ r.type = ">=") {ε : ℝ} {d0 d : Dofs} (hd0 : Pot Q d0) (hd : Pot Q d)
    (hf : UserFeasible (shippedRegistry FieldProblem.fns others) (a.requests.map (Request.tighten ε)) Q d) :
    ∃ e, e "phi" = d "phi" ∧ Conf (dictUnion T.acc.slack T.c.slack) Q d0 e ∧ (∀ A ∈ T.As ++ T.Bs, OwnOk A Q e) ∧
      ∀ rA ∈ a.requests.zip T.Bs, ReqOk a.smoothing a.sp (rA.1.tighten ε) rA.2 Q e := by
  obtain ⟨c', hc'⟩ : ∃ c', (a.requests.map (Request.tighten ε)).foldlM
      (parseStep (shippedRegistry FieldProblem.fns others) a.smoothing a.sp) ⟨[], [], []⟩ = .ok c' := by
    rw [foldlM_parseStep_ok_iff]
    intro r hr
    obtain ⟨r, hr', rfl⟩ := List.mem_map.1 hr
    exact (foldlM_parseStep_ok_iff _ _ _ _ _).1 ⟨_, T.constraint_parse⟩ r hr'
  have det : ∀ (r : Request) (A A' : Added FieldProblem),
      addQuantity (shippedRegistry FieldProblem.fns others) r.name r.unit r.type a.smoothing a.sp = .ok A →
      addQuantity (shippedRegistry FieldProblem.fns others) r.name r.unit r.type a.smoothing a.sp = .ok A' → A = A' :=
    fun r A A' h h' => Except.ok.inj (h.symm.trans h')
  obtain ⟨As, -, -, hAs, -, hAslack, hAok⟩ := objLoop_blocks _ _ _ _ _ _ _ T.loop
  obtain rfl : As = T.As := forall₂_unique (fun _ _ _ h h' => Except.ok.inj (h.symm.trans h')) hAs T.as
  obtain ⟨Bs, hBs, hBslack, -⟩ := parse_blocks _ _ _ _ _ _ T.constraint_parse
  obtain rfl : Bs = T.Bs := forall₂_unique det hBs T.bs
  obtain ⟨Bs', hBs', hBslack', hBok'⟩ := parse_blocks _ _ _ _ _ _ hc'
  rw [List.forall₂_map_left_iff] at hBs'
  obtain rfl : Bs' = T.Bs := forall₂_unique det hBs' T.bs
  have hslack : c'.slack = T.c.slack := hBslack'.trans hBslack.symm
  have hpc : parseConstraints (shippedRegistry FieldProblem.fns others) ((a.requests.map (Request.tighten ε)).map fun r => r.name)
      ((a.requests.map (Request.tighten ε)).map fun r => r.type) ((a.requests.map (Request.tighten ε)).map fun r => r.unit)
      ((a.requests.map (Request.tighten ε)).map fun r => r.value) a.smoothing a.sp = .ok c' := by
    unfold parseConstraints
    rw [if_neg (by simp), zipRequests_map]
    exact hc'
  have hwell : WellPosed (shippedRegistry FieldProblem.fns others) (objectiveList a.objectiveName a.objectiveUnit
      (match a.objectiveName with | .one _ => .one 1 | .many _ => a.objectiveWeight))
      (zipRequests ((a.requests.map (Request.tighten ε)).map fun r => r.name)
        ((a.requests.map (Request.tighten ε)).map fun r => r.type) ((a.requests.map (Request.tighten ε)).map fun r => r.unit)
        ((a.requests.map (Request.tighten ε)).map fun r => r.value)) a.smoothing a.sp Q := by
    rw [zipRequests_map]
    have hw := hw
    rw [← objectiveList_weight] at hw
    refine ⟨hw.mode, hw.objective, ?_, ?_⟩
    · intro r hr
      obtain ⟨r, hr', rfl⟩ := List.mem_map.1 hr
      exact hw.constraint r hr'
    · have := hw.aux_nodup
      rwa [List.map_map]
  obtain ⟨e, he, hconf, hg, hh, -⟩ := (C106_whole_problem_exact T.objective_parse hpc hwell hd0 hd _).2
    ⟨by rw [zipRequests_map]; exact hf, le_refl _⟩
  have h1 := (hAok Q e).1 ⟨fun g h => hg g (List.mem_append_left _ h), fun k h => hh k (List.mem_append_left _ h)⟩
  have h2 := (hBok' Q e).1 ⟨fun g h => hg g (List.mem_append_right _ h), fun k h => hh k (List.mem_append_right _ h)⟩
  have hz : ∀ rA ∈ a.requests.zip T.Bs, (rA.1.tighten ε, rA.2) ∈ (a.requests.map (Request.tighten ε)).zip T.Bs := by
    intro rA hrA
    rw [List.zip_map_left]
    exact List.mem_map.2 ⟨rA, hrA, rfl⟩
  refine ⟨e, he, ?_, fun A hA => ?_, fun rA hrA => (h2.2 _ (hz rA hrA)).2⟩
  · have : (joinParsed ⟨fTot T.acc.f T.ws, T.acc.g, T.acc.h, T.acc.slack⟩ c').slack = dictUnion T.acc.slack T.c.slack := by
      rw [← hslack]
      rfl
    rwa [this] at hconf
  · rcases List.mem_append.1 hA with h | h
    · exact h1.2 A h
    · obtain ⟨i, hi, rfl⟩ := List.mem_iff_getElem.1 h
      have hl := T.bs.length_eq
      exact (h2.2 _ (hz (a.requests[i], T.Bs[i]) (List.mem_iff_getElem.2 ⟨i, by simp; omega, by simp⟩))).1

theorem SmoothData.large_aux (T : SmoothData Q others a phiUnit S) (hsm : a.smoothing = none ∨ a.smoothing = some "slack") (phi : Val) :
    ∃ B : ℝ, ∀ p ≥ B, ∀ d : Dofs, d "phi" = phi → (∀ k ∈ (dictUnion T.acc.slack T.c.slack).map Prod.fst, d k = .scalar p) →
      ∀ A ∈ T.As ++ T.Bs, ∀ g ∈ A.g, ∀ v ∈ (g Q d).entries, v < 0 := by
  have key : ∀ l : List (Added FieldProblem), (∀ A ∈ l, A ∈ T.As ++ T.Bs) →
      ∃ B : ℝ, ∀ p ≥ B, ∀ d : Dofs, d "phi" = phi → (∀ k ∈ (dictUnion T.acc.slack T.c.slack).map Prod.fst, d k = .scalar p) →
        ∀ A ∈ l, ∀ g ∈ A.g, ∀ v ∈ (g Q d).entries, v < 0 := by
    intro l
    induction l with
    | nil => exact fun _ => ⟨0, by simp⟩
    | cons A l ih =>
      intro hl
      obtain ⟨B, hB⟩ := ih fun A hA => hl A (List.mem_cons_of_mem _ hA)
      have hAm := hl A List.mem_cons_self
      obtain ⟨name, q, u, hsu, hq, he⟩ := T.used A hAm
      obtain ⟨B', hB'⟩ := own_strict Q hsm a.sp hsu hq u phi
      refine ⟨max B B', fun p hp d hd hk A' hA' => ?_⟩
      rcases List.mem_cons.1 hA' with rfl | hA'
      · rw [he]
        exact hB' p ((le_max_right _ _).trans hp) d hd fun k hk' => hk k (T.keys _ hAm k (by rw [he, addedOf_slack_keys]; exact hk'))
      · exact hB p ((le_max_left _ _).trans hp) d hd hk A' hA'
  exact key _ fun _ h => h

/-- A strictly feasible potential gives a flat vector at which all inequalities of the solver's problem hold strictly. -/
theorem SmoothData.strict_point (T : SmoothData Q others a phiUnit S) (ha : SmoothCall a) (hu : phiUnit ≠ 0)
    (hinit : ∀ p, a.phiInit = some p → p.length = HasQp.ndofs Q)
    (hw : WellPosed (shippedRegistry FieldProblem.fns others) a.objectives a.requests a.smoothing a.sp Q) {d : Dofs} (hd : Pot Q d)
    (hstrict : StrictlyFeasible (shippedRegistry FieldProblem.fns others) a.requests Q d) :
    ∃ z : List ℝ, z.length = S.x0.length ∧ ∀ v ∈ S.problem.g z, v < 0 := by
  have hreg := shipped_auxNames FieldProblem.fns others
  have hmode : a.smoothing ≠ some "approx" := hw.mode
  obtain ⟨ε, hε, htight⟩ := hstrict.tighten
  obtain ⟨e1, he1, hconf, hown, hreq⟩ := T.tight_dofs hw (fun r hr => (hstrict r hr).imp And.left And.left) hd hd htight
  obtain ⟨x1, hx1, hx1k⟩ := T.flatten hu hinit (e := e1) (by unfold Pot; rw [he1]; exact hd) (by
    intro k hk
    obtain ⟨fn, hfn⟩ := Option.isSome_iff_exists.1 ((lookup_isSome_iff _ k).2 hk)
    have h1 := hconf _ (mem_of_lookup hfn)
    have h2 := T.aux_scalar k fn hfn d
    simp only at h1
    cases hv : fn Q d with
    | array l => simp [hv, Val.isScalar] at h2
    | scalar z =>
      cases hek : e1 k with
      | scalar y => exact ⟨y, rfl⟩
      | array l => simp [hv, hek, SameShape] at h1)
  obtain ⟨B, hB⟩ := T.large_aux ha.mode (d "phi")
  have hne : ∀ k ∈ (dictUnion T.acc.slack T.c.slack).map Prod.fst, k ≠ "phi" := by
    intro k hk
    obtain ⟨fn, hfn⟩ := Option.isSome_iff_exists.1 ((lookup_isSome_iff _ k).2 hk)
    exact (dofsOf_aux hreg T.slackOk Q [] phiUnit [] hfn).1
  obtain ⟨x2, hx2, hx2k⟩ := T.flatten hu hinit (e := fun k => if k = "phi" then d "phi" else .scalar B) (by
    unfold Pot at hd ⊢
    simpa using hd) fun k hk => ⟨B, if_neg (hne k hk)⟩
  have hB2 := hB B le_rfl (dofsOf S.template phiUnit (List.ofFn x2)) (hx2.trans (if_pos rfl)) fun k hk => (hx2k k hk).trans (if_neg (hne k hk))
  have loc : ∀ A ∈ T.As ++ T.Bs, A.val Q e1 = A.val Q (dofsOf S.template phiUnit (List.ofFn x1)) ∧
      ∀ g ∈ A.g, g Q e1 = g Q (dofsOf S.template phiUnit (List.ofFn x1)) := by
    intro A hA
    obtain ⟨name, q, u, -, -, he, hex⟩ := T.exact hw A hA
    have := hex.locality u e1 (dofsOf S.template phiUnit (List.ofFn x1)) hx1.symm fun k hk =>
      (hx1k k (T.keys _ hA k (by rw [he, addedOf_slack_keys]; exact hk))).symm
    rw [← he] at this
    exact ⟨this.1, this.2.1⟩
  have hG : ∀ g ∈ T.acc.g ++ T.c.g, EachFn (fun f : (Fin S.x0.length → ℝ) → ℝ => SmoothConvex f ∧ f x1 ≤ 0 ∧ (f x1 < 0 ∨ f x2 < 0))
      fun x : Fin S.x0.length → ℝ => (g Q (dofsOf S.template phiUnit (List.ofFn x))).entries := by
    intro g hg
    refine (T.gsmooth g hg).refine fun f hf hmem => ⟨hf, ?_⟩
    have hm1 := hmem x1
    rcases T.gform g hg with ⟨A, hA, hgA⟩ | ⟨rA, hrA, hcase⟩
    · rw [← (loc A hA).2 g hgA] at hm1
      exact ⟨(hown A hA).1 g hgA _ hm1, .inr (hB2 A hA g hgA _ (hmem x2))⟩
    · have hlt : f x1 < 0 := by
        obtain ⟨q, u, -, -, he, -, hu0⟩ := T.useB rA hrA
        have hunit : rA.2.unit Q = .scalar |u| := by rw [he, addedOf_unit]
        have hBm : rA.2 ∈ T.As ++ T.Bs := List.mem_append_right _ (List.of_mem_zip hrA).2
        have hpos : 0 < |u| := abs_pos.2 hu0
        have hεu : 0 < ε / |u| := div_pos hε hpos
        have hr := hreq rA hrA
        rcases hcase with ⟨ht, rfl⟩ | ⟨ht, rfl⟩
        · rw [consFunc_entries hmode hunit, ← (loc _ hBm).1] at hm1
          obtain ⟨y, hy, hy'⟩ := List.mem_map.1 hm1
          have h1 : AllNonpos (consFunc rA.2 (rA.1.value - ε) 1 a.smoothing a.sp Q e1).entries := by
            simpa [ReqOk, Request.tighten, ht] using hr
          rw [consFunc_entries hmode hunit] at h1
          have h2 := h1 _ (List.mem_map.2 ⟨y, hy, rfl⟩)
          rw [sub_div] at h2
          rw [← hy']
          linarith
        · rw [consFunc_entries hmode hunit, ← (loc _ hBm).1] at hm1
          obtain ⟨y, hy, hy'⟩ := List.mem_map.1 hm1
          have h1 : AllNonpos (consFunc rA.2 (rA.1.value + ε) (-1) a.smoothing a.sp Q e1).entries := by
            simpa [ReqOk, Request.tighten, ht] using hr
          rw [consFunc_entries hmode hunit] at h1
          have h2 := h1 _ (List.mem_map.2 ⟨y, hy, rfl⟩)
          rw [add_div] at h2
          rw [← hy']
          linarith
      exact ⟨hlt.le, .inl hlt⟩
  obtain ⟨n, G, hGe, hGs⟩ := (EachFn.flatMap (T.acc.g ++ T.c.g)
    (fun g (x : Fin S.x0.length → ℝ) => (g Q (dofsOf S.template phiUnit (List.ofFn x))).entries) hG).tuple
  obtain ⟨z, hz⟩ := exists_strict (G := G) (fun j => (hGs j).1.convex.on) fun j => (hGs j).2
  refine ⟨List.ofFn z, by simp, fun v hv => ?_⟩
  rw [T.gvalue, hGe, List.mem_ofFn'] at hv
  obtain ⟨j, rfl⟩ := hv
  exact hz j

/-- **C132.** For a well-posed call with smooth convex quantities and a potential that satisfies all requested constraints strictly,
every minimiser of the problem passed to the solver has multipliers: with them it is a saddle point of the Lagrangian, and the products
of multipliers and constraints vanish. This is the hypothesis of C111. -/
theorem C132_multipliers_exist_partial (hp : 0 ≤ gridStep Q.plasma.phis * gridStep Q.plasma.thetas)
    (he : 0 ≤ gridStep Q.ePhis * gridStep Q.eThetas) (ha : SmoothCall a) (hu : phiUnit ≠ 0)
    (hinit : ∀ p, a.phiInit = some p → p.length = HasQp.ndofs Q)
    (hw : WellPosed (shippedRegistry FieldProblem.fns others) a.objectives a.requests a.smoothing a.sp Q)
    (hs : quadcoilSetup (shippedRegistry FieldProblem.fns others) Q a phiUnit = .ok S)
    {d : Dofs} (hd : Pot Q d) (hstrict : StrictlyFeasible (shippedRegistry FieldProblem.fns others) a.requests Q d)
    {x : List ℝ} (hx : FlatMinimiser S x) :
    ∃ mu, IsSaddle S.x0.length S.problem.f S.problem.g S.problem.h x [] mu ∧ listDot mu (S.problem.g x) = 0 := by
  obtain ⟨T⟩ := smooth_data Q others hp he ha hs
  obtain ⟨z, hz, hneg⟩ := T.strict_point ha hu hinit hw hd hstrict
  refine C132_minimiser_is_saddle (C130_smooth_convex_partial Q others hp he ha hs) hz hneg hx.1.1 hx.1.2.1 fun y hy hyg =>
    hx.2 y ⟨hy, hyg, ?_⟩
  rw [T.hvalue]
  simp [AllZero]

end

/-- **C132 (size of the multipliers).** At a point where all inequalities hold with the margin `δ`, the sum of the multipliers is at most
the excess of the objective over the optimum divided by `δ`. -/
theorem C132_multiplier_size {N : ℕ} {f : List ℝ → ℝ} {g h : List ℝ → List ℝ} {x mu z : List ℝ} (hs : IsSaddle N f g h x [] mu)
    (hz : z.length = N) (hlen : (g z).length = (g x).length) {δ : ℝ} (hδ : ∀ v ∈ g z, v ≤ -δ) : δ * mu.sum ≤ f z - f x := by
  have h1 := hs.lagrangian z hz
  have h0 : listDot [] (h z) = 0 := by simp [listDot]
  have key : ∀ m l : List ℝ, m.length = l.length → (∀ t ∈ m, 0 ≤ t) → (∀ v ∈ l, v ≤ -δ) → listDot m l ≤ -(δ * m.sum) := by
    intro m
    induction m with
    | nil => intro l _ _ _; simp [listDot]
    | cons t m ih =>
      intro l hl hm hv
      cases l with
      | nil => simp at hl
      | cons v l =>
        have := ih l (by simpa using hl) (fun t ht => hm t (List.mem_cons_of_mem _ ht)) fun v hv' => hv v (List.mem_cons_of_mem _ hv')
        have h2 := mul_le_mul_of_nonneg_left (hv v List.mem_cons_self) (hm t List.mem_cons_self)
        simp only [listDot, List.zipWith_cons_cons, List.sum_cons] at this ⊢
        linarith
  have := key mu (g z) (hs.mu_length.trans hlen.symm) hs.mu_nonneg hδ
  linarith

end Verif
