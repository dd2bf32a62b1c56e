import Verif.Lemmas.SignFlip
import Verif.Props.ListOrder

/-!
# C159: the sign of the unit of the potential does not matter
-/

namespace Verif

/-- The dictionary with the opposite scaled potential. -/
noncomputable def negPhi (t : List (String × Val)) : List (String × Val) :=
  t.map fun kv => (kv.1, if kv.1 = "phi_scaled" then kv.2.map fun x => -x else kv.2)

/-- A sign for each unknown: minus for the scaled potential. -/
noncomputable def phiSigns (t : List (String × Val)) : List ℝ :=
  t.flatMap fun kv => kv.2.entries.map fun _ => if kv.1 = "phi_scaled" then -1 else 1

theorem phiSigns_signs (t : List (String × Val)) : IsSigns (phiSigns t) := by
  intro e he
  obtain ⟨kv, -, h⟩ := List.mem_flatMap.1 he
  obtain ⟨x, -, rfl⟩ := List.mem_map.1 h
  split
  · exact .inr rfl
  · exact .inl rfl

theorem phiSigns_length (t : List (String × Val)) : (phiSigns t).length = (ravel t).length := by
  simp [phiSigns, ravel, List.length_flatMap]

theorem flipWith_append {s s' x x' : List ℝ} (h : x.length = s.length) : flipWith (s ++ s') (x ++ x') = flipWith s x ++ flipWith s' x' :=
  List.zipWith_append h.symm

theorem flipWith_const (l x : List ℝ) (h : x.length = l.length) (e : ℝ) : flipWith (l.map fun _ => e) x = x.map fun t => e * t := by
  induction l generalizing x with
  | nil =>
    obtain rfl := List.length_eq_zero_iff.1 h
    rfl
  | cons a l ih =>
    obtain ⟨t, x, rfl⟩ : ∃ t y, x = t :: y := List.exists_cons_of_length_pos (by simp [h])
    have := ih x (by simpa using h)
    simp only [flipWith, List.map_cons, List.zipWith_cons_cons] at this ⊢
    rw [this]

theorem val_map_entries (f : ℝ → ℝ) (v : Val) : (v.map f).entries = v.entries.map f := by cases v <;> rfl

theorem ravel_negPhi (t : List (String × Val)) : ravel (negPhi t) = flipWith (phiSigns t) (ravel t) := by
  induction t with
  | nil => rfl
  | cons kv t ih =>
    have h1 : ravel (kv :: t) = kv.2.entries ++ ravel t := rfl
    have h2 : phiSigns (kv :: t) = (kv.2.entries.map fun _ => if kv.1 = "phi_scaled" then (-1 : ℝ) else 1) ++ phiSigns t := rfl
    have h3 : ravel (negPhi (kv :: t)) = (if kv.1 = "phi_scaled" then kv.2.map fun x => -x else kv.2).entries ++ ravel (negPhi t) := rfl
    rw [h1, h2, h3, flipWith_append (by simp), ih, flipWith_const _ _ rfl]
    congr 1
    split <;> simp [val_map_entries]

theorem unravel_negPhi (t : List (String × Val)) (x : List ℝ) (h : x.length = (ravel t).length) :
    unravelLike (negPhi t) (flipWith (phiSigns t) x) = negPhi (unravelLike t x) := by
  induction t generalizing x with
  | nil => rfl
  | cons kv t ih =>
    obtain ⟨k, v⟩ := kv
    cases v with
    | scalar y =>
      have h1 : phiSigns ((k, Val.scalar y) :: t) = (if k = "phi_scaled" then (-1 : ℝ) else 1) :: phiSigns t := rfl
      obtain ⟨a, x, rfl⟩ : ∃ t y, x = t :: y := List.exists_cons_of_length_pos (by rw [h]; simp [ravel, Val.entries])
      have hr : (ravel ((k, Val.scalar y) :: t)).length = (ravel t).length + 1 := by
        rw [show ravel ((k, Val.scalar y) :: t) = y :: ravel t from rfl, List.length_cons]
      have := ih x (by rw [hr, List.length_cons] at h; omega)
      rw [h1]
      simp only [flipWith, List.zipWith_cons_cons] at this ⊢
      by_cases hk : k = "phi_scaled"
      · subst hk
        simp [negPhi, unravelLike, Val.map] at this ⊢
        exact this
      · simp [negPhi, unravelLike, hk] at this ⊢
        exact this
    | array ys =>
      have h1 : phiSigns ((k, Val.array ys) :: t) = (ys.map fun _ => if k = "phi_scaled" then (-1 : ℝ) else 1) ++ phiSigns t := rfl
      have hl : ys.length ≤ x.length := by rw [h]; simp [ravel, Val.entries]
      have hl2 : (x.take ys.length).length = ys.length := by simp [hl]
      have := ih (x.drop ys.length) (by rw [List.length_drop, h]; simp [ravel, Val.entries])
      have hx : flipWith (phiSigns ((k, Val.array ys) :: t)) x =
          (x.take ys.length).map (fun t => (if k = "phi_scaled" then (-1 : ℝ) else 1) * t) ++ flipWith (phiSigns t) (x.drop ys.length) := by
        rw [h1]
        conv_lhs => rw [← List.take_append_drop ys.length x]
        rw [flipWith_append (by simp [hl]), flipWith_const _ _ hl2]
      rw [hx]
      have hlm : ((x.take ys.length).map fun t => (if k = "phi_scaled" then (-1 : ℝ) else 1) * t).length = ys.length := by simp [hl]
      by_cases hk : k = "phi_scaled"
      · subst hk
        have e : negPhi (("phi_scaled", Val.array ys) :: t) = ("phi_scaled", Val.array (ys.map fun x => -x)) :: negPhi t := rfl
        rw [e, unravelLike, List.length_map, List.take_left' hlm, List.drop_left' hlm, this, unravelLike]
        simp [negPhi, Val.map]
      · have e : negPhi ((k, Val.array ys) :: t) = (k, Val.array ys) :: negPhi t := by simp [negPhi, hk]
        rw [e, unravelLike, List.take_left' hlm, List.drop_left' hlm, this, unravelLike]
        simp [negPhi, hk]

theorem negPhi_lookup (t : List (String × Val)) (k : String) :
    (negPhi t).lookup k = if k = "phi_scaled" then (t.lookup k).map (fun v => v.map fun x => -x) else t.lookup k := by
  induction t with
  | nil => simp [negPhi]
  | cons kv t ih =>
    have e : negPhi (kv :: t) = (kv.1, if kv.1 = "phi_scaled" then kv.2.map fun x => -x else kv.2) :: negPhi t := rfl
    obtain ⟨k', v⟩ := kv
    rw [e, lookup_cons_ite, lookup_cons_ite, ih]
    by_cases hk : k = k'
    · subst hk
      simp only [if_true]
      split <;> rfl
    · simp only [if_neg hk]

theorem dofsOf_negPhi (t : List (String × Val)) (u : ℝ) (x : List ℝ) (h : x.length = (ravel t).length) :
    dofsOf (negPhi t) (-u) (flipWith (phiSigns t) x) = dofsOf t u x := by
  unfold dofsOf unravelUnscale
  simp only [unravel_negPhi t x h, negPhi_lookup, if_true]
  cases hs : (unravelLike t x).lookup "phi_scaled" with
  | none => rfl
  | some s =>
    simp only [Option.map_some, Option.getD_some]
    funext k
    unfold toDofs
    congr 1
    by_cases hk : k = "phi_scaled"
    · have hnone : ∀ l : List (String × Val), (l.filter fun kv => kv.1 ≠ "phi_scaled").lookup k = none := by
        intro l
        cases hl : (l.filter fun kv => kv.1 ≠ "phi_scaled").lookup k with
        | none => rfl
        | some v =>
          have := mem_of_lookup hl
          simp [hk] at this
      rw [hnone, hnone]
    · rw [lookup_filter_ne _ _ _ hk, lookup_filter_ne _ _ _ hk, mem_dictSet_lookup, mem_dictSet_lookup, negPhi_lookup, if_neg hk]
      congr 2
      cases s <;> simp [Val.map, Function.comp_def]

theorem xTemplate_neg {P : Type} [HasQp P] {reg : Registry P} (hreg : AuxNames reg) {slack : List (String × (P → Dofs → Val))} (h : SlackOk reg slack)
    (qp : P) (phiInit : List ℝ) (u : ℝ) : xTemplate qp phiInit (-u) slack = negPhi (xTemplate qp phiInit u slack) := by
  have hn := template_nodup hreg h qp phiInit u
  rw [List.map_cons, List.nodup_cons] at hn
  unfold xTemplate negPhi sortKeys
  rw [List.map_mergeSort (s := fun a b : String × Val => decide (a.1 ≤ b.1)) (fun _ _ _ _ => rfl)]
  congr 1
  rw [List.map_cons]
  congr 1
  · simp [Val.map, div_neg]
  · rw [List.map_map]
    refine List.map_congr_left fun kv hkv => ?_
    have : kv.1 ≠ "phi_scaled" := by
      rintro e
      exact hn.1 (List.mem_map.2 ⟨_, List.mem_map.2 ⟨kv, hkv, rfl⟩, e⟩)
    simp [this]

theorem fghFromY_slackOk {P : Type} [HasQp P] {reg : Registry P} (hreg : AuxNames reg) {qp : P} {a : QuadcoilArgs} {p : Fgh P}
    (h : fghFromY reg qp a = .ok p) : SlackOk reg p.slack := by
  unfold fghFromY at h
  simp only [bind, Except.bind] at h
  split at h
  · cases h
  · rename_i o ho
    split at h
    · cases h
    · rename_i c hc
      cases h
      exact slackOk_union (slackOk_objectives hreg ho) (slackOk_constraints hreg hc)

/-- The same problem up to the signs of the unknowns. -/
structure FlippedSetup (s : List ℝ) (S' S : Setup) : Prop where
  signs : IsSigns s
  length : S.x0.length = s.length
  unconstrained : S'.unconstrained = S.unconstrained
  x0 : S'.x0 = flipWith s S.x0
  problem : Flipped s S.problem S'.problem
  dofs : ∀ x, x.length = s.length → dofsOf S'.template S'.phiUnit (flipWith s x) = dofsOf S.template S.phiUnit x

theorem quadcoilSetup_neg {P : Type} [HasQp P] {reg : Registry P} (hreg : AuxNames reg) (qp : P) (a : QuadcoilArgs) (u : ℝ) :
    (∃ e, quadcoilSetup reg qp a (-u) = .error e ∧ quadcoilSetup reg qp a u = .error e) ∨
    ∃ s S' S, quadcoilSetup reg qp a (-u) = .ok S' ∧ quadcoilSetup reg qp a u = .ok S ∧ FlippedSetup s S' S := by
  unfold quadcoilSetup
  cases hp : fghFromY reg qp a with
  | error e => exact .inl ⟨e, rfl, rfl⟩
  | ok p =>
    simp only [bind, Except.bind, xTemplate_neg hreg (fghFromY_slackOk hreg hp)]
    generalize xTemplate qp (a.phiInit.getD (List.replicate (HasQp.ndofs qp) 0)) u p.slack = t
    simp only [ravel_negPhi, dofsOf_negPhi t u _ rfl]
    cases hg : p.g (dofsOf t u (ravel t)) with
    | error e => exact .inl ⟨e, rfl, rfl⟩
    | ok g0 =>
      cases hh : p.h (dofsOf t u (ravel t)) with
      | error e => exact .inl ⟨e, rfl, rfl⟩
      | ok h0 =>
        simp only
        split
        · exact .inl ⟨_, rfl, rfl⟩
        · refine .inr ⟨phiSigns t, _, _, rfl, rfl, phiSigns_signs t, (phiSigns_length t).symm, rfl, rfl, ⟨?_, ?_, ?_, _, _, _, rfl⟩, ?_⟩
          · intro x hx
            simp only [dofsOf_negPhi t u x (hx.trans (phiSigns_length t))]
          · intro x hx
            simp only [dofsOf_negPhi t u x (hx.trans (phiSigns_length t))]
          · intro x hx
            simp only [dofsOf_negPhi t u x (hx.trans (phiSigns_length t))]
          · intro x hx
            exact dofsOf_negPhi t u x (hx.trans (phiSigns_length t))

section solve
variable {opt : Optimizer ℝ} {gradOp : (List ℝ → ℝ) → List ℝ → List ℝ}

theorem quadcoilSolve_flip (hsh : opt.ShapeContract gradOp) (hloc : opt.LocalContract gradOp) (hsg : opt.SignContract gradOp) {s : List ℝ}
    {S' S : Setup} (h : FlippedSetup s S' S) :
    (quadcoilSolve opt gradOp S' = none ∧ quadcoilSolve opt gradOp S = none) ∨
    ∃ r' r d, quadcoilSolve opt gradOp S' = some (r', d) ∧ quadcoilSolve opt gradOp S = some (r, d) ∧ s.length = r.x.length ∧
      r'.SameUpToSigns s r := by
  unfold quadcoilSolve
  rw [h.unconstrained, h.x0]
  split
  · obtain ⟨g', h', f', e⟩ := h.problem.rest
    have t1 : S'.problem.maxiterTot = S.problem.maxiterTot := by rw [e]
    have t2 : S'.problem.fstopInnerLast = S.problem.fstopInnerLast := by rw [e]
    have t3 : S'.problem.xstopInnerLast = S.problem.xstopInnerLast := by rw [e]
    have t4 : S'.problem.gtolInner = S.problem.gtolInner := by rw [e]
    have hrun : ∀ tol, runOpt opt gradOp S'.problem.f (flipWith s S.x0) tol = (runOpt opt gradOp S.problem.f S.x0 tol).map (InnerResult.flip s) := by
      intro tol
      rw [← runOpt_flip hsh hsg h.signs _ h.length]
      refine runOpt_local hsh hloc (fun y hy => ?_) tol
      rw [flip_length _ h.length] at hy
      have := h.problem.f (flipWith s y) (flip_length y hy)
      rwa [flip_flip h.signs y hy] at this
    rw [t1, t2, t3, t4, hrun]
    cases hr : runOpt opt gradOp S.problem.f S.x0 ⟨S.problem.maxiterTot, S.problem.fstopInnerLast, S.problem.xstopInnerLast,
      S.problem.gtolInner⟩ with
    | none => exact .inl ⟨rfl, rfl⟩
    | some r =>
      have hl : r.x.length = s.length := (runOpt_length hsh hr).trans h.length
      refine .inr ⟨.inner (r.flip s), .inner r, dofsOf S.template S.phiUnit r.x, ?_, rfl, hl.symm, .inner r⟩
      simp only [Option.map_some, Option.some.injEq, Prod.mk.injEq, true_and]
      exact h.dofs r.x hl
  · rw [solve_flip hsh hloc hsg h.signs h.problem h.length]
    cases hs : solveConstrained opt gradOp S.problem gplusHard S.x0 with
    | none => exact .inl ⟨rfl, rfl⟩
    | some t =>
      have hl : t.finX.length = s.length := (solve_length hsh hs).trans h.length
      refine .inr ⟨.outer (t.flip s), .outer t, dofsOf S.template S.phiUnit t.finX, ?_, rfl, hl.symm, .outer t⟩
      simp only [Option.map_some, Option.some.injEq, Prod.mk.injEq, true_and]
      exact h.dofs t.finX hl

/-- **C159.** A call with the unit `-u` of the potential fails exactly as the call with the unit `u`, stops if and only if it stops, and
returns the same outputs and the same solution. -/
theorem C159_unit_sign (hsh : opt.ShapeContract gradOp) (hloc : opt.LocalContract gradOp) (hsg : opt.SignContract gradOp) (others : List String)
    (a : CallArgs) (u : ℝ) :
    SameCallUpToSigns (quadcoilCall opt gradOp (shippedRegistry FieldProblem.fns others) { a with phiUnit := some (-u) })
      (quadcoilCall opt gradOp (shippedRegistry FieldProblem.fns others) { a with phiUnit := some u }) := by
  unfold quadcoilCall CallArgs.setup
  by_cases hn : a.nfp = 0
  · simp only [if_pos hn]
    exact .error _
  simp only [if_neg hn]
  have e1 : ∀ u, ({ a with phiUnit := some u } : CallArgs).checked = a.checked := fun _ => rfl
  have e2 : ∀ u, ({ a with phiUnit := some u } : CallArgs).generatorShapes = a.generatorShapes := fun _ => rfl
  have e3 : ∀ u, ({ a with phiUnit := some u } : CallArgs).paramsObj = a.paramsObj := fun _ => rfl
  have e4 : ∀ u, ({ a with phiUnit := some u } : CallArgs).unitShapes = .ok () := fun _ => rfl
  have e5 : ∀ u, ({ a with phiUnit := some u } : CallArgs).phiInit = a.phiInit := fun _ => rfl
  have e6 : ∀ u Q, ({ a with phiUnit := some u } : CallArgs).unit Q = u := fun _ _ => rfl
  simp only [e1, e2, e3, e4, e5, e6, bind, Except.bind]
  cases quadcoilChecks a.checked with
  | error e => exact .error _
  | ok _ =>
  cases a.generatorShapes with
  | error e => exact .error _
  | ok _ =>
  cases a.paramsObj with
  | error e => exact .error _
  | ok o =>
  simp only
  cases hf : fghFromY (shippedRegistry FieldProblem.fns others) o.toField a.opts with
  | error e => exact .error _
  | ok p =>
  simp only
  cases requireShape (a.phiInit.length = o.ndofs) with
  | error e => exact .error _
  | ok _ =>
  simp only
  rcases quadcoilSetup_neg (shipped_auxNames _ others) o.toField a.opts u with ⟨e, h1, h2⟩ | ⟨s, S', S, h1, h2, hS⟩
  · rw [h1, h2]
    exact .error _
  rw [h1, h2]
  simp only [hf]
  rcases quadcoilSolve_flip hsh hloc hsg hS with ⟨k1, k2⟩ | ⟨r', r, d, k1, k2, hl, hr⟩
  · rw [k1, k2]
    exact .none
  rw [k1, k2]
  simp only
  have eo : ∀ u, ({ a with phiUnit := some u } : CallArgs).outDict (shippedRegistry FieldProblem.fns others) o.toField p d =
      a.outDict (shippedRegistry FieldProblem.fns others) o.toField p d := fun _ => rfl
  rw [eo, eo]
  cases a.outDict (shippedRegistry FieldProblem.fns others) o.toField p d with
  | error e => exact .error _
  | ok out => exact .some hS.signs hl hr

end solve

/-! ## Examples -/

theorem flipWith_set {s : List ℝ} (hs : IsSigns s) (x : List ℝ) (h : x.length = s.length) (i : ℕ) (hi : i < s.length) (t : ℝ) :
    flipWith s ((flipWith s x).set i t) = x.set i (s[i] * t) := by
  have hx := flip_flip hs x h
  refine List.ext_getElem (by simp [flipWith, h]) fun j h1 h2 => ?_
  have hj : j < x.length := by simpa using h2
  have e : (flipWith s (flipWith s x))[j]'(by rw [hx]; exact hj) = x[j] := by simp only [hx]
  simp only [flipWith, List.getElem_zipWith, List.getElem_set] at e ⊢
  split
  · rename_i hij
    subst hij
    rfl
  · exact e

/-- The gradient of a function with changed signs. -/
theorem realGrad_flip {s : List ℝ} (hs : IsSigns s) (f : List ℝ → ℝ) (x : List ℝ) (h : x.length = s.length) :
    realGrad (fun y => f (flipWith s y)) (flipWith s x) = flipWith s (realGrad f x) := by
  refine List.ext_getElem (by simp [realGrad, flipWith, h]) fun i h1 h2 => ?_
  have hi : i < s.length := by simpa [realGrad, flipWith, h] using h1
  have hix : i < x.length := h ▸ hi
  have e1 : (flipWith s x).getD i 0 = s[i] * x[i] := by
    simp [flipWith, List.getD_eq_getElem?_getD, List.getElem?_zipWith, hi, hix]
  have e2 : (flipWith s (realGrad f x))[i] = s[i] * deriv (fun t => f (x.set i t)) x[i] := by
    simp [flipWith, realGrad, List.getD_eq_getElem?_getD, hix]
  have e3 : (realGrad (fun y => f (flipWith s y)) (flipWith s x))[i] =
      deriv (fun t => f (flipWith s ((flipWith s x).set i t))) ((flipWith s x).getD i 0) := by
    simp only [realGrad, List.getElem_map, List.getElem_range]
  have e4 : (fun t => f (flipWith s ((flipWith s x).set i t))) = fun t => (fun t => f (x.set i t)) (s[i] * t) :=
    funext fun t => by rw [flipWith_set hs x h i hi]
  rw [e2, e3, e1, e4, deriv_comp_mul_left s[i] (fun t => f (x.set i t)), ← mul_assoc, sq_sign (hs _ (List.getElem_mem hi)), one_mul, smul_eq_mul]

/-- Gradient descent prefers no sign. -/
theorem gradientDescent_signs (step : ℝ) : (gradientDescent realGrad step).SignContract realGrad where
  grad s hs f x h := realGrad_flip hs f x h
  init_grad x := by simp [gradientDescent]
  state s hs := by
    refine ⟨fun t => (t.1, t.2.map fun v => (v.1, flipWith s v.2)), fun _ _ => rfl, fun _ => rfl, ?_, ?_, ?_, ?_⟩
    · rintro ⟨n, _ | v⟩ <;> rfl
    · rintro ⟨n, _ | v⟩ <;> rfl
    · rintro ⟨n, _ | v⟩
      · simp [gradientDescent, flipWith]
      · rfl
    · intro g t x v f hg hx
      have e : (flipWith s g).map (fun t => Num.neg (Num.mul step t)) = flipWith s (g.map fun t => Num.neg (Num.mul step t)) :=
        flip_map (f := fun t => -(step * t)) (fun e _ a => by ring) hs g
      have hl : (Num.vadd x (g.map fun t => Num.neg (Num.mul step t))).length = s.length := by simp [Num.vadd, hg, hx]
      simp only [gradientDescent, e, flip_vadd hs, flip_flip hs _ hl, realGrad_flip hs f _ hl, Option.map_some]

example (a : CallArgs) (others : List String) :
    SameCallUpToSigns
      (quadcoilCall (gradientDescent realGrad (1 / 4)) realGrad (shippedRegistry FieldProblem.fns others) { a with phiUnit := some (-1e5) })
      (quadcoilCall (gradientDescent realGrad (1 / 4)) realGrad (shippedRegistry FieldProblem.fns others) { a with phiUnit := some 1e5 }) :=
  C159_unit_sign (gradientDescent_shape _ (by simp [realGrad]) _) (gradientDescent_local _) (gradientDescent_signs _) others a _

/-- The unknowns and their signs: an auxiliary variable keeps its sign, the potential changes it. -/
example : phiSigns [("phi_scaled", .array [1, 2]), ("scaled_max_Phi", .scalar 3)] = [-1, -1, 1] ∧
    flipWith [-1, -1, 1] [1, 2, 3] = [-1, -2, 3] := by
  constructor
  · simp [phiSigns, Val.entries]
  · norm_num [flipWith]

end Verif
