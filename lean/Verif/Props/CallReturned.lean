import Verif.Props.CallDefault
import Verif.Props.InnerProblemExamples
import Verif.Props.PhiUnit

/-!
# C140, C142, C54: the potential returned by a whole call
-/

namespace Verif

variable {a : CallArgs}

/-- All grids are the default ones and resolve the potential, and the winding surface is regular on the evaluation grid. -/
structure AllDefaultGrids (a : CallArgs) : Prop where
  nfp : a.nfp ≠ 0
  phi : a.quadpointsPhi = none
  theta : a.quadpointsTheta = none
  winding_phi : a.windingQuadpointsPhi = none
  winding_theta : a.windingQuadpointsTheta = none
  plasma_phi : a.plasmaQuadpointsPhi = none
  plasma_theta : a.plasmaQuadpointsTheta = none
  mpol : a.mpol ≤ 16
  ntor : a.ntor ≤ 15
  regular : ∀ q ∈ gridPoints (linspace0 (1 / a.nfp) 32) (linspace0 1 34), a.described.cp.N q.1 q.2 ≠ 0
  normal_field : ∀ b, a.bnormalPlasma = some b → b.length = 32 ∧ ∀ r ∈ b, r.length = 34

/-- The same with a potential that is stellarator symmetric. -/
structure DefaultGrids (a : CallArgs) : Prop extends AllDefaultGrids a where
  stellsym : a.stellsym = true

theorem AllDefaultGrids.resolving (h : AllDefaultGrids a) : ResolvingGrid a.described 32 34 :=
  default_grids_resolving h.nfp h.phi h.theta h.winding_phi h.winding_theta h.plasma_phi h.plasma_theta h.mpol h.ntor h.regular

theorem DefaultGrids.resolved (h : DefaultGrids a) : Resolved a.described 32 34 :=
  C140_default_grids_resolve h.nfp h.stellsym h.phi h.theta h.winding_phi h.winding_theta h.plasma_phi h.plasma_theta h.mpol h.ntor h.regular

theorem AllDefaultGrids.pPhi (h : AllDefaultGrids a) : a.pPhi.length = 32 ∧ a.pTheta.length = 34 := by
  simp [CallArgs.pPhi, CallArgs.pTheta, h.plasma_phi, h.plasma_theta, defaultPlasmaPhi, defaultTheta, linspace0]

theorem AllDefaultGrids.bnormal_ne (h : AllDefaultGrids a) (c : List ℝ) : a.described.bnormal c ≠ [] := by
  obtain ⟨h1, h2⟩ := h.pPhi
  refine described_bnormal_ne (by intro e; rw [e] at h1; simp at h1) (by intro e; rw [e] at h2; simp at h2) ?_ c
  intro b hb
  rw [h1, h2]
  exact h.normal_field b hb

/-- The requested quantities exist. -/
def KnownMetrics (reg : Registry FieldProblem) (a : CallArgs) : Prop := ∀ n ∈ a.metrics, n = "f_obj" ∨ ∃ q, reg n = some (.quantity q)

theorem foldlM_ok {α β : Type} (f : β → α → Except PyErr β) (l : List α) (h : ∀ x ∈ l, ∀ b, ∃ c, f b x = .ok c) (b : β) :
    ∃ c, l.foldlM f b = .ok c := by
  induction l generalizing b with
  | nil => exact ⟨b, rfl⟩
  | cons x l ih =>
    obtain ⟨c, hc⟩ := h x List.mem_cons_self b
    rw [List.foldlM_cons, hc]
    exact ih (fun y hy => h y (List.mem_cons_of_mem _ hy)) c

theorem outDict_ok {reg : Registry FieldProblem} (hm : KnownMetrics reg a) (Q : FieldProblem) (p : Fgh FieldProblem) (d : Dofs) :
    ∃ out, a.outDict reg Q p d = .ok out := by
  have hv : ∀ n ∈ a.metrics, n ≠ "f_obj" → ∃ v, metricValue reg Q d n = .ok v := by
    intro n hn hne
    obtain ⟨q, hq⟩ := (hm n hn).resolve_left hne
    exact ⟨_, metricValue_ok.2 ⟨q, hq, rfl⟩⟩
  unfold CallArgs.outDict valueOnlyOut gradientOut
  split
  · refine foldlM_ok _ _ (fun n hn b => ?_) _
    unfold valueOnlyStep
    split
    · exact ⟨_, rfl⟩
    · rename_i hne
      obtain ⟨v, hv⟩ := hv n hn hne
      rw [hv]
      exact ⟨_, rfl⟩
  · refine foldlM_ok _ _ (fun n hn b => ?_) _
    unfold gradientStep
    split
    · exact ⟨_, rfl⟩
    · rename_i hne
      obtain ⟨v, hv⟩ := hv n hn hne
      rw [hv]
      exact ⟨_, rfl⟩

/-- **C140 (every accepted call returns).** If the call gets to the solver, the optimiser keeps to its contracts and the requested
quantities exist, the call returns. -/
theorem C140_accepted_returns {reg : Registry FieldProblem} (hacc : ∃ r, a.setup reg = .ok r) (hm : KnownMetrics reg a)
    {opt : Optimizer ℝ} (hc : opt.CountContract) (hv : opt.ValueContract) (hg : opt.GradContract realGrad) :
    ∃ R, quadcoilCall opt realGrad reg a = .ok (some R) := by
  obtain ⟨⟨Q, S⟩, hS⟩ := hacc
  obtain ⟨-, -, -, -, -, -, rfl, hset⟩ := (C140_setup_iff _ Q S).1 hS
  obtain ⟨p, hp⟩ := setup_implies_fgh hset
  obtain ⟨r, d, hr, -⟩ := C139_why_a_call_stops hset hc hv hg
  obtain ⟨out, ho⟩ := outDict_ok hm a.described p d
  refine ⟨⟨out, a.described, d, r⟩, ?_⟩
  unfold quadcoilCall
  rw [hS]
  simp only [bind, Except.bind, hp, hr, ho]

/-! ## When the usual units are positive -/

theorem zipWith_sum_pos : ∀ (xs ys : List ℝ), (∀ x ∈ xs, 0 ≤ x) → (∀ y ∈ ys, 0 < y) → xs.length ≤ ys.length → (∃ x ∈ xs, 0 < x) →
    0 < (List.zipWith (· * ·) xs ys).sum
  | [], _, _, _, _, ⟨_, h, _⟩ => by cases h
  | x :: xs, [], _, _, hl, _ => by simp at hl
  | x :: xs, y :: ys, hx, hy, hl, ⟨z, hz, hz0⟩ => by
    rw [List.zipWith_cons_cons, List.sum_cons]
    have hy0 := hy y List.mem_cons_self
    have hx0 := hx x List.mem_cons_self
    have hrest : 0 ≤ (List.zipWith (· * ·) xs ys).sum := by
      refine List.sum_nonneg fun t ht => ?_
      obtain ⟨i, hi, rfl⟩ := List.mem_iff_getElem.1 ht
      rw [List.length_zipWith] at hi
      rw [List.getElem_zipWith]
      exact mul_nonneg (hx _ (List.mem_cons_of_mem _ (List.getElem_mem _))) (hy _ (List.mem_cons_of_mem _ (List.getElem_mem _))).le
    rcases List.mem_cons.1 hz with rfl | hz
    · have := mul_pos hz0 hy0
      linarith
    · have := zipWith_sum_pos xs ys (fun t ht => hx t (List.mem_cons_of_mem _ ht)) (fun t ht => hy t (List.mem_cons_of_mem _ ht))
        (by simpa using hl) ⟨z, hz, hz0⟩
      have := mul_nonneg hx0 hy0.le
      linarith

/-- The field error is positive if the normal field does not vanish at some plasma point. -/
theorem fB_pos {Q : FieldProblem} (hn : Q.cp.surf.nfp ≠ 0) (hstep : 0 < gridStep Q.plasma.phis * gridStep Q.plasma.thetas)
    (hreg : ∀ q ∈ gridPoints Q.plasma.phis Q.plasma.thetas, Q.plasma.shape.normal Q.plasma.dofs q.1 q.2 ≠ 0) {c : List ℝ}
    (h : ∃ b ∈ Q.bnormal c, b ≠ 0) : 0 < Q.fB c := by
  unfold FieldProblem.fB GridSurface.integrate
  refine mul_pos (zipWith_sum_pos _ _ ?_ ?_ ?_ ?_) (by exact_mod_cast Nat.pos_of_ne_zero hn)
  · intro x hx
    obtain ⟨b, -, rfl⟩ := List.mem_map.1 hx
    positivity
  · intro y hy
    obtain ⟨q, hq, rfl⟩ := List.mem_map.1 hy
    exact mul_pos hstep ((V3.norm_pos_iff _).2 (hreg q hq))
  · simp [FieldProblem.bnormal, GridSurface.da]
  · obtain ⟨b, hb, hb0⟩ := h
    exact ⟨_, List.mem_map.2 ⟨b, hb, rfl⟩, by positivity⟩

theorem appV_zeros (row : List V3) (n : ℕ) : CpParams.appV row (List.replicate n 0) = 0 := by
  have e : ∀ r : List ℝ, CpParams.app r (List.replicate n 0) = 0 := by
    intro r
    unfold CpParams.app
    refine List.sum_eq_zero fun x hx => ?_
    obtain ⟨i, hi, rfl⟩ := List.mem_iff_getElem.1 hx
    simp
  rw [CpParams.appV, e, e, e]
  rfl

/-- The current without potential is only the one driven by the net currents, and it does not vanish where the surface is regular. -/
theorem K_zero_ne {P : CpParams} (h : P.G ≠ 0 ∨ P.I ≠ 0) (n : ℕ) {p t : ℝ} (hN : P.N p t ≠ 0) : P.K (List.replicate n 0) p t ≠ 0 := by
  have hz : ∀ v : V3, 0 + v = v := fun v => by ext <;> simp
  rw [CpParams.K, appV_zeros, hz, CpParams.cK]
  intro h0
  have hinv : P.invN p t ≠ 0 := by
    rw [CpParams.invN]
    exact one_div_ne_zero ((V3.norm_pos_iff _).2 hN).ne'
  have e : P.G • P.dg2 p t = P.I • P.dg1 p t := by
    have hx := congrArg V3.x h0
    have hy := congrArg V3.y h0
    have hz := congrArg V3.z h0
    simp only [V3.smul_x, V3.smul_y, V3.smul_z, V3.sub_x, V3.sub_y, V3.sub_z, V3.zero_x, V3.zero_y, V3.zero_z, mul_eq_zero, hinv,
      false_or] at hx hy hz
    ext <;> simp only [V3.smul_x, V3.smul_y, V3.smul_z] <;> linarith
  have hx := congrArg V3.x e
  have hy := congrArg V3.y e
  have hz := congrArg V3.z e
  simp only [V3.smul_x, V3.smul_y, V3.smul_z] at hx hy hz
  refine hN ?_
  rw [CpParams.N]
  rcases h with h | h <;> ext <;> simp only [V3.cross, V3.zero_x, V3.zero_y, V3.zero_z]
  · exact (mul_eq_zero.1 (by linear_combination (P.dg1 p t).y * hz - (P.dg1 p t).z * hy : P.G * _ = 0)).resolve_left h
  · exact (mul_eq_zero.1 (by linear_combination (P.dg1 p t).z * hx - (P.dg1 p t).x * hz : P.G * _ = 0)).resolve_left h
  · exact (mul_eq_zero.1 (by linear_combination (P.dg1 p t).x * hy - (P.dg1 p t).y * hx : P.G * _ = 0)).resolve_left h
  · exact (mul_eq_zero.1 (by linear_combination (P.dg2 p t).y * hz - (P.dg2 p t).z * hy : P.I * _ = 0)).resolve_left h
  · exact (mul_eq_zero.1 (by linear_combination (P.dg2 p t).z * hx - (P.dg2 p t).x * hz : P.I * _ = 0)).resolve_left h
  · exact (mul_eq_zero.1 (by linear_combination (P.dg2 p t).x * hy - (P.dg2 p t).y * hx : P.I * _ = 0)).resolve_left h

/-- With a net current, the current without potential has positive `f_K`. -/
theorem fK_zero_pos {Q : FieldProblem} {A B : ℕ} (R : ResolvingGrid Q A B) (h : Q.cp.G ≠ 0 ∨ Q.cp.I ≠ 0) (n : ℕ) :
    0 < Q.fK (List.replicate n 0) := by
  have hA := R.two_le_A
  have hB := R.two_le_B
  have hn : (0 : ℝ) < Q.cp.surf.nfp := by exact_mod_cast Nat.pos_of_ne_zero R.nfp
  have hreg : ∀ q ∈ gridPoints Q.ePhis Q.eThetas, Q.cp.N q.1 q.2 ≠ 0 := by
    rw [R.ePhis, R.eThetas]
    exact R.regular
  have hstep : 0 < gridStep Q.ePhis * gridStep Q.eThetas := by
    rw [R.ePhis, R.eThetas, gridStep_linspace0 _ _ hA, gridStep_linspace0 _ _ hB]
    have : (0 : ℝ) < A := by exact_mod_cast (by omega : 0 < A)
    have : (0 : ℝ) < B := by exact_mod_cast (by omega : 0 < B)
    positivity
  obtain ⟨q, hq⟩ : ∃ q, q ∈ gridPoints Q.ePhis Q.eThetas := by
    rw [R.ePhis, R.eThetas]
    apply List.exists_mem_of_ne_nil
    obtain ⟨A', rfl⟩ : ∃ k, A = k + 1 := ⟨A - 1, by omega⟩
    obtain ⟨B', rfl⟩ : ∃ k, B = k + 1 := ⟨B - 1, by omega⟩
    simp [gridPoints, linspace0, List.range_succ_eq_map]
  unfold FieldProblem.fK GridSurface.integrate
  refine mul_pos (zipWith_sum_pos _ _ ?_ ?_ ?_ ?_) hn
  · intro x hx
    obtain ⟨q, -, rfl⟩ := List.mem_map.1 hx
    exact div_nonneg (V3.normSq_nonneg _) (by norm_num)
  · intro y hy
    obtain ⟨q, hq, rfl⟩ := List.mem_map.1 hy
    exact mul_pos hstep ((V3.norm_pos_iff _).2 (hreg q hq))
  · simp [GridSurface.da, FieldProblem.evalSurface]
  · refine ⟨_, List.mem_map.2 ⟨q, hq, rfl⟩, div_pos ?_ (by norm_num)⟩
    have := (V3.norm_pos_iff _).2 (K_zero_ne h n (hreg q hq))
    rw [CpParams.K2]
    exact Real.sqrt_pos.1 this

/-! ## The usual call -/

/-- The usual objectives: field error and current, each relative to its value without potential, all else default. -/
noncomputable def standardArgs (w : ℝ) : QuadcoilArgs :=
  { defaultArgs with
    objectiveName := .many ["f_B", "f_K"]
    objectiveUnit := .many [.none, .none]
    objectiveWeight := .many [1, w] }

theorem standard_smoothing (others : List String) (Q : FieldProblem) (w u : ℝ) :
    quadcoilSetup (shippedRegistry FieldProblem.fns others) Q (standardArgs w) u =
      quadcoilSetup (shippedRegistry FieldProblem.fns others) Q { standardArgs w with smoothing := none } u := rfl

/-- The same arguments with the usual objectives. -/
noncomputable def CallArgs.standard (a : CallArgs) (w : ℝ) : CallArgs := { a with opts := standardArgs w }

/-- Field error plus weighted current, each relative to its value without potential. -/
noncomputable def relativeObjective (Q : FieldProblem) (w : ℝ) (c : List ℝ) : ℝ :=
  Q.fB c / Q.fB (List.replicate c.length 0) + w * (Q.fK c / Q.fK (List.replicate c.length 0))

/-- The usual objectives with the units written out. -/
noncomputable def standardResolved (w b k : ℝ) : QuadcoilArgs :=
  { standardArgs w with
    smoothing := none
    objectiveUnit := .many [.scalar b, .scalar k] }

theorem standard_resolve (others : List String) (Q : FieldProblem) (w : ℝ) (hB : 0 ≤ Q.fB (List.replicate (HasQp.ndofs Q) 0))
    (hK : 0 ≤ Q.fK (List.replicate (HasQp.ndofs Q) 0)) :
    ({ standardArgs w with smoothing := none } : QuadcoilArgs).resolveUnits (shippedRegistry FieldProblem.fns others) Q =
      standardResolved w (Q.fB (List.replicate (HasQp.ndofs Q) 0)) (Q.fK (List.replicate (HasQp.ndofs Q) 0)) := by
  have e1 : UnitArg.none.resolve (shippedRegistry FieldProblem.fns others) Q "f_B" = .scalar (Q.fB (List.replicate (HasQp.ndofs Q) 0)) := by
    show (if 0 ≤ Q.fB (List.replicate (HasQp.ndofs Q) 0) then UnitArg.scalar (Q.fB (List.replicate (HasQp.ndofs Q) 0)) else .none) = _
    rw [if_pos hB]
  have e2 : UnitArg.none.resolve (shippedRegistry FieldProblem.fns others) Q "f_K" = .scalar (Q.fK (List.replicate (HasQp.ndofs Q) 0)) := by
    show (if 0 ≤ Q.fK (List.replicate (HasQp.ndofs Q) 0) then UnitArg.scalar (Q.fK (List.replicate (HasQp.ndofs Q) 0)) else .none) = _
    rw [if_pos hK]
  simp only [QuadcoilArgs.resolveUnits, standardArgs, standardResolved, resolveList, e1, e2]
  rfl

theorem standardResolved_objectives (w b k : ℝ) :
    (standardResolved w b k).objectives = [("f_B", .scalar b, 1), ("f_K", .scalar k, w)] := by
  simp [QuadcoilArgs.objectives, standardResolved, standardArgs, objectiveList]

theorem standardResolved_requests (w b k : ℝ) : (standardResolved w b k).requests = [] := by
  simp [QuadcoilArgs.requests, standardResolved, standardArgs, defaultArgs, zipRequests]

theorem standardResolved_objectives_convex {w b k : ℝ} (hw : 0 < w) (hb : 0 < b) (hk : 0 < k) :
    ConvexObjectives (standardResolved w b k).objectives := by
  rw [standardResolved_objectives]
  intro o ho
  simp only [List.mem_cons, List.not_mem_nil, or_false] at ho
  rcases ho with rfl | rfl
  · exact ⟨(by decide : "f_B" ∈ objectiveNames), ⟨b, rfl, hb.ne'⟩, by norm_num⟩
  · exact ⟨(by decide : "f_K" ∈ objectiveNames), ⟨k, rfl, hk.ne'⟩, hw.le⟩

theorem standardResolved_smooth {w b k : ℝ} (hw : 0 < w) (hb : 0 < b) (hk : 0 < k) : SmoothCall (standardResolved w b k) where
  mode := .inl rfl
  merge := rfl
  objectives := standardResolved_objectives_convex hw hb hk
  objective_smooth := by
    rw [standardResolved_objectives]
    intro o ho
    simp only [List.mem_cons, List.not_mem_nil, or_false] at ho
    rcases ho with rfl | rfl
    · exact .inr (.inl (by decide : "f_B" ∈ quadNames))
    · exact .inr (.inl (by decide : "f_K" ∈ quadNames))
  constraints := by
    rw [standardResolved_requests]
    simp

theorem standardResolved_convex {w b k : ℝ} (hw : 0 < w) (hb : 0 < b) (hk : 0 < k) : ConvexCall (standardResolved w b k) where
  mode := .inl rfl
  merge := rfl
  objectives := standardResolved_objectives_convex hw hb hk
  current := by
    rw [standardResolved_objectives]
    exact ⟨("f_K", .scalar k, w), by simp, rfl, hw⟩
  constraints := by
    rw [standardResolved_requests]
    simp
  huber := by
    rintro h
    cases h
  once := by
    rw [standardResolved_objectives, standardResolved_requests]
    simp [auxTable]

theorem standard_userObjective (others : List String) (Q : FieldProblem) {w b k : ℝ} (hb : 0 < b) (hk : 0 < k) (c : List ℝ) (d : Dofs)
    (hd : d "phi" = .array c) :
    userObjective (shippedRegistry FieldProblem.fns others) (standardResolved w b k).objectives Q d = Q.fB c / b + w * (Q.fK c / k) := by
  have hc : coefs d = c := by rw [coefs, hd]; rfl
  have e1 : (rawOf (shippedRegistry FieldProblem.fns others) "f_B" Q d).entries.headD 0 = Q.fB c := by
    show Q.fB (coefs d) = _
    rw [hc]
  have e2 : (rawOf (shippedRegistry FieldProblem.fns others) "f_K" Q d).entries.headD 0 = Q.fK c := by
    show Q.fK (coefs d) = _
    rw [hc]
  rw [standardResolved_objectives]
  simp only [userObjective, List.map_cons, List.map_nil, List.sum_cons, List.sum_nil, e1, e2, UnitArg.size, abs_of_pos hb, abs_of_pos hk]
  ring

/-- The usual call is accepted: what has to fit. -/
theorem C140_standard_accepted (others : List String) (hg : AllDefaultGrids a) {w : ℝ}
    (hone : a.plasmaCoilDistance.isSome ≠ a.windingDofs.isSome)
    (hp : a.plasmaDofs.length = (⟨a.nfp, a.plasmaStellsym, a.plasmaMpol, a.plasmaNtor⟩ : SurfaceShape).size)
    (hw : a.described.cp.wdofs.length = a.described.cp.surf.size) :
    ∃ r, (a.standard w).setup (shippedRegistry FieldProblem.fns others) = .ok r := by
  rw [C140_accepted_iff]
  refine ⟨hg.nfp, hone, ⟨[1, w], [.none, .none], rfl, rfl, rfl, rfl⟩, ⟨rfl, rfl, rfl⟩, ?_, ?_, ?_, ?_, ?_⟩
  · show a.nfp ∣ (a.windingQuadpointsPhi.getD (linspace0 1 (32 * a.nfp))).length
    rw [hg.winding_phi, Option.getD_none, linspace0_length]
    exact ⟨32, by ring⟩
  · refine ⟨fun p h => (by cases h), fun _ => hp, fun _ => hw, fun _ b hb => ?_⟩
    have e1 : (a.standard w).pPhi = a.pPhi := rfl
    have e2 : (a.standard w).pTheta = a.pTheta := rfl
    rw [e1, e2, hg.pPhi.1, hg.pPhi.2]
    exact hg.normal_field b hb
  · refine ⟨rfl, (by decide), fun i h1 h2 => ?_⟩
    match i, h1 with
    | 0, _ => exact legal_shipped FieldProblem.fns others (sm := some "slack") (by simp [knownSmoothing]) rfl (by decide) (by simp)
    | 1, _ => exact legal_shipped FieldProblem.fns others (sm := some "slack") (by simp [knownSmoothing]) rfl (by decide) (by simp)
  · refine ⟨rfl, rfl, fun h => (h rfl).elim, fun r hr => ?_⟩
    simp [CallArgs.standard, standardArgs, QuadcoilArgs.requests, zipRequests, defaultArgs] at hr
  · intro h
    cases h

/-- A unit of the potential that is not zero: given, or automatic with a distance that is not zero or different minor radii. -/
def UsableUnit (a : CallArgs) : Prop :=
  (∃ u, a.phiUnit = some u ∧ u ≠ 0) ∨ (a.phiUnit = none ∧ a.plasmaCoilDistance ≠ some 0 ∧
    (a.plasmaCoilDistance = none → minorRadius a.plasmaNtor a.plasmaDofs ≠ minorRadius a.windingNtor (a.windingDofs.getD [])))

theorem unit_ne_zero (hu : UsableUnit a) (hb : ∃ b ∈ a.described.bnormal a.phiInit, b ≠ 0) : a.unit a.described ≠ 0 := by
  unfold CallArgs.unit
  rcases hu with ⟨u, h, h0⟩ | ⟨h, h1, h2⟩
  · rw [h]
    exact h0
  · rw [h, Option.getD_none, ne_eq, (C90_zero_iff_partial _ (by
      obtain ⟨b, hb, -⟩ := hb
      intro e
      rw [e] at hb
      cases hb) _ _ _ _ _).2]
    rintro (h3 | h3 | ⟨h3, h4⟩)
    · obtain ⟨b, hb, h0⟩ := hb
      exact h0 (h3 b hb)
    · exact h1 h3
    · exact h2 h3 h4

/-- What C142 and C150 share: the usual call is set up like a call with these units, its best potentials are the solutions of the problem of
the user, and the run returns what the solver returns, stops as the default tolerances say and reports the values of its potential. -/
theorem standard_call (others : List String) (hg : AllDefaultGrids a)
    (hone : a.plasmaCoilDistance.isSome ≠ a.windingDofs.isSome)
    (hpd : a.plasmaDofs.length = (⟨a.nfp, a.plasmaStellsym, a.plasmaMpol, a.plasmaNtor⟩ : SurfaceShape).size)
    (hwd : a.described.cp.wdofs.length = a.described.cp.surf.size)
    (hplasma : ∀ q ∈ gridPoints (linspace0 (1 / a.nfp) 32) (linspace0 1 34), a.described.plasma.shape.normal a.plasmaDofs q.1 q.2 ≠ 0)
    (hfield : ∃ b ∈ a.described.bnormal (List.replicate (HasQp.ndofs a.described) 0), b ≠ 0) (hnet : a.netPoloidal ≠ 0 ∨ a.netToroidal ≠ 0)
    (hunit : UsableUnit a) (hmet : KnownMetrics (shippedRegistry FieldProblem.fns others) a) (w : ℝ) :
    ∃ b k S, 0 < b ∧ k = a.described.fK (List.replicate (HasQp.ndofs a.described) 0) ∧ 0 < k ∧ (a.standard w).unit a.described ≠ 0 ∧
      (a.standard w).setup (shippedRegistry FieldProblem.fns others) = .ok (a.described, S) ∧
      quadcoilSetup (shippedRegistry FieldProblem.fns others) a.described (standardResolved w b k) ((a.standard w).unit a.described) = .ok S ∧
      (∀ p, IsBest (relativeObjective a.described w) (HasQp.ndofs a.described) p ↔
        UserMinimiser (shippedRegistry FieldProblem.fns others) (standardResolved w b k).objectives (standardResolved w b k).requests a.described
          (Pot a.described) (phiOnly (.array p))) ∧
      ∀ {opt : Optimizer ℝ} (_ : opt.CountContract) (_ : opt.ValueContract) (_ : opt.GradContract realGrad),
        ∃ R, quadcoilCall opt realGrad (shippedRegistry FieldProblem.fns others) (a.standard w) = .ok (some R) ∧
          quadcoilSolve opt realGrad S = some (R.results, R.dofs) ∧
          ∀ i p, R.results = .inner i → R.dofs "phi" = .array p → StopsBy opt S.problem.f S.x0 10000 0 1e-10 1e-6 i ∧
            ("f_B" ∈ a.metrics → ∃ v, R.out.lookup "f_B" = some v ∧ v.value = .scalar (a.described.fB p)) ∧
            ("f_K" ∈ a.metrics → ∃ v, R.out.lookup "f_K" = some v ∧ v.value = .scalar (a.described.fK p)) := by
  have hB : 0 < a.described.fB (List.replicate (HasQp.ndofs a.described) 0) := by
    have e1 : a.described.plasma.phis = linspace0 (1 / a.nfp) 32 := by
      show a.plasmaQuadpointsPhi.getD _ = _
      rw [hg.plasma_phi]
      rfl
    have e2 : a.described.plasma.thetas = linspace0 1 34 := by
      show a.plasmaQuadpointsTheta.getD _ = _
      rw [hg.plasma_theta]
      rfl
    refine fB_pos hg.nfp ?_ ?_ hfield
    · have : (0 : ℝ) < a.nfp := by exact_mod_cast Nat.pos_of_ne_zero hg.nfp
      rw [e1, e2, gridStep_linspace0 _ _ (by norm_num), gridStep_linspace0 _ _ (by norm_num)]
      positivity
    · rw [e1, e2]
      exact hplasma
  have hK : 0 < a.described.fK (List.replicate (HasQp.ndofs a.described) 0) := fK_zero_pos hg.resolving hnet _
  have hu : (a.standard w).unit a.described ≠ 0 := unit_ne_zero (a := a.standard w) hunit hfield
  obtain ⟨⟨Q, S⟩, hS⟩ := C140_standard_accepted others hg (w := w) hone hpd hwd
  obtain ⟨h1, h2, h3, h4, h5, h6, hQ, hset⟩ := (C140_setup_iff (a := a.standard w) _ Q S).1 hS
  have hdes : (a.standard w).described = a.described := rfl
  rw [hdes] at hQ hset
  subst hQ
  have hset' := hset
  change quadcoilSetup _ _ (standardArgs w) _ = _ at hset'
  rw [standard_smoothing, ← C141_none_is_value_at_zero, standard_resolve others _ w hB.le hK.le] at hset'
  have hphi : ∀ k : List ℝ, phiOnly (.array k) "phi" = .array k := fun k => by simp [phiOnly]
  have hfeas : ∀ d, UserFeasible (shippedRegistry FieldProblem.fns others) [] a.described d := fun d r hr => by cases hr
  have hrel : ∀ k d, k.length = HasQp.ndofs a.described → d "phi" = .array k →
      userObjective (shippedRegistry FieldProblem.fns others) (standardResolved w (a.described.fB (List.replicate (HasQp.ndofs a.described) 0))
        (a.described.fK (List.replicate (HasQp.ndofs a.described) 0))).objectives a.described d = relativeObjective a.described w k := by
    intro k d hk hd
    rw [standard_userObjective others _ hB hK k d hd, relativeObjective, hk]
  refine ⟨_, _, S, hB, rfl, hK, hu, hS, hset', fun p => ?_, ?_⟩
  · rw [standardResolved_requests]
    constructor
    · rintro ⟨hp, hmin⟩
      refine ⟨⟨p, hphi p, hp⟩, hfeas _, fun e ⟨m, hm, hml⟩ _ => ?_⟩
      rw [hrel p _ hp (hphi p), hrel m _ hml hm]
      exact hmin m hml
    · rintro ⟨⟨p', hp', hpl⟩, -, hmin⟩
      rw [hphi] at hp'
      obtain rfl := Val.array.inj hp'
      refine ⟨hpl, fun m hm => ?_⟩
      have := hmin (phiOnly (.array m)) ⟨m, hphi m, hm⟩ (hfeas _)
      rwa [hrel _ _ hpl (hphi _), hrel _ _ hm (hphi _)] at this
  · intro opt hc hv hgr
    obtain ⟨R, hR⟩ := C140_accepted_returns (a := a.standard w) ⟨_, hS⟩ hmet hc hv hgr
    obtain ⟨-, S', hS', hsol, -, hmv, -⟩ := C140_returned hR
    rw [hS] at hS'
    cases hS'
    refine ⟨R, hR, hsol, fun i k hi hk => ⟨?_, ?_, ?_⟩⟩
    · obtain ⟨r, d, hr, h⟩ := C139_why_a_call_stops hset hc hv hgr
      rw [hsol] at hr
      cases hr
      rcases h with ⟨-, j, hj, -, hst⟩ | ⟨-, n, s, t, ht, -⟩
      · rw [hi] at hj
        cases hj
        exact hst
      · rw [hi] at ht
        cases ht
    · intro hm
      obtain ⟨q, v, hq, hl, hval⟩ := hmv "f_B" hm (by decide)
      refine ⟨v, hl, ?_⟩
      rw [shipped_fB] at hq
      cases hq
      rw [hval]
      show Val.scalar (a.described.fB (coefs R.dofs)) = _
      rw [coefs, hk]
      rfl
    · intro hm
      obtain ⟨q, v, hq, hl, hval⟩ := hmv "f_K" hm (by decide)
      refine ⟨v, hl, ?_⟩
      cases hq
      rw [hval]
      show Val.scalar (a.described.fK (coefs R.dofs)) = _
      rw [coefs, hk]
      rfl

/-- **C142 (the usual call).** Field error and current with weight `w`, relative to their values without potential, no constraints, all
else default. The call returns. The problem it describes has exactly one best potential `c`, and the potential `k` that is returned is at
most a multiple of the final gradient away from it. The run ends as the default tolerances say, and the values reported are those of
`k`. Missing: a bound of the gradient that holds for every reason to stop, and rounding. -/
theorem C142_standard_call_partial (others : List String) (hg : DefaultGrids a)
    (hone : a.plasmaCoilDistance.isSome ≠ a.windingDofs.isSome)
    (hpd : a.plasmaDofs.length = (⟨a.nfp, a.plasmaStellsym, a.plasmaMpol, a.plasmaNtor⟩ : SurfaceShape).size)
    (hwd : a.described.cp.wdofs.length = a.described.cp.surf.size)
    (hplasma : ∀ q ∈ gridPoints (linspace0 (1 / a.nfp) 32) (linspace0 1 34), a.described.plasma.shape.normal a.plasmaDofs q.1 q.2 ≠ 0)
    (hfield : ∃ b ∈ a.described.bnormal (List.replicate (HasQp.ndofs a.described) 0), b ≠ 0) (hnet : a.netPoloidal ≠ 0 ∨ a.netToroidal ≠ 0)
    (hunit : UsableUnit a) (hmet : KnownMetrics (shippedRegistry FieldProblem.fns others) a) :
    ∃ μ > 0, ∀ {w : ℝ} (_ : 0 < w),
      ∃ c, (∀ k, IsBest (relativeObjective a.described w) (HasQp.ndofs a.described) k ↔ k = c) ∧
      ∀ {opt : Optimizer ℝ} (_ : opt.CountContract) (_ : opt.ValueContract) (_ : opt.GradContract realGrad) (_ : opt.ShapeContract realGrad),
        ∃ R i k S, quadcoilCall opt realGrad (shippedRegistry FieldProblem.fns others) (a.standard w) = .ok (some R) ∧
          R.results = .inner i ∧ R.dofs "phi" = .array k ∧
          (a.standard w).setup (shippedRegistry FieldProblem.fns others) = .ok (a.described, S) ∧
          StopsBy opt S.problem.f S.x0 10000 0 1e-10 1e-6 i ∧ i.grad = realGrad S.problem.f i.x ∧
          2 * (w / a.described.fK (List.replicate (HasQp.ndofs a.described) 0)) * μ * |(a.standard w).unit a.described| *
            Real.sqrt (sqDist c k) ≤ Num.norm i.grad ∧
          ("f_B" ∈ a.metrics → ∃ v, R.out.lookup "f_B" = some v ∧ v.value = .scalar (a.described.fB k)) ∧
          ("f_K" ∈ a.metrics → ∃ v, R.out.lookup "f_K" = some v ∧ v.value = .scalar (a.described.fK k)) := by
  obtain ⟨μ, hμ, hall⟩ := C138_unconstrained_distance_partial a.described others hg.resolved hg.bnormal_ne
  refine ⟨μ, hμ, ?_⟩
  intro w hw
  obtain ⟨b, k0, S, hb, rfl, hk0, hu, hS, hset, hbest, hrun⟩ :=
    standard_call others hg.toAllDefaultGrids hone hpd hwd hplasma hfield hnet hunit hmet w
  obtain ⟨c, huser, hopt⟩ := hall (standardResolved_smooth hw hb hk0) (standardResolved_convex hw hb hk0) rfl (standardResolved_requests _ _ _)
    (o := ("f_K", .scalar (a.described.fK (List.replicate (HasQp.ndofs a.described) 0)), w)) (by rw [standardResolved_objectives]; simp) rfl hw rfl
    hu (fun p h => by cases h) hset
  refine ⟨c, fun k => ?_, ?_⟩
  · rw [hbest, huser]
    simp [phiOnly]
  · intro opt hc hv hgr hsh
    obtain ⟨R, hR, hsol, hval⟩ := hrun hc hv hgr
    obtain ⟨i, k, hi, hk, hgrad, hb⟩ := hopt hc hv hgr hsh hsol
    obtain ⟨h1, h2, h3⟩ := hval i k hi hk
    rw [abs_of_pos hk0] at hb
    exact ⟨R, i, k, S, hR, hi, hk, hS, h1, hgrad, hb, h2, h3⟩

/-- **C142 (calls with constraints).** A call with smooth convex objectives and constraints on the default grids that returns with a
vanishing gradient, satisfied constraints and complementary multipliers returns the solution of the user's problem, and reports its
objective. Missing: a returned point meets these conditions only up to the tolerances (C133, C139), and rounding. -/
theorem C142_converged_partial (others : List String) (hg : DefaultGrids a)
    (hs : SmoothCall (a.opts.resolveUnits (shippedRegistry FieldProblem.fns others) a.described))
    (hca : ConvexCall (a.opts.resolveUnits (shippedRegistry FieldProblem.fns others) a.described)) (hu : a.unit a.described ≠ 0)
    (hfeas : ∃ d, Pot a.described d ∧ UserFeasible (shippedRegistry FieldProblem.fns others)
      (a.opts.resolveUnits (shippedRegistry FieldProblem.fns others) a.described).requests a.described d)
    {opt : Optimizer ℝ} (hc : opt.CountContract) (hv : opt.ValueContract) (hgr : opt.GradContract realGrad)
    (hsh : opt.ShapeContract realGrad) (hgrow : 1 ≤ a.opts.cGrowth) (hcinit : 0 < a.opts.cInit) {R : CallOut}
    (hR : quadcoilCall opt realGrad (shippedRegistry FieldProblem.fns others) a = .ok (some R)) {r : Status ℝ} (hr : R.results = .outer r)
    (h0 : r.finGradLAug = 0) (h1 : AllNonpos r.finG) (h2 : Num.dot r.finMu r.finG = 0) :
    UserMinimiser (shippedRegistry FieldProblem.fns others)
        (a.opts.resolveUnits (shippedRegistry FieldProblem.fns others) a.described).objectives
        (a.opts.resolveUnits (shippedRegistry FieldProblem.fns others) a.described).requests a.described (Pot a.described) R.dofs ∧
      r.finF = userObjective (shippedRegistry FieldProblem.fns others)
        (a.opts.resolveUnits (shippedRegistry FieldProblem.fns others) a.described).objectives a.described R.dofs := by
  obtain ⟨-, S, hS, hsol, hd, -⟩ := C140_returned hR
  obtain ⟨-, -, -, -, -, hsz, -, hset⟩ := (C140_setup_iff _ _ S).1 hS
  rw [← C141_none_is_value_at_zero] at hset
  have hinit : ∀ p, (a.opts.resolveUnits (shippedRegistry FieldProblem.fns others) a.described).phiInit = some p →
      p.length = HasQp.ndofs a.described := by
    intro p hp
    rw [hsz.phi_init p hp]
    exact (ndofs_eq _ _ _).symm
  have hsolve : solveConstrained opt realGrad S.problem gplusHard S.x0 = some r := by
    unfold quadcoilSolve at hsol
    rw [hr] at hsol
    cases hun : S.unconstrained with
    | true =>
      rw [hun] at hsol
      simp only [if_true, Option.map_map, Option.map_eq_some_iff] at hsol
      obtain ⟨i, -, hi⟩ := hsol
      simp at hi
    | false =>
      rw [hun] at hsol
      simp only [Bool.false_eq_true, if_false, Option.map_map, Option.map_eq_some_iff] at hsol
      obtain ⟨t, ht, hi⟩ := hsol
      simp only [Function.comp_apply, Prod.mk.injEq, SolveResults.outer.injEq] at hi
      rw [ht, hi.1]
  have := C133_converged_partial a.described others hg.resolved hg.bnormal_ne hs hca hu hinit hset hfeas hc hv hgr hsh hgrow hcinit hsolve h0 h1 h2
  rw [hd, hr]
  exact this

/-- **C54.** If the distance is given, `winding_stellsym` has no effect. -/
theorem C54_winding_stellsym_ignored_partial (opt : Optimizer ℝ) (gradOp : (List ℝ → ℝ) → List ℝ → List ℝ)
    (reg : Registry FieldProblem) (h : a.plasmaCoilDistance.isSome = true) (b : Bool) :
    quadcoilCall opt gradOp reg { a with windingStellsym := b } = quadcoilCall opt gradOp reg a := by
  have hset : ({ a with windingStellsym := b } : CallArgs).setup reg = a.setup reg := by
    obtain ⟨d, hd⟩ := Option.isSome_iff_exists.1 h
    have hw : ({ a with windingStellsym := b } : CallArgs).windingData = a.windingData := by
      simp only [CallArgs.windingData, hd]
      rfl
    have hp : ({ a with windingStellsym := b } : CallArgs).paramsObj = a.paramsObj := by
      simp only [CallArgs.paramsObj, hw]
      rfl
    have hu : ({ a with windingStellsym := b } : CallArgs).unitShapes = a.unitShapes := by
      simp only [CallArgs.unitShapes, CallArgs.windingShape, hw]
      rfl
    simp only [CallArgs.setup, hp, hu]
    rfl
  unfold quadcoilCall
  rw [hset]
  rfl

/-- **C54.** If the distance is given and the plasma surface has another symmetry than the potential, the generated winding surface
(which has the number of coefficients that belongs to the symmetry of the plasma surface) does not fit, and a call with the automatic
unit raises an error. -/
theorem C54_mixed_symmetry_rejected_partial (reg : Registry FieldProblem) {d : ℝ} (hd : a.plasmaCoilDistance = some d)
    (hu : a.phiUnit = none) (hs : a.plasmaStellsym ≠ a.stellsym)
    (hgen : (a.generator a.plasmaGamma d a.nfp a.plasmaStellsym a.windingMpol a.windingNtor).length =
      (⟨a.nfp, a.plasmaStellsym, a.windingMpol, a.windingNtor⟩ : SurfaceShape).size) : ∀ r, a.setup reg ≠ .ok r := by
  rintro ⟨Q, S⟩ h
  obtain ⟨-, -, -, -, -, hsz, -, -⟩ := (C140_setup_iff _ Q S).1 h
  have h1 := hsz.winding hu
  rw [← windingData_described.1, ← windingData_described.2] at h1
  simp only [CallArgs.windingData, CallArgs.windingShape, hd] at h1
  rw [hgen] at h1
  have hpos : 0 < (2 * a.windingMpol + 1) * (2 * a.windingNtor + 1) := by positivity
  cases h2 : a.plasmaStellsym <;> cases h3 : a.stellsym <;> simp [SurfaceShape.size, h2, h3] at h1 hs <;> omega

end Verif
