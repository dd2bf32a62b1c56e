import Verif.Props.Call
import Verif.Props.NoneUnits
import Verif.Props.CallTolerances
import Verif.Props.InnerProblemCalls
import Verif.Props.ReturnedPotential

/-!
# C140: the call with default arguments, and calls with default grids
-/

namespace Verif

theorem shipped_fB (others : List String) : shippedRegistry FieldProblem.fns others "f_B" =
    some (.quantity (Quantity.generateC2 (num FieldProblem.fns.fB) ["f", "<="])) := rfl

/-- **C140 (default call).** For every number of field periods, plasma and winding surface of the right sizes and net currents, the call
with all other arguments left at their defaults is accepted. It has no constraints. Its unknowns are the coefficients of the potential
in the automatic unit, starting at zero, and its objective is the field error relative to the one without potential. The inner
solver runs once, with at most 10000 iterations and the tolerances 0 (objective), `1e-10` (unknowns) and `1e-6` (gradient); C139 says
when this run stops. -/
theorem C140_default_call (others : List String) {nfp pm pn : ℕ} (hn : nfp ≠ 0) {stellsym : Bool} {pd wd : List ℝ}
    (hp : pd.length = (2 * pm + 1) * (2 * pn + 1)) (hw : wd.length = 143) {G : ℝ} {gen : Generator} :
    let a : CallArgs := {
      nfp := nfp, stellsym := stellsym, plasmaMpol := pm, plasmaNtor := pn, plasmaDofs := pd
      netPoloidal := G, generator := gen, windingDofs := some wd }
    ∃ S, a.setup (shippedRegistry FieldProblem.fns others) = .ok (a.described, S) ∧ S.unconstrained = true ∧
      S.x0 = List.replicate (if stellsym then 58 else 117) 0 ∧
      (∀ x, x.length = S.x0.length → dofsOf S.template S.phiUnit x "phi" = .array (x.map fun t => t * S.phiUnit) ∧
        S.problem.f x = a.described.fB (x.map fun t => t * S.phiUnit) /
          a.described.fB (List.replicate (if stellsym then 58 else 117) 0)) ∧
      ∀ opt gradOp, quadcoilSolve opt gradOp S = (runOpt opt gradOp S.problem.f S.x0 ⟨10000, 0, 1e-10, 1e-6⟩).map
        fun r => (SolveResults.inner r, dofsOf S.template S.phiUnit r.x) := by
  intro a
  have hacc : ∃ r, a.setup (shippedRegistry FieldProblem.fns others) = .ok r := by
    rw [C140_accepted_iff]
    refine ⟨hn, by simp [a], trivial, ⟨rfl, rfl, rfl⟩, ?_, ?_, ?_, ?_, ?_⟩
    · show nfp ∣ (linspace0 1 (32 * nfp)).length
      rw [linspace0_length]
      exact ⟨32, by ring⟩
    · refine ⟨fun p h => (by cases h), fun _ => ?_, fun _ => ?_, fun _ b h => (by cases h)⟩
      · simpa [a, SurfaceShape.size] using hp
      · simpa [a, SurfaceShape.size, CallArgs.described] using hw
    · exact ⟨⟨_, shipped_fB others, by decide⟩, .inr (.inl rfl), by simp⟩
    · refine ⟨rfl, rfl, fun h => (h rfl).elim, fun r hr => ?_⟩
      simp [a, QuadcoilArgs.requests, zipRequests, defaultArgs] at hr
    · intro h
      cases h
  obtain ⟨⟨Q, S⟩, hS⟩ := hacc
  obtain ⟨-, -, -, -, -, -, rfl, hset⟩ := (C140_setup_iff _ Q S).1 hS
  refine ⟨S, hS, ?_⟩
  have hnd : HasQp.ndofs a.described = if stellsym then 58 else 117 := by
    show (cpNdofs stellsym 6 4).1 = _
    cases stellsym <;> rfl
  obtain ⟨o, c, ho, hc, hu, ht, hx0, hun, -, -, hf, -, -⟩ := quadcoilSetup_ok hset
  have hq : getQuantity (shippedRegistry FieldProblem.fns others) "f_B" =
    .ok (Quantity.generateC2 (num FieldProblem.fns.fB) ["f", "<="]) := rfl
  have ho' : o = ⟨fTot [fun qp d => Val.map2 (· / ·) (num FieldProblem.fns.fB qp d)
      (Quantity.call (Quantity.generateC2 (num FieldProblem.fns.fB) ["f", "<="]) qp
        (phiOnly (Val.array (List.replicate (HasQp.ndofs qp) 0))))] [1], [], [], []⟩ := by
    simp [a, defaultArgs, parseObjectives, parseObjLoop, addQuantity, hq, Quantity.scaledF, Quantity.scaledG, Quantity.scaledH,
      Quantity.scaledInit, Quantity.generateC2, unitCallable, bind, Except.bind, dictUnion] at ho
    rw [← ho]
    rfl
  have hc' : c = ⟨[], [], []⟩ := by
    simp [a, defaultArgs, parseConstraints, zipRequests, pure, Except.pure] at hc
    exact hc.symm
  subst ho' hc'
  generalize hN : (if stellsym = true then 58 else 117 : ℕ) = N at hnd ⊢
  have htemp : S.template = [("phi_scaled", .array (List.replicate N 0))] := by
    rw [ht, hnd]
    simp [xTemplate, joinParsed, dictUnion, sortKeys, a, defaultArgs]
  have hx : S.x0 = List.replicate N 0 := by
    rw [hx0, htemp]
    simp [ravel, Val.entries]
  have hdofs : ∀ x, x.length = S.x0.length → dofsOf S.template S.phiUnit x "phi" = .array (x.map fun t => t * S.phiUnit) := by
    intro x hxl
    rw [hx, List.length_replicate] at hxl
    simp [htemp, dofsOf, toDofs, unravelUnscale, unravelLike, dictSet, Val.map, ← hxl]
  have hmax := setup_tolerances hset
  refine ⟨?_, hx, fun x hxl => ⟨hdofs x hxl, ?_⟩, fun opt gradOp => ?_⟩
  · rw [hun]
    rfl
  · rw [hf, ← hu]
    simp only [joinParsed, fTot, List.zip_cons_cons, List.zip_nil_right, List.foldl_cons, List.foldl_nil]
    simp [num, FieldProblem.fns, coefs, Quantity.call, Quantity.generateC2, hdofs x hxl, Val.map, Val.map2, Val.entries, phiOnly, hnd]
  · obtain ⟨-, -, -, h1, h2, h3⟩ := hmax
    simp only [Problem.innerTol, InnerTol.mk.injEq] at h2
    simp only [Problem.lastTol, InnerTol.mk.injEq] at h3
    unfold quadcoilSolve
    rw [hun, h1, h2.2.2.2, h3.2.1, h3.2.2.1]
    simp only [a, defaultArgs, joinParsed, List.append_nil, List.length_nil, Bool.false_eq_true, if_false, beq_self_eq_true, Bool.and_true,
      if_true, Option.map_map]
    rfl

end Verif
