import Verif.Props.CallReturned
import Verif.Props.BiotSavart

/-!
# C54, C140, C141, C142: examples
-/

namespace Verif

/-- The call for a torus inside a torus, with a given plasma field. -/
noncomputable def torusCall (b : ℝ) : CallArgs where
  nfp := 1
  stellsym := true
  plasmaMpol := 1
  plasmaNtor := 0
  plasmaDofs := [2, 1 / 2, 1 / 2]
  netPoloidal := 5
  netToroidal := 7
  mpol := 1
  ntor := 0
  bnormalPlasma := some (List.replicate 32 (List.replicate 34 b))
  generator := fun _ _ _ _ _ _ => []
  windingDofs := some [2, 1, 1]
  windingMpol := 1
  windingNtor := 0

theorem torusCall_grids (b : ℝ) : DefaultGrids (torusCall b) where
  nfp := one_ne_zero
  stellsym := rfl
  phi := rfl
  theta := rfl
  winding_phi := rfl
  winding_theta := rfl
  plasma_phi := rfl
  plasma_theta := rfl
  mpol := by show 1 ≤ 16; norm_num
  ntor := by show 0 ≤ 15; norm_num
  regular := fun q _ => (circularTorus_regular q.1 q.2).1
  normal_field := by
    intro c hc
    obtain rfl := (Option.some.inj hc).symm
    refine ⟨by simp, fun r hr => ?_⟩
    rw [(List.mem_replicate.1 hr).2]
    simp

theorem torusCall_metrics (b : ℝ) : KnownMetrics (shippedRegistry FieldProblem.fns []) (torusCall b) := by
  intro n hn
  have : n ∈ ["f_B", "f_K"] := hn
  simp only [List.mem_cons, List.not_mem_nil, or_false] at this
  rcases this with rfl | rfl
  · exact .inr ⟨_, shipped_fB []⟩
  · exact .inr ⟨_, rfl⟩

theorem gridPoints_head (s r : ℝ) (m n : ℕ) : ∃ rest, gridPoints (linspace0 s (m + 1)) (linspace0 r (n + 1)) = (0, 0) :: rest := by
  simp [gridPoints, linspace0, List.range_succ_eq_map]

/-- For some plasma field there is a field to be cancelled. -/
theorem torusCall_field : ∃ b, ∃ t ∈ (torusCall b).described.bnormal [0], t ≠ 0 := by
  have hmem : ∀ b : ℝ, ((torusCall b).described.bnWinding [0] (0, 0) + b) ∈ (torusCall b).described.bnormal [0] := by
    intro b
    refine List.mem_map.2 ⟨((0, 0), b), ?_, rfl⟩
    have e1 : (torusCall b).described.bPlasma = List.replicate 1088 b := by
      show (List.replicate 32 (List.replicate 34 b)).flatten = _
      simp
    have e2 : gridPoints (torusCall b).described.plasma.phis (torusCall b).described.plasma.thetas =
        gridPoints (linspace0 (1 / (1 : ℕ)) (31 + 1)) (linspace0 1 (33 + 1)) := rfl
    obtain ⟨rest, e3⟩ := gridPoints_head (1 / (1 : ℕ)) 1 31 33
    rw [e1, e2, e3, List.replicate_succ, List.zip_cons_cons]
    exact List.mem_cons_self
  by_cases h : (torusCall 0).described.bnWinding [0] (0, 0) = 0
  · refine ⟨1, _, hmem 1, ?_⟩
    have e : (torusCall 1).described.bnWinding [0] (0, 0) = (torusCall 0).described.bnWinding [0] (0, 0) := rfl
    rw [e, h]
    norm_num
  · exact ⟨0, _, hmem 0, by rwa [add_zero]⟩

/-- For some plasma field the torus meets all hypotheses: gradient descent returns a potential near the only best one. -/
example : ∃ b, ∃ μ > 0, ∀ w > 0, ∃ c R i k, (∀ k, IsBest (relativeObjective (torusCall b).described w) 1 k ↔ k = c) ∧
    quadcoilCall (gradientDescent realGrad (1 / 4)) realGrad (shippedRegistry FieldProblem.fns []) ((torusCall b).standard w) = .ok (some R) ∧
    R.results = .inner i ∧ R.dofs "phi" = .array k ∧
    2 * (w / (torusCall b).described.fK [0]) * μ * |((torusCall b).standard w).unit (torusCall b).described| *
      Real.sqrt (sqDist c k) ≤ Num.norm i.grad := by
  obtain ⟨b, hb⟩ := torusCall_field
  obtain ⟨μ, hμ, h⟩ := C142_standard_call_partial (a := torusCall b) [] (torusCall_grids b) (by simp [torusCall])
    (by simp [torusCall, SurfaceShape.size]) (by simp [torusCall, CallArgs.described, SurfaceShape.size])
    (fun q _ => torus_normal 2 (1 / 2) q.1 q.2 (by norm_num) (by norm_num)) hb (.inl (by simp [torusCall]))
    (.inr ⟨rfl, by simp [torusCall], fun _ => by norm_num [torusCall, minorRadius]⟩) (torusCall_metrics b)
  refine ⟨b, μ, hμ, fun w hw => ?_⟩
  obtain ⟨c, hc, hall⟩ := h hw
  obtain ⟨R, i, k, S, h1, h2, h3, -, -, -, h4, -⟩ := hall (gradientDescent_count _ _) (gradientDescent_value _ _) (fun _ _ _ _ _ => rfl)
    (gradientDescent_shape realGrad (fun f p => by simp [realGrad]) (1 / 4))
  exact ⟨c, R, i, k, hc, h1, h2, h3, h4⟩

/-- The default call on the torus with 3 field periods. -/
example (gen : Generator) (wd : List ℝ) (hw : wd.length = 143) : ∃ S, ({
    nfp := 3, stellsym := true, plasmaMpol := 1, plasmaNtor := 0, plasmaDofs := [2, 1 / 2, 1 / 2]
    netPoloidal := 5, generator := gen, windingDofs := some wd } : CallArgs).setup (shippedRegistry FieldProblem.fns []) =
      .ok (({ nfp := 3, stellsym := true, plasmaMpol := 1, plasmaNtor := 0, plasmaDofs := [2, 1 / 2, 1 / 2]
              netPoloidal := 5, generator := gen, windingDofs := some wd } : CallArgs).described, S) ∧ S.x0.length = 58 := by
  obtain ⟨S, hS, -, hx, -⟩ := C140_default_call [] (nfp := 3) (pm := 1) (pn := 0) (by norm_num) (stellsym := true) (pd := [2, 1 / 2, 1 / 2])
    (by simp) hw (G := 5) (gen := gen)
  exact ⟨S, hS, by rw [hx]; simp⟩

/-- A call with a distance as well as a winding surface is not accepted. -/
example (b d : ℝ) : ¬ ∃ r, ({ torusCall b with plasmaCoilDistance := some d } : CallArgs).setup (shippedRegistry FieldProblem.fns []) = .ok r := by
  rw [C140_accepted_iff]
  rintro ⟨-, h, -⟩
  exact h rfl

/-- Neither is one with a plasma surface of the wrong size, since the unit of the potential needs the normal field. -/
example (b : ℝ) : ¬ ∃ r, ({ torusCall b with plasmaDofs := [2, 1] } : CallArgs).setup (shippedRegistry FieldProblem.fns []) = .ok r := by
  rw [C140_accepted_iff]
  rintro ⟨-, -, -, -, -, h, -⟩
  have := h.plasma (.inr rfl)
  simp [torusCall, SurfaceShape.size] at this

/-- The units of the usual call on the torus: `None` becomes the value without potential. -/
example (w : ℝ) : ({ standardArgs w with smoothing := none } : QuadcoilArgs).resolveUnits (shippedRegistry FieldProblem.fns []) resolvedTorus =
    standardResolved w (resolvedTorus.fB [0]) (resolvedTorus.fK [0]) :=
  standard_resolve [] resolvedTorus w (C47_objectives_nonneg _ resolvedTorus_resolved.plasma resolvedTorus_resolved.eval_nonneg _).1
    (C47_objectives_nonneg _ resolvedTorus_resolved.plasma resolvedTorus_resolved.eval_nonneg _).2

/-- With a distance, and a generator that returns what the fit returns, `winding_stellsym` changes nothing, and a plasma surface that is
not stellarator symmetric is rejected. -/
example (b : ℝ) : let a : CallArgs := { torusCall b with
      windingDofs := none, plasmaCoilDistance := some 1
      generator := fun _ _ n s m t => List.replicate (⟨n, s, m, t⟩ : SurfaceShape).size 0 }
    (∀ opt s, quadcoilCall opt realGrad (shippedRegistry FieldProblem.fns []) { a with windingStellsym := s } =
      quadcoilCall opt realGrad (shippedRegistry FieldProblem.fns []) a) ∧
    ∀ r, ({ a with plasmaStellsym := false, plasmaDofs := List.replicate 6 0 } : CallArgs).setup (shippedRegistry FieldProblem.fns []) ≠ .ok r := by
  intro a
  exact ⟨fun opt s => C54_winding_stellsym_ignored_partial opt realGrad _ rfl s,
    C54_mixed_symmetry_rejected_partial (a := { a with plasmaStellsym := false, plasmaDofs := List.replicate 6 0 }) _ rfl rfl
      (by simp [a, torusCall]) (by simp [a])⟩

end Verif
