import Verif.Props.AxisymmetricSolution
import Verif.Props.CallExamples

/-!
# C182: the potential that a call returns for an axisymmetric device
-/

namespace Verif

open Real

variable {a : CallArgs}

theorem sq_le_sqDist (c k : List ℝ) (i : ℕ) (hc : i < c.length) (hk : i < k.length) : (c[i] - k[i]) ^ 2 ≤ sqDist c k := by
  induction c generalizing k i with
  | nil => simp at hc
  | cons x c ih =>
    cases k with
    | nil => simp at hk
    | cons y k =>
      have h0 : ∀ (u v : List ℝ), 0 ≤ sqDist u v := by
        intro u v
        refine List.sum_nonneg fun z hz => ?_
        obtain ⟨j, hj, rfl⟩ := List.mem_iff_getElem.1 hz
        simp only [List.getElem_zipWith]
        positivity
      have e : sqDist (x :: c) (y :: k) = (x - y) ^ 2 + sqDist c k := by simp [sqDist]
      rw [e]
      cases i with
      | zero =>
        simp only [List.getElem_cons_zero]
        linarith [h0 c k]
      | succ i =>
        have := ih k i (by simpa using hc) (by simpa using hk)
        simp only [List.getElem_cons_succ]
        linarith [sq_nonneg (x - y)]

/-- Leaving out the toroidal modes increases neither of the two objectives. -/
theorem both_no_gain (Q : FieldProblem) {k : ℕ} (h : IsAxisymmetricData Q k) (hk : Q.cp.ntor < k)
    (hp : 0 ≤ gridStep Q.plasma.phis * gridStep Q.plasma.thetas) (he : 0 ≤ gridStep Q.ePhis * gridStep Q.eThetas) (c : List ℝ)
    (hc : c.length = (cpNdofs Q.cp.stellsym Q.cp.mpol Q.cp.ntor).1) :
    Q.fB (axisymmetricPart Q.cp c) ≤ Q.fB c ∧ Q.fK (axisymmetricPart Q.cp c) ≤ Q.fK c := by
  have hall : ∀ w, 0 ≤ w → Q.fB (axisymmetricPart Q.cp c) + w * Q.fK (axisymmetricPart Q.cp c) ≤ Q.fB c + w * Q.fK c :=
    fun w hw => C182_no_gain Q h hk w hw hp he c hc
  refine ⟨by simpa using hall 0 le_rfl, ?_⟩
  by_contra hlt
  have hpos : 0 < Q.fK (axisymmetricPart Q.cp c) - Q.fK c := sub_pos.2 (not_le.1 hlt)
  have h1 := hall ((|Q.fB c - Q.fB (axisymmetricPart Q.cp c)| + 1) / (Q.fK (axisymmetricPart Q.cp c) - Q.fK c)) (by positivity)
  have h2 : (|Q.fB c - Q.fB (axisymmetricPart Q.cp c)| + 1) / (Q.fK (axisymmetricPart Q.cp c) - Q.fK c) *
      (Q.fK (axisymmetricPart Q.cp c) - Q.fK c) = |Q.fB c - Q.fB (axisymmetricPart Q.cp c)| + 1 := by field_simp
  have h3 := le_abs_self (Q.fB c - Q.fB (axisymmetricPart Q.cp c))
  nlinarith

/-- **C182 (the returned potential).** The usual call for an axisymmetric device returns a potential whose coefficients of toroidal modes are bounded
by the gradient that the call reports: `2 (w / f_K(0)) mu |unit| |k_i| ≤ |gradient|`, with `mu` from geometry and grid only. With gradient zero they
vanish. -/
theorem C182_returned (others : List String) (hg : DefaultGrids a) (hax : IsAxisymmetricData a.described 32)
    (hone : a.plasmaCoilDistance.isSome ≠ a.windingDofs.isSome)
    (hpd : a.plasmaDofs.length = (⟨a.nfp, a.plasmaStellsym, a.plasmaMpol, a.plasmaNtor⟩ : SurfaceShape).size)
    (hwd : a.described.cp.wdofs.length = a.described.cp.surf.size)
    (hplasma : ∀ q ∈ gridPoints (linspace0 (1 / a.nfp) 32) (linspace0 1 34), a.described.plasma.shape.normal a.plasmaDofs q.1 q.2 ≠ 0)
    (hfield : ∃ b ∈ a.described.bnormal (List.replicate (HasQp.ndofs a.described) 0), b ≠ 0) (hnet : a.netPoloidal ≠ 0 ∨ a.netToroidal ≠ 0)
    (hunit : UsableUnit a) (hmet : KnownMetrics (shippedRegistry FieldProblem.fns others) a) :
    ∃ μ > 0, ∀ {w : ℝ} (_ : 0 < w) {opt : Optimizer ℝ} (_ : opt.CountContract) (_ : opt.ValueContract) (_ : opt.GradContract realGrad)
      (_ : opt.ShapeContract realGrad),
        ∃ R i k, quadcoilCall opt realGrad (shippedRegistry FieldProblem.fns others) (a.standard w) = .ok (some R) ∧
          R.results = .inner i ∧ R.dofs "phi" = .array k ∧
          ∀ (j : ℕ) (hj : j < a.described.cp.rows.length) (hjk : j < k.length), a.described.cp.rows[j].2.1 ≠ 0 →
            2 * (w / a.described.fK (List.replicate (HasQp.ndofs a.described) 0)) * μ * |(a.standard w).unit a.described| * |k[j]| ≤
              Num.norm i.grad := by
  obtain ⟨μ, hμ, h⟩ := C142_standard_call_partial others hg hone hpd hwd hplasma hfield hnet hunit hmet
  refine ⟨μ, hμ, fun {w} hw {opt} h1 h2 h3 h4 => ?_⟩
  obtain ⟨c, hc, hall⟩ := h hw
  obtain ⟨R, i, k, S, e1, e2, e3, -, -, -, e4, -⟩ := hall h1 h2 h3 h4
  have hres := hg.resolved
  have hp : 0 ≤ gridStep a.described.plasma.phis * gridStep a.described.plasma.thetas := hres.plasma
  have he : 0 < gridStep a.described.ePhis * gridStep a.described.eThetas := by
    rw [hres.ePhis, hres.eThetas, gridStep_linspace0 _ _ (by norm_num), gridStep_linspace0 _ _ (by norm_num)]
    have : 0 < a.described.cp.surf.nfp := Nat.pos_of_ne_zero hres.nfp
    positivity
  have hk : a.described.cp.ntor < 32 := by
    have := hres.ntor
    omega
  have hbest := (hc c).2 rfl
  have hlen : c.length = a.described.cp.rows.length := by
    rw [rows_length]
    exact hbest.1
  have hpl : (axisymmetricPart a.described.cp c).length = c.length := by rw [axisymmetricPart_length _ _ hlen, hlen]
  obtain ⟨g1, g2⟩ := both_no_gain a.described hax hk hp he.le c hbest.1
  have hpart : axisymmetricPart a.described.cp c = c := by
    refine (hc _).1 ⟨hpl.trans hbest.1, fun d hd => le_trans ?_ (hbest.2 d hd)⟩
    rw [relativeObjective, relativeObjective, hpl]
    obtain ⟨n1, n2⟩ := C47_objectives_nonneg a.described hp he.le (List.replicate c.length 0)
    gcongr
  refine ⟨R, i, k, e1, e2, e3, fun j hj hjk h0 => le_trans ?_ e4⟩
  have hcj : j < c.length := hlen ▸ hj
  have hz : c[j] = 0 := by
    have : (axisymmetricPart a.described.cp c)[j]'(by omega) = c[j] := by simp only [hpart]
    rw [← this]
    simp only [axisymmetricPart, List.getElem_zipWith, if_neg h0]
  have hs := sq_le_sqDist c k j hcj hjk
  rw [hz, zero_sub, neg_sq] at hs
  have hs' : |k[j]| ≤ √(sqDist c k) := Real.abs_le_sqrt hs
  have hK := (C47_objectives_nonneg a.described hp he.le (List.replicate (HasQp.ndofs a.described) 0)).2
  exact mul_le_mul_of_nonneg_left hs' (by positivity)

/-- The call for the torus with toroidal modes in the potential. -/
noncomputable def bandCall (b : ℝ) : CallArgs := { torusCall b with ntor := 1 }

theorem bandCall_grids (b : ℝ) : DefaultGrids (bandCall b) where
  nfp := one_ne_zero
  stellsym := rfl
  phi := rfl
  theta := rfl
  winding_phi := rfl
  winding_theta := rfl
  plasma_phi := rfl
  plasma_theta := rfl
  mpol := by show 1 ≤ 16; norm_num
  ntor := by show 1 ≤ 15; norm_num
  regular := fun q _ => torus_normal 2 1 q.1 q.2 one_pos one_lt_two
  normal_field := (torusCall_grids b).normal_field

theorem bandCall_axisymmetric (b : ℝ) : IsAxisymmetricData (bandCall b).described 32 where
  nfp := one_ne_zero
  winding := torus_axisymmetric 2 1
  plasma := torus_axisymmetric 2 (1 / 2)
  same_nfp := rfl
  winding_grid := ⟨1, one_ne_zero, rfl⟩
  eval_grid := ⟨1, one_ne_zero, (bandCall_grids b).resolved.ePhis⟩
  plasma_grid := ⟨1, one_ne_zero, rfl⟩
  plasma_field := ⟨fun _ => b, by
    have e : (bandCall b).described.bPlasma = List.replicate 1088 b := by
      show (List.replicate 32 (List.replicate 34 b)).flatten = _
      simp
    have e2 : gridPoints (bandCall b).described.plasma.phis (bandCall b).described.plasma.thetas =
        gridPoints (linspace0 (1 / (1 : ℕ)) 32) (linspace0 1 34) := rfl
    have e3 : (gridPoints (linspace0 (1 / (1 : ℕ)) 32) (linspace0 1 34)).length = 1088 := by
      rw [gridPoints_length, linspace0_length, linspace0_length]
    rw [e, e2, List.map_const', e3]⟩

theorem bandCall_field : ∃ b, ∃ t ∈ (bandCall b).described.bnormal [0, 0, 0, 0], t ≠ 0 := by
  have hmem : ∀ b : ℝ, ((bandCall b).described.bnWinding [0, 0, 0, 0] (0, 0) + b) ∈ (bandCall b).described.bnormal [0, 0, 0, 0] := by
    intro b
    refine List.mem_map.2 ⟨((0, 0), b), ?_, rfl⟩
    have e1 : (bandCall b).described.bPlasma = List.replicate 1088 b := by
      show (List.replicate 32 (List.replicate 34 b)).flatten = _
      simp
    have e2 : gridPoints (bandCall b).described.plasma.phis (bandCall b).described.plasma.thetas =
        gridPoints (linspace0 (1 / (1 : ℕ)) (31 + 1)) (linspace0 1 (33 + 1)) := rfl
    obtain ⟨rest, e3⟩ := gridPoints_head (1 / (1 : ℕ)) 1 31 33
    rw [e1, e2, e3, List.replicate_succ, List.zip_cons_cons]
    exact List.mem_cons_self
  by_cases h : (bandCall 0).described.bnWinding [0, 0, 0, 0] (0, 0) = 0
  · refine ⟨1, _, hmem 1, ?_⟩
    have e : (bandCall 1).described.bnWinding [0, 0, 0, 0] (0, 0) = (bandCall 0).described.bnWinding [0, 0, 0, 0] (0, 0) := rfl
    rw [e, h]
    norm_num
  · exact ⟨0, _, hmem 0, by rwa [add_zero]⟩

/-- Three of its four modes are toroidal. -/
example (b : ℝ) : (bandCall b).described.cp.rows = [(0, 1, 1), (1, -1, 1), (1, 0, 1), (1, 1, 1)] := by
  show (bandTorus.cp).rows = _
  decide

/-- For some plasma field the call meets all hypotheses. -/
example : ∃ b, ∃ μ > 0, ∀ w > 0, ∃ R i k,
    quadcoilCall (gradientDescent realGrad (1 / 4)) realGrad (shippedRegistry FieldProblem.fns []) ((bandCall b).standard w) = .ok (some R) ∧
    R.results = .inner i ∧ R.dofs "phi" = .array k ∧
    ∀ hk : 0 < k.length, 2 * (w / (bandCall b).described.fK [0, 0, 0, 0]) * μ * |((bandCall b).standard w).unit (bandCall b).described| * |k[0]| ≤
      Num.norm i.grad := by
  obtain ⟨b, hb⟩ := bandCall_field
  obtain ⟨μ, hμ, h⟩ := C182_returned (a := bandCall b) [] (bandCall_grids b) (bandCall_axisymmetric b) (by simp [bandCall, torusCall])
    (by simp [bandCall, torusCall, SurfaceShape.size]) (by simp [bandCall, torusCall, CallArgs.described, SurfaceShape.size])
    (fun q _ => torus_normal 2 (1 / 2) q.1 q.2 (by norm_num) (by norm_num)) hb (.inl (by simp [bandCall, torusCall]))
    (.inr ⟨rfl, by simp [bandCall, torusCall], fun _ => by norm_num [bandCall, torusCall, minorRadius]⟩) (torusCall_metrics b)
  refine ⟨b, μ, hμ, fun w hw => ?_⟩
  obtain ⟨R, i, k, h1, h2, h3, h4⟩ := h hw (gradientDescent_count _ _) (gradientDescent_value _ _) (fun _ _ _ _ _ => rfl)
    (gradientDescent_shape realGrad (fun f p => by simp [realGrad]) (1 / 4))
  have hr : (bandCall b).described.cp.rows = [(0, 1, 1), (1, -1, 1), (1, 0, 1), (1, 1, 1)] := by
    show (bandTorus.cp).rows = _
    decide
  exact ⟨R, i, k, h1, h2, h3, fun hk => h4 0 (by simp [hr]) hk (by simp [hr])⟩

end Verif
