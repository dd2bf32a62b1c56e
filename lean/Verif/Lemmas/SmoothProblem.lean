import Verif.Props.Unique
import Mathlib.Analysis.Calculus.ContDiff.Operations
import Mathlib.Analysis.SpecialFunctions.Sqrt

/-!
# The quantities are smooth functions of all inputs

Families of problems that depend smoothly on parameters: where both surfaces are regular and do not touch, the integrals are smooth in the
coefficients of the potential and the parameters together.
-/

namespace Verif

open Filter Topology

section
variable {E : Type} [NormedAddCommGroup E] [NormedSpace ℝ E] {n : WithTop ℕ∞} {e0 : E}

/-- The three components are smooth. -/
def SmoothV (n : WithTop ℕ∞) (f : E → V3) (e0 : E) : Prop :=
  ContDiffAt ℝ n (fun e => (f e).x) e0 ∧ ContDiffAt ℝ n (fun e => (f e).y) e0 ∧ ContDiffAt ℝ n (fun e => (f e).z) e0

theorem SmoothV.add {f g : E → V3} (hf : SmoothV n f e0) (hg : SmoothV n g e0) : SmoothV n (fun e => f e + g e) e0 :=
  ⟨hf.1.add hg.1, hf.2.1.add hg.2.1, hf.2.2.add hg.2.2⟩

theorem SmoothV.sub {f g : E → V3} (hf : SmoothV n f e0) (hg : SmoothV n g e0) : SmoothV n (fun e => f e - g e) e0 :=
  ⟨hf.1.sub hg.1, hf.2.1.sub hg.2.1, hf.2.2.sub hg.2.2⟩

theorem SmoothV.smul {s : E → ℝ} {f : E → V3} (hs : ContDiffAt ℝ n s e0) (hf : SmoothV n f e0) : SmoothV n (fun e => s e • f e) e0 :=
  ⟨hs.mul hf.1, hs.mul hf.2.1, hs.mul hf.2.2⟩

theorem SmoothV.cross {f g : E → V3} (hf : SmoothV n f e0) (hg : SmoothV n g e0) : SmoothV n (fun e => V3.cross (f e) (g e)) e0 := by
  obtain ⟨f1, f2, f3⟩ := hf
  obtain ⟨g1, g2, g3⟩ := hg
  exact ⟨(f2.mul g3).sub (f3.mul g2), (f3.mul g1).sub (f1.mul g3), (f1.mul g2).sub (f2.mul g1)⟩

theorem SmoothV.dot {f g : E → V3} (hf : SmoothV n f e0) (hg : SmoothV n g e0) : ContDiffAt ℝ n (fun e => V3.dot (f e) (g e)) e0 := by
  obtain ⟨f1, f2, f3⟩ := hf
  obtain ⟨g1, g2, g3⟩ := hg
  exact ((f1.mul g1).add (f2.mul g2)).add (f3.mul g3)

theorem SmoothV.normSq {f : E → V3} (hf : SmoothV n f e0) : ContDiffAt ℝ n (fun e => (f e).normSq) e0 := by
  obtain ⟨f1, f2, f3⟩ := hf
  exact ((f1.pow 2).add (f2.pow 2)).add (f3.pow 2)

theorem normSq_ne_zero {v : V3} (h : v ≠ 0) : v.normSq ≠ 0 := by
  have := (V3.norm_pos_iff v).2 h
  exact (Real.sqrt_pos.1 this).ne'

theorem SmoothV.norm {f : E → V3} (hf : SmoothV n f e0) (h : f e0 ≠ 0) : ContDiffAt ℝ n (fun e => (f e).norm) e0 :=
  hf.normSq.sqrt (normSq_ne_zero h)

theorem SmoothV.invNorm {f : E → V3} (hf : SmoothV n f e0) (h : f e0 ≠ 0) : ContDiffAt ℝ n (fun e => 1 / (f e).norm) e0 := by
  simp only [one_div]
  exact (hf.norm h).inv ((V3.norm_pos_iff _).2 h).ne'

theorem SmoothV.continuousAt {f : E → V3} (hf : SmoothV n f e0) (h : f e0 ≠ 0) : ∀ᶠ e in 𝓝 e0, f e ≠ 0 := by
  have h1 := hf.normSq.continuousAt.eventually_ne (normSq_ne_zero h)
  filter_upwards [h1] with e he hz
  rw [hz] at he
  exact he (by simp [V3.normSq])

/-- A list whose entries are smooth, of constant length. -/
def SmoothList (n : WithTop ℕ∞) (l : E → List ℝ) (e0 : E) : Prop :=
  ∃ fs : List (E → ℝ), (∀ e, l e = fs.map fun f => f e) ∧ ∀ f ∈ fs, ContDiffAt ℝ n f e0

theorem SmoothList.const (l : List ℝ) : SmoothList n (fun _ : E => l) e0 :=
  ⟨l.map fun x _ => x, fun e => (by rw [List.map_map]; exact (List.map_id l).symm), by simp [contDiffAt_const]⟩

theorem SmoothList.map {β : Type} (l : List β) {f : β → E → ℝ} (h : ∀ b ∈ l, ContDiffAt ℝ n (f b) e0) :
    SmoothList n (fun e => l.map fun b => f b e) e0 :=
  ⟨l.map f, fun e => by simp, by simpa using h⟩

theorem SmoothList.sum {l : E → List ℝ} (h : SmoothList n l e0) : ContDiffAt ℝ n (fun e => (l e).sum) e0 := by
  obtain ⟨fs, hl, hf⟩ := h
  simp only [hl]
  clear hl
  induction fs with
  | nil => exact contDiffAt_const
  | cons f fs ih =>
    simp only [List.map_cons, List.sum_cons]
    exact (hf f List.mem_cons_self).add (ih fun g hg => hf g (List.mem_cons_of_mem _ hg))

theorem SmoothList.mul {l m : E → List ℝ} (h : SmoothList n l e0) (k : SmoothList n m e0) :
    SmoothList n (fun e => List.zipWith (· * ·) (l e) (m e)) e0 := by
  obtain ⟨fs, hl, hf⟩ := h
  obtain ⟨gs, hm, hg⟩ := k
  refine ⟨List.zipWith (fun f g e => f e * g e) fs gs, fun e => ?_, ?_⟩
  · simp only [hl, hm, List.zipWith_map, List.map_zipWith]
  · intro t ht
    obtain ⟨i, hi, rfl⟩ := List.mem_iff_getElem.1 ht
    rw [List.getElem_zipWith]
    exact (hf _ (List.getElem_mem _)).mul (hg _ (List.getElem_mem _))

/-- A smooth function of every entry and its position. -/
theorem SmoothList.zipMap {β : Type} (g : List β) {l : E → List ℝ} (h : SmoothList n l e0) {f : β → E → ℝ → ℝ}
    (hf : ∀ b ∈ g, ∀ s : E → ℝ, ContDiffAt ℝ n s e0 → ContDiffAt ℝ n (fun e => f b e (s e)) e0) :
    SmoothList n (fun e => (g.zip (l e)).map fun q => f q.1 e q.2) e0 := by
  obtain ⟨fs, hl, hs⟩ := h
  refine ⟨(g.zip fs).map fun q e => f q.1 e (q.2 e), fun e => ?_, ?_⟩
  · simp only [hl, List.map_map, List.zip_map_right]
    rfl
  · intro t ht
    obtain ⟨⟨b, s⟩, hq, rfl⟩ := List.mem_map.1 ht
    have := List.of_mem_zip hq
    exact hf b this.1 s (hs s this.2)

theorem SmoothList.mapFn {l : E → List ℝ} (h : SmoothList n l e0) {g : ℝ → ℝ} (hg : ∀ s : E → ℝ, ContDiffAt ℝ n s e0 → ContDiffAt ℝ n (fun e => g (s e)) e0) :
    SmoothList n (fun e => (l e).map g) e0 := by
  obtain ⟨fs, hl, hs⟩ := h
  refine ⟨fs.map fun s e => g (s e), fun e => ?_, ?_⟩
  · simp only [hl, List.map_map]
    rfl
  · intro t ht
    obtain ⟨s, hs', rfl⟩ := List.mem_map.1 ht
    exact hg s (hs s hs')

theorem SmoothList.length {l : E → List ℝ} (h : SmoothList n l e0) (e : E) : (l e).length = (l e0).length := by
  obtain ⟨fs, hl, -⟩ := h
  rw [hl, hl, List.length_map, List.length_map]

theorem SmoothList.app (row : List ℝ) {l : E → List ℝ} (h : SmoothList n l e0) : ContDiffAt ℝ n (fun e => CpParams.app row (l e)) e0 :=
  ((SmoothList.const row).mul h).sum

theorem SmoothList.applyRow (row : List ℝ) {l : E → List ℝ} (h : SmoothList n l e0) :
    ContDiffAt ℝ n (fun e => SurfaceShape.applyRow row (l e)) e0 :=
  ((SmoothList.const row).mul h).sum

theorem SmoothV.gammadash (S : SurfaceShape) {d : E → List ℝ} (h : SmoothList n d e0) (a b : ℕ) (p t : ℝ) :
    SmoothV n (fun e => S.gammadash (d e) a b p t) e0 := by
  have hr : ∀ k, ContDiffAt ℝ n (fun e => S.rDash (d e) k b p t) e0 := fun k => h.applyRow _
  refine ⟨SmoothList.sum (SmoothList.map _ fun k _ => ?_), SmoothList.sum (SmoothList.map _ fun k _ => ?_), h.applyRow _⟩
  · simp only [SurfaceShape.xTerm]
    split_ifs
    · exact (contDiffAt_const.mul (hr k)).mul contDiffAt_const
    · exact (contDiffAt_const.mul (hr k)).mul contDiffAt_const
  · simp only [SurfaceShape.yTerm]
    split_ifs
    · exact (contDiffAt_const.mul (hr k)).mul contDiffAt_const
    · exact (contDiffAt_const.mul (hr k)).mul contDiffAt_const

theorem SmoothV.normal (S : SurfaceShape) {d : E → List ℝ} (h : SmoothList n d e0) (p t : ℝ) : SmoothV n (fun e => S.normal (d e) p t) e0 :=
  (SmoothV.gammadash S h 1 0 p t).cross (SmoothV.gammadash S h 0 1 p t)

theorem SmoothV.unitnormal (S : SurfaceShape) {d : E → List ℝ} (h : SmoothList n d e0) (p t : ℝ) (hN : S.normal (d e0) p t ≠ 0) :
    SmoothV n (fun e => S.unitnormal (d e) p t) e0 :=
  SmoothV.smul ((SmoothV.normal S h p t).invNorm hN) (SmoothV.normal S h p t)

/-- A family of problems with fixed grids, symmetries and resolutions whose other data depend smoothly on the parameters. -/
structure SmoothFamily (n : WithTop ℕ∞) (Q : E → FieldProblem) (e0 : E) : Prop where
  surf : ∀ e, (Q e).cp.surf = (Q e0).cp.surf
  mpol : ∀ e, (Q e).cp.mpol = (Q e0).cp.mpol
  ntor : ∀ e, (Q e).cp.ntor = (Q e0).cp.ntor
  stellsym : ∀ e, (Q e).cp.stellsym = (Q e0).cp.stellsym
  wPhis : ∀ e, (Q e).wPhis = (Q e0).wPhis
  wThetas : ∀ e, (Q e).wThetas = (Q e0).wThetas
  ePhis : ∀ e, (Q e).ePhis = (Q e0).ePhis
  eThetas : ∀ e, (Q e).eThetas = (Q e0).eThetas
  shape : ∀ e, (Q e).plasma.shape = (Q e0).plasma.shape
  phis : ∀ e, (Q e).plasma.phis = (Q e0).plasma.phis
  thetas : ∀ e, (Q e).plasma.thetas = (Q e0).plasma.thetas
  G : ContDiffAt ℝ n (fun e => (Q e).cp.G) e0
  I : ContDiffAt ℝ n (fun e => (Q e).cp.I) e0
  wdofs : SmoothList n (fun e => (Q e).cp.wdofs) e0
  pdofs : SmoothList n (fun e => (Q e).plasma.dofs) e0
  bPlasma : SmoothList n (fun e => (Q e).bPlasma) e0

/-- Both surfaces are regular on their grids and have no common grid points. -/
structure RegularProblem (Q : FieldProblem) : Prop where
  winding : ∀ q ∈ gridPoints Q.wPhis Q.wThetas, Q.cp.N q.1 q.2 ≠ 0
  eval : ∀ q ∈ gridPoints Q.ePhis Q.eThetas, Q.cp.N q.1 q.2 ≠ 0
  plasma : ∀ q ∈ gridPoints Q.plasma.phis Q.plasma.thetas, Q.plasma.shape.normal Q.plasma.dofs q.1 q.2 ≠ 0
  apart : ∀ q ∈ gridPoints Q.plasma.phis Q.plasma.thetas, ∀ r ∈ gridPoints Q.wPhis Q.wThetas,
    Q.plasma.shape.gamma Q.plasma.dofs q.1 q.2 ≠ Q.cp.surf.gamma Q.cp.wdofs r.1 r.2

variable {Q : E → FieldProblem}

theorem SmoothFamily.rows (h : SmoothFamily n Q e0) (e : E) : (Q e).cp.rows = (Q e0).cp.rows := by
  simp only [CpParams.rows, h.mpol e, h.ntor e, h.stellsym e]

theorem SmoothFamily.opPhi (h : SmoothFamily n Q e0) (e : E) : (Q e).cp.opPhi = (Q e0).cp.opPhi := by
  funext p t
  simp only [CpParams.opPhi, CpParams.trigDiff, CpParams.partialPhi, h.rows e, CpParams.angle, CpParams.nfp, h.surf e]

theorem SmoothFamily.opTheta (h : SmoothFamily n Q e0) (e : E) : (Q e).cp.opTheta = (Q e0).cp.opTheta := by
  funext p t
  simp only [CpParams.opTheta, CpParams.trigDiff, CpParams.partialTheta, h.rows e, CpParams.angle, CpParams.nfp, h.surf e]

theorem SmoothFamily.dg (h : SmoothFamily n Q e0) (a b : ℕ) (p t : ℝ) :
    SmoothV n (fun e => (Q e).cp.surf.gammadash (Q e).cp.wdofs a b p t) e0 := by
  simp only [h.surf]
  exact SmoothV.gammadash _ h.wdofs a b p t

theorem SmoothFamily.N (h : SmoothFamily n Q e0) (p t : ℝ) : SmoothV n (fun e => (Q e).cp.N p t) e0 :=
  (h.dg 1 0 p t).cross (h.dg 0 1 p t)

theorem SmoothFamily.K (h : SmoothFamily n Q e0) {c : E → List ℝ} (hc : SmoothList n c e0) {p t : ℝ} (hN : (Q e0).cp.N p t ≠ 0) :
    SmoothV n (fun e => (Q e).cp.K (c e) p t) e0 := by
  simp only [CpParams.K_eq, h.opPhi, h.opTheta]
  have h1 := (h.N p t).invNorm hN
  have hp := (hc.app ((Q e0).cp.opPhi p t)).add h.G
  have ht := (hc.app ((Q e0).cp.opTheta p t)).add h.I
  exact SmoothV.smul h1 ((SmoothV.smul hp (h.dg 0 1 p t)).sub (SmoothV.smul ht (h.dg 1 0 p t)))

theorem SmoothFamily.fK (h : SmoothFamily n Q e0) {c : E → List ℝ} (hc : SmoothList n c e0)
    (hN : ∀ q ∈ gridPoints (Q e0).ePhis (Q e0).eThetas, (Q e0).cp.N q.1 q.2 ≠ 0) : ContDiffAt ℝ n (fun e => (Q e).fK (c e)) e0 := by
  simp only [FieldProblem.fK, GridSurface.integrate, GridSurface.da, FieldProblem.evalSurface, CpParams.nfp, h.surf, h.ePhis, h.eThetas]
  refine (SmoothList.sum (SmoothList.mul (SmoothList.map _ fun q hq => ?_) (SmoothList.map _ fun q hq => ?_))).mul contDiffAt_const
  · exact (h.K hc (hN q hq)).normSq.div_const 2
  · exact contDiffAt_const.mul ((SmoothV.normal _ h.wdofs q.1 q.2).norm (hN q hq))

theorem SmoothFamily.bTerm (h : SmoothFamily n Q e0) {c : E → List ℝ} (hc : SmoothList n c e0) {point : E → V3} (hpt : SmoothV n point e0)
    {q : ℝ × ℝ} (hN : (Q e0).cp.N q.1 q.2 ≠ 0) (hne : point e0 ≠ (Q e0).cp.surf.gamma (Q e0).cp.wdofs q.1 q.2) :
    SmoothV n (fun e => (Q e).bTerm (c e) (point e) q) e0 := by
  have hr : SmoothV n (fun e => point e - (Q e).cp.surf.gamma (Q e).cp.wdofs q.1 q.2) e0 := hpt.sub (h.dg 0 0 q.1 q.2)
  have hr0 : point e0 - (Q e0).cp.surf.gamma (Q e0).cp.wdofs q.1 q.2 ≠ 0 := by
    intro hz
    refine hne (V3.ext ?_ ?_ ?_)
    · have := congrArg V3.x hz
      simp only [V3.sub_x, V3.zero_x] at this
      linarith
    · have := congrArg V3.y hz
      simp only [V3.sub_y, V3.zero_y] at this
      linarith
    · have := congrArg V3.z hz
      simp only [V3.sub_z, V3.zero_z] at this
      linarith
  have hK := h.K hc hN
  have hNn : ContDiffAt ℝ n (fun e => ((Q e).cp.surf.normal (Q e).cp.wdofs q.1 q.2).norm) e0 := (h.N q.1 q.2).norm hN
  exact SmoothV.smul ((hr.invNorm hr0).pow 3) (SmoothV.smul hNn (hK.cross hr))

theorem SmoothV.vsum {β : Type} (l : List β) {f : β → E → V3} (h : ∀ b ∈ l, SmoothV n (f b) e0) :
    SmoothV n (fun e => Verif.vsum (l.map fun b => f b e)) e0 := by
  simp only [Verif.vsum, List.map_map]
  exact ⟨SmoothList.sum (SmoothList.map _ fun b hb => (h b hb).1), SmoothList.sum (SmoothList.map _ fun b hb => (h b hb).2.1),
    SmoothList.sum (SmoothList.map _ fun b hb => (h b hb).2.2)⟩

theorem SmoothFamily.bnormal (h : SmoothFamily n Q e0) (hR : RegularProblem (Q e0)) {c : E → List ℝ} (hc : SmoothList n c e0) :
    SmoothList n (fun e => (Q e).bnormal (c e)) e0 := by
  simp only [FieldProblem.bnormal, h.phis, h.thetas]
  refine h.bPlasma.zipMap _ (f := fun q e b => (Q e).bnWinding (c e) q + b) fun q hq s hs => ?_
  refine ContDiffAt.add ?_ hs
  have hpt : SmoothV n (fun e => (Q e).plasma.shape.gamma (Q e).plasma.dofs q.1 q.2) e0 := by
    simp only [h.shape]
    exact SmoothV.gammadash _ h.pdofs 0 0 q.1 q.2
  have hn : SmoothV n (fun e => (Q e).plasma.shape.unitnormal (Q e).plasma.dofs q.1 q.2) e0 := by
    simp only [h.shape]
    exact SmoothV.unitnormal _ h.pdofs q.1 q.2 (hR.plasma q hq)
  simp only [FieldProblem.bnWinding, FieldProblem.windingB, FieldProblem.computeB, h.wPhis, h.wThetas]
  exact hn.dot (SmoothV.smul contDiffAt_const (SmoothV.vsum _ fun r hr => h.bTerm hc hpt (hR.winding r hr) (hR.apart q hq r hr)))

theorem SmoothFamily.fB (h : SmoothFamily n Q e0) (hR : RegularProblem (Q e0)) {c : E → List ℝ} (hc : SmoothList n c e0) :
    ContDiffAt ℝ n (fun e => (Q e).fB (c e)) e0 := by
  have hb := h.bnormal hR hc
  simp only [FieldProblem.fB, GridSurface.integrate, GridSurface.da, CpParams.nfp, h.surf, h.phis, h.thetas, h.shape]
  refine (SmoothList.sum (SmoothList.mul (hb.mapFn fun s hs => (hs.pow 2).div_const 2) (SmoothList.map _ fun q hq => ?_))).mul contDiffAt_const
  exact contDiffAt_const.mul ((SmoothV.normal _ h.pdofs q.1 q.2).norm (hR.plasma q hq))

end

end Verif
