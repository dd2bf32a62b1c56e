import Verif.Lemmas.TiledProblem
import Verif.Props.Nested

/-!
# A problem turned by part of a field period
-/

namespace Verif

open Real CpParams

/-- Surfaces and potential of `Q'` are those of `Q`, turned by `2 π s`; both have the same uniform winding grid of the whole torus. -/
structure Turned (s : ℝ) (Q Q' : FieldProblem) (c c' : List ℝ) : Prop where
  cp : MovedCp s 0 Q.cp Q'.cp
  Phi : ∀ p x, Q'.cp.Phi c' (p + s) x = Q.cp.Phi c p x
  plasma : ∀ p x, Q'.plasma.shape.gamma Q'.plasma.dofs (p + s) x = rotZ (2 * π * s) (Q.plasma.shape.gamma Q.plasma.dofs p x)
  nfp : Q'.cp.surf.nfp ≠ 0
  grid : ∃ n j : ℕ, Q.wPhis = linspace0 1 n ∧ s = j / n
  wPhis : Q'.wPhis = Q.wPhis
  wThetas : Q'.wThetas = Q.wThetas

namespace Turned

variable {s : ℝ} {Q Q' : FieldProblem} {c c' : List ℝ} (h : Turned s Q Q' c c')
include h

theorem ops : MovedOps s 0 Q.cp Q'.cp c c' := movedOps fun p x => by rw [add_zero]; exact h.Phi p x

theorem dash (a b : ℕ) (p x : ℝ) :
    Q'.cp.surf.gammadash Q'.cp.wdofs a b (p + s) x = rotZ (2 * π * s) (Q.cp.surf.gammadash Q.cp.wdofs a b p x) := by
  have := h.cp.dash a b p x
  rwa [add_zero] at this

theorem K (p x : ℝ) : Q'.cp.K c' (p + s) x = rotZ (2 * π * s) (Q.cp.K c p x) := by
  have := h.cp.K h.ops p x
  rwa [add_zero] at this

theorem normal (p x : ℝ) : Q'.cp.surf.normal Q'.cp.wdofs (p + s) x = rotZ (2 * π * s) (Q.cp.surf.normal Q.cp.wdofs p x) := by
  rw [SurfaceShape.normal, h.dash, h.dash, rotZ_cross]
  rfl

theorem windingB (y : V3) : Q'.windingB c' (rotZ (2 * π * s) y) = rotZ (2 * π * s) (Q.windingB c y) := by
  obtain ⟨n, j, hw, hs⟩ := h.grid
  have hg : ∀ p x, Q'.cp.surf.gamma Q'.cp.wdofs (p + s) x = rotZ (2 * π * s) (Q.cp.surf.gamma Q.cp.wdofs p x) := h.dash 0 0
  have hterm : ∀ q : ℝ × ℝ, Q'.bTerm c' (rotZ (2 * π * s) y) (q.1 + s, q.2) = rotZ (2 * π * s) (Q.bTerm c y q) := by
    intro q
    simp only [FieldProblem.bTerm, hg, h.normal, h.K, ← rotZ_sub, rotZ_normSq, rotZ_norm, rotZ_cross, ← rotZ_smul]
  rw [FieldProblem.windingB, FieldProblem.windingB, h.wPhis, h.wThetas, rotZ_smul, FieldProblem.computeB, FieldProblem.computeB, h.wPhis,
    h.wThetas, ← rotZ_vsum, hw, ← vsum_grid_shift n j Q.wThetas _ (bTerm_phi_periodic Q' h.nfp c' _)]
  congr 2
  refine List.map_congr_left fun q _ => ?_
  rw [← hs]
  exact hterm q

omit h in
theorem plasma_dash {S S' : GridSurface} {s : ℝ}
    (h : ∀ p x, S'.shape.gamma S'.dofs (p + s) x = rotZ (2 * π * s) (S.shape.gamma S.dofs p x)) (p x : ℝ) :
    S'.shape.normal S'.dofs (p + s) x = rotZ (2 * π * s) (S.shape.normal S.dofs p x) ∧
      S'.shape.unitnormal S'.dofs (p + s) x = rotZ (2 * π * s) (S.shape.unitnormal S.dofs p x) := by
  have m : MovedSurface s 0 ⟨S.shape, S.dofs, [], []⟩ ⟨S'.shape, S'.dofs, [], []⟩ := ⟨fun p x => by rw [add_zero]; exact h p x, rfl, rfl⟩
  have h1 := m.normal p x
  have h2 := m.unitnormal p x
  rw [add_zero] at h1 h2
  exact ⟨h1, h2⟩

theorem samePoint (p x : ℝ) : SamePoint Q.cp Q'.cp c c' (p + s, x) (p, x) := by
  have h1 := h.cp.KdotGradK h.ops p x
  have h2 := h.ops.phi p x
  rw [add_zero] at h1 h2
  exact ⟨⟨_, h.dash 0 0 p x, h.K p x, h1⟩, h.Phi p x, h2, by rw [h.normal, rotZ_norm]⟩

theorem samePlasmaPoint (p x b : ℝ) : SamePlasmaPoint Q Q' c c' ((p + s, x), b) ((p, x), b) := by
  obtain ⟨h1, h2⟩ := plasma_dash h.plasma p x
  refine ⟨?_, rfl, by rw [h1, rotZ_norm]⟩
  simp only [FieldProblem.bnWinding]
  rw [h.plasma, h2, h.windingB, rotZ_dot]

end Turned

theorem rotZ_angle_add (a b : ℝ) (v : V3) : rotZ a (rotZ b v) = rotZ (a + b) v := by
  ext <;> simp only [rotZ, cos_add, sin_add] <;> ring

theorem SamePoint.trans {P P' P'' : CpParams} {c c' c'' : List ℝ} {q q' q'' : ℝ × ℝ} (h : SamePoint P P' c c' q' q)
    (k : SamePoint P' P'' c' c'' q'' q') : SamePoint P P'' c c'' q'' q := by
  obtain ⟨a, h1, h2, h3⟩ := h.rotated
  obtain ⟨b, k1, k2, k3⟩ := k.rotated
  exact ⟨⟨b + a, by rw [k1, h1, rotZ_angle_add], by rw [k2, h2, rotZ_angle_add], by rw [k3, h3, rotZ_angle_add]⟩, k.Phi.trans h.Phi,
    k.opPhi.trans h.opPhi, k.normal.trans h.normal⟩

theorem rotZ_cancel (a : ℝ) (v : V3) : rotZ (-a) (rotZ a v) = v := by
  rw [rotZ_angle_add, neg_add_cancel]
  ext <;> simp [rotZ]

theorem SamePoint.symm {P P' : CpParams} {c c' : List ℝ} {q q' : ℝ × ℝ} (h : SamePoint P P' c c' q' q) : SamePoint P' P c' c q q' := by
  obtain ⟨a, h1, h2, h3⟩ := h.rotated
  exact ⟨⟨-a, by rw [h1, rotZ_cancel], by rw [h2, rotZ_cancel], by rw [h3, rotZ_cancel]⟩, h.Phi.symm, h.opPhi.symm, h.normal.symm⟩

theorem SamePlasmaPoint.trans {Q Q' Q'' : FieldProblem} {c c' c'' : List ℝ} {q q' q'' : (ℝ × ℝ) × ℝ} (h : SamePlasmaPoint Q Q' c c' q' q)
    (k : SamePlasmaPoint Q' Q'' c' c'' q'' q') : SamePlasmaPoint Q Q'' c c'' q'' q :=
  ⟨k.field.trans h.field, k.given.trans h.given, k.normal.trans h.normal⟩

theorem SamePlasmaPoint.symm {Q Q' : FieldProblem} {c c' : List ℝ} {q q' : (ℝ × ℝ) × ℝ} (h : SamePlasmaPoint Q Q' c c' q' q) :
    SamePlasmaPoint Q' Q c' c q q' := ⟨h.field.symm, h.given.symm, h.normal.symm⟩

/-! ## Copies of a list -/

theorem flatMap_const {β : Type} (N : ℕ) (l : List β) : ((List.range N).flatMap fun _ => l) = (List.replicate N l).flatten := by
  rw [List.flatMap_def, List.map_const', List.length_range]

theorem zip_copies {α β : Type} (N : ℕ) (L : List α) (b : List β) (f : ℕ → α → α) (hl : L.length = b.length) :
    ((List.range N).flatMap fun k => L.map (f k)).zip (List.replicate N b).flatten =
      (List.range N).flatMap fun k => (L.zip b).map fun x => (f k x.1, x.2) := by
  induction N with
  | zero => simp
  | succ N ih =>
    rw [List.range_succ, List.replicate_succ', List.flatMap_append, List.flatMap_append, List.flatten_append, List.zip_append, ih]
    · simp only [List.flatMap_singleton, List.flatten_singleton]
      congr 1
      rw [List.zip_map_left]
      rfl
    · rw [List.length_flatten, List.map_replicate, List.length_flatMap]
      simp [hl]

/-- Copies of the points of a list, each related to the original. -/
theorem tiles_copies {α β : Type} (N : ℕ) (L : List β) (g : ℕ → β → α) {R : α → β → Prop} (hR : ∀ k < N, ∀ b ∈ L, R (g k b) b) :
    Tiles N R ((List.range N).flatMap fun k => L.map (g k)) L := by
  refine ⟨(List.range N).flatMap fun k => L.map fun b => (g k b, b), ?_, ?_, ?_⟩
  · simp [List.map_flatMap, Function.comp_def]
  · rw [← flatMap_const]
    simp [List.map_flatMap, Function.comp_def]
  · intro p hp
    obtain ⟨k, hk, hp⟩ := List.mem_flatMap.1 hp
    obtain ⟨b, hb, rfl⟩ := List.mem_map.1 hp
    exact hR k (List.mem_range.1 hk) b hb

/-- The copies related to each other in cyclic order. -/
theorem tiles_cyclic {α β : Type} (n : ℕ) (L : List β) (g : ℕ → β → α) {R : α → α → Prop} (hR : ∀ k < n, ∀ b ∈ L, R (g (k + 1) b) (g k b))
    (hlast : ∀ b ∈ L, R (g 0 b) (g n b)) :
    Tiles 1 R ((List.range (n + 1)).flatMap fun k => L.map (g k)) ((List.range (n + 1)).flatMap fun k => L.map (g k)) := by
  refine ⟨(L.map fun b => (g 0 b, g n b)) ++ (List.range n).flatMap fun k => L.map fun b => (g (k + 1) b, g k b), ?_, ?_, ?_⟩
  · rw [List.range_succ_eq_map]
    simp [List.map_flatMap, List.flatMap_map, Function.comp_def]
  · rw [List.range_succ]
    simp only [List.map_append, List.map_map, List.map_flatMap, Function.comp_def, List.flatMap_append, List.flatMap_singleton,
      List.replicate_one, List.flatten_singleton]
    exact List.perm_append_comm
  · intro p hp
    rcases List.mem_append.1 hp with hp | hp
    · obtain ⟨b, hb, rfl⟩ := List.mem_map.1 hp
      exact hlast b hb
    · obtain ⟨k, hk, hp⟩ := List.mem_flatMap.1 hp
      obtain ⟨b, hb, rfl⟩ := List.mem_map.1 hp
      exact hR k (List.mem_range.1 hk) b hb

/-! ## Merged field periods -/

namespace SameDevice

variable {N : ℕ} {Q Q' : FieldProblem} (h : SameDevice N Q Q')
include h

theorem N_ne : N ≠ 0 := by
  rintro rfl
  exact h.nfp_ne (by rw [h.nfp, zero_mul])

theorem nfp'_ne : Q'.cp.surf.nfp ≠ 0 := by
  intro h0
  exact h.nfp_ne (by rw [h.nfp, h0, mul_zero])

theorem moved (k : ℕ) : MovedCp (k / Q.cp.surf.nfp) 0 Q.cp Q'.cp := by
  have m : MovedSurface (k / Q.cp.surf.nfp) 0 ⟨Q.cp.surf, Q.cp.wdofs, [], []⟩ ⟨Q'.cp.surf, Q'.cp.wdofs, [], []⟩ := by
    refine ⟨fun p x => ?_, rfl, rfl⟩
    have := C39_field_period Q.cp.surf h.nfp_ne Q.cp.wdofs 0 0 p x k
    rw [add_zero, h.winding]
    push_cast at this
    rw [mul_div_assoc] at this
    exact this
  exact ⟨m.dash, h.G, h.I⟩

omit h in
theorem Phi_period (P : CpParams) (hn : P.surf.nfp ≠ 0) (c : List ℝ) (p x : ℝ) (k : ℕ) : P.Phi c (p + k / P.surf.nfp) x = P.Phi c p x := by
  have hn' : (P.surf.nfp : ℝ) ≠ 0 := by exact_mod_cast hn
  have e : ∀ r : ℤ × ℤ × ℤ, P.angle (p + k / P.surf.nfp) x r = P.angle p x r + ((-(r.2.1 * k) : ℤ) : ℝ) * (2 * π) := by
    intro r
    simp only [angle, CpParams.nfp]
    push_cast
    field_simp
    ring
  rw [CpParams.Phi, CpParams.Phi, trig, trig]
  congr 1
  exact List.map_congr_left fun r _ => by rw [e, sinOrCos_periodic]

theorem turned {c c' : List ℝ} (hc : SamePotential Q Q' c c') (k : ℕ) : Turned (k / Q.cp.surf.nfp) Q Q' c c' := by
  obtain ⟨m, hm, hw⟩ := h.uniform
  have hn' : (Q.cp.surf.nfp : ℝ) ≠ 0 := by exact_mod_cast h.nfp_ne
  have hm' : (m : ℝ) ≠ 0 := by positivity
  refine ⟨h.moved k, fun p x => ?_, fun p x => ?_, h.nfp'_ne, ⟨Q.cp.surf.nfp * m, k * m, hw, by push_cast; field_simp⟩, h.wPhis, h.wThetas⟩
  · rw [hc, Phi_period Q.cp h.nfp_ne]
  · have hp : Q.plasma.shape.nfp ≠ 0 := by rw [h.plasma_nfp]; exact h.nfp_ne
    have := C39_field_period Q.plasma.shape hp Q.plasma.dofs 0 0 p x k
    rw [h.plasma]
    push_cast at this
    rw [mul_div_assoc, h.plasma_nfp] at this
    exact this

theorem evalGrid_eq : Q'.evalGrid = (List.range N).flatMap fun k : ℕ => Q.evalGrid.map fun q => (q.1 + (k : ℝ) * (1 / Q.cp.surf.nfp), q.2) := by
  rw [FieldProblem.evalGrid, h.ePhis, h.eThetas, gridPoints_copies]
  rfl

theorem plasmaZip_eq : Q'.plasmaGrid.zip Q'.bPlasma = (List.range N).flatMap fun k : ℕ =>
    (Q.plasmaGrid.zip Q.bPlasma).map fun x => ((x.1.1 + (k : ℝ) * (1 / Q.cp.surf.nfp), x.1.2), x.2) := by
  rw [FieldProblem.plasmaGrid, h.pPhis, h.pThetas, gridPoints_copies, h.bPlasma, zip_copies]
  · rfl
  · rw [h.bPlasma_length, gridPoints]
    simp [List.length_flatMap]

omit h in
theorem zero : SamePotential Q Q' (zeroPotential Q) (zeroPotential Q') := fun p x => by
  rw [CpParams.Phi, CpParams.Phi, zeroPotential, zeroPotential, app_zero_list, app_zero_list]

end SameDevice

/-- Enough points for a step of the grids. -/
theorem MergedPeriods.tiled {N : ℕ} {Q Q' : FieldProblem} (h : MergedPeriods N Q Q') {c c' : List ℝ} (hc : SamePotential Q Q' c c') : TiledProblem N Q Q' c c' := by
  refine ⟨h.N_ne, h.nfp, h.G, ?_, ?_, ?_, ?_⟩
  · rw [h.evalGrid_eq]
    refine tiles_copies N _ (fun (k : ℕ) (q : ℝ × ℝ) => (q.1 + (k : ℝ) * (1 / Q.cp.surf.nfp), q.2)) fun k _ q _ => ?_
    rw [mul_one_div]
    exact (h.turned hc k).samePoint q.1 q.2
  · rw [h.ePhis, h.eThetas, gridStep_copies h.N_ne _ h.two_eval]
  · rw [h.plasmaZip_eq]
    refine tiles_copies N _ (fun (k : ℕ) (x : (ℝ × ℝ) × ℝ) => ((x.1.1 + (k : ℝ) * (1 / Q.cp.surf.nfp), x.1.2), x.2)) fun k _ x _ => ?_
    rw [mul_one_div]
    exact (h.turned hc k).samePlasmaPoint x.1.1 x.1.2 x.2
  · rw [h.pPhis, h.pThetas, gridStep_copies h.N_ne _ h.two_plasma]

end Verif
