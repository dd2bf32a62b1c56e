import Verif.Model.Generate
import Verif.Props.Polygon
import Verif.Props.WindingSurface

/-!
# C171: the second fit of a generator always has exactly one solution
-/

namespace Verif

open Finset

theorem edgesOverlap_symm (n a b : ℕ) : edgesOverlap n a b ↔ edgesOverlap n b a := by
  unfold edgesOverlap
  constructor
  · rintro (h | h | h)
    · exact .inl h.symm
    · exact .inr (.inr h.symm)
    · exact .inr (.inl h.symm)
  · rintro (h | h | h)
    · exact .inl h.symm
    · exact .inr (.inr h.symm)
    · exact .inr (.inl h.symm)

/-- **C171.** Whatever the polygon is, at least one vertex is kept. -/
theorem C171_some_vertex_kept {n : ℕ} (hn : 0 < n) (P : ℕ → ℝ × ℝ) : ∃ j < n, polygonWeight n P j = 1 := by
  by_contra hc
  push Not at hc
  obtain ⟨hp, hp0⟩ := C50_weight_parity n hn P
  have c0 : crossingEdges n P 0 = 0 := by simp [crossingEdges]
  by_cases h0 : edgeCrosses n P 0
  · obtain ⟨b, hb, hi, ho⟩ := id h0
    have hbc : edgeCrosses n P b := ⟨0, hn, (C49_symmetric _ _ _ _).1.1 hi, fun h => ho ((edgesOverlap_symm n _ _).1 h)⟩
    have hb0 : b ≠ 0 := fun h => ho (.inl h.symm)
    have hbn : b + 1 < n := by
      by_contra h
      refine ho (.inr (.inl ?_))
      rw [show b + 1 = n by omega, Nat.mod_self]
    have h1 := mt (hp b (by omega) hb).2 (hc b hb)
    have h2 := mt (hp (b + 1) (by omega) hbn).2 (hc (b + 1) hbn)
    rw [crossingEdges_succ, if_pos hbc, Nat.even_add_one, not_not] at h2
    exact h1 h2
  · by_cases h1 : n = 1
    · subst h1
      refine hc 0 hn (hp0.2 ?_)
      rw [show (1 : ℕ) = 0 + 1 from rfl, crossingEdges_succ, if_neg h0, c0]
      exact Even.zero
    · refine hc 1 (by omega) ((hp 1 one_pos (by omega)).2 ?_)
      rw [show (1 : ℕ) = 0 + 1 from rfl, crossingEdges_succ, if_neg h0, c0]
      exact Even.zero

/-- **C171.** In every cross section of the second step at least one sample has a weight. -/
theorem C171_arc_sample_kept (S : SurfaceShape) (dofs : List ℝ) {nPhi nTheta tor pol i : ℕ} (hi : i < interpRows S.stellsym nPhi tor)
    (hn : 0 < nTheta * pol) :
    ∃ p ∈ arcSamples S dofs nPhi nTheta tor pol, p.phi = interpPhi S.nfp nPhi tor i ∧ p.w = 1 := by
  obtain ⟨j, hj, hw⟩ := C171_some_vertex_kept hn (sectionPoint S dofs nPhi nTheta tor pol i)
  refine ⟨_, List.mem_flatMap.2 ⟨i, List.mem_range.2 hi, List.mem_map.2 ⟨j, List.mem_range.2 hj, rfl⟩⟩, rfl, hw⟩

/-- **C171.** With the arc length angles the second fit has exactly one solution, for every plasma, distance and resolution. -/
theorem C171_arc_fit_unique (S : SurfaceShape) (dofs : List ℝ) {lam : ℝ} (hl : 0 < lam) {nPhi nTheta tor pol : ℕ}
    (hr : 0 < interpRows S.stellsym nPhi tor) (hn : 0 < nTheta * pol) : ∃! x, S.IsFit lam (arcSamples S dofs nPhi nTheta tor pol) x := by
  obtain ⟨p, hp, -, hw⟩ := C171_arc_sample_kept S dofs hr hn
  exact C52_fit_exists_unique S lam hl _ ⟨p, hp, by rw [hw]; exact one_ne_zero⟩

theorem mapM_ok_mem {α β : Type} {f : α → Except PyErr β} {l : List α} {r : List β} (h : l.mapM f = .ok r) {x : α} (hx : x ∈ l) :
    ∃ y ∈ r, f x = .ok y := by
  induction l generalizing r with
  | nil => simp at hx
  | cons z l ih =>
    rw [List.mapM_cons] at h
    cases hz : f z with
    | error e => simp [hz, bind, Except.bind] at h
    | ok y =>
      cases hl : l.mapM f with
      | error e => simp [hz, hl, bind, Except.bind] at h
      | ok ys =>
        simp only [hz, hl, bind, Except.bind, pure, Except.pure, Except.ok.injEq] at h
        subst h
        rcases List.mem_cons.1 hx with rfl | hx
        · exact ⟨y, List.mem_cons_self .., hz⟩
        · obtain ⟨w, hw, e⟩ := ih hl hx
          exact ⟨w, List.mem_cons_of_mem _ hw, e⟩

/-- **C171.** The same with the angles around a centre, whenever the samples can be computed at all. -/
theorem C171_atan_fit_unique (G : PlasmaGrid) (S : SurfaceShape) (dofs : List ℝ) {lam : ℝ} (hl : 0 < lam) {tor pol : ℕ} {pts : List FitPoint}
    (hr : 0 < interpRows S.stellsym G.nPhi tor) (hn : 0 < G.nTheta * pol) (hp : atanSamples G S dofs tor pol = .ok pts) :
    ∃! x, S.IsFit lam pts x := by
  unfold atanSamples at hp
  generalize ho : List.mapM (m := Except PyErr) (β := List FitPoint) _ _ = o at hp
  cases o with
  | error e => simp [bind, Except.bind] at hp
  | ok rows =>
    simp only [bind, Except.bind, Except.ok.injEq] at hp
    subst hp
    obtain ⟨row, hrow, e⟩ := mapM_ok_mem ho (x := 0) (List.mem_range.2 hr)
    simp only [bind, Except.bind] at e
    cases hc : centreRow S.stellsym G.nPhi tor 0 with
    | error e' => simp [hc] at e
    | ok c =>
      simp only [hc, Except.ok.injEq] at e
      subst e
      obtain ⟨j, hj, hw⟩ := C171_some_vertex_kept hn (sectionPoint S dofs G.nPhi G.nTheta tor pol 0)
      refine C52_fit_exists_unique S lam hl _ ⟨_, List.mem_flatten.2 ⟨_, hrow, List.mem_map.2 ⟨j, List.mem_range.2 hj, rfl⟩⟩, ?_⟩
      simp only [hw]
      exact one_ne_zero

/-! ## No more than one vertex may be kept -/

/-- A pentagon whose vertex 3 pokes through the first edge. -/
noncomputable def poked : ℕ → ℝ × ℝ
  | 0 => (0, 0)
  | 1 => (4, 0)
  | 2 => (4, 4)
  | 3 => (2, -1)
  | _ => (0, 4)

theorem poked_crossings : edgeCrosses 5 poked 0 ∧ ¬ edgeCrosses 5 poked 1 ∧ edgeCrosses 5 poked 2 ∧ edgeCrosses 5 poked 3 ∧
    ¬ edgeCrosses 5 poked 4 := by
  have no : ∀ a < 5, (∀ b < 5, ¬ edgesOverlap 5 a b → ¬ lineIntersection (poked a) (nextVertex 5 poked a) (poked b) (nextVertex 5 poked b)) →
      ¬ edgeCrosses 5 poked a := fun a _ h ⟨b, hb, hi, ho⟩ => h b hb ho hi
  refine ⟨?_, ?_, ?_, ?_, ?_⟩
  · refine ⟨2, by norm_num, ?_, by simp [edgesOverlap]⟩
    simp only [lineIntersection, lineInvDenom, lineDenom, nextVertex, poked]
    norm_num
  · apply no 1 (by norm_num)
    intro b hb ho
    simp only [edgesOverlap] at ho
    have : b = 3 ∨ b = 4 := by omega
    rcases this with rfl | rfl <;> simp only [lineIntersection, lineInvDenom, lineDenom, nextVertex, poked] <;> norm_num
  · refine ⟨0, by norm_num, ?_, by simp [edgesOverlap]⟩
    simp only [lineIntersection, lineInvDenom, lineDenom, nextVertex, poked]
    norm_num
  · refine ⟨0, by norm_num, ?_, by simp [edgesOverlap]⟩
    simp only [lineIntersection, lineInvDenom, lineDenom, nextVertex, poked]
    norm_num
  · apply no 4 (by norm_num)
    intro b hb ho
    simp only [edgesOverlap] at ho
    have : b = 1 ∨ b = 2 := by omega
    rcases this with rfl | rfl <;> simp only [lineIntersection, lineInvDenom, lineDenom, nextVertex, poked] <;> norm_num

/-- **C171.** One vertex may be all that is kept, and it may be the wrong one: of this pentagon only the vertex that pokes through the first edge
is kept, and the four vertices to which the rest of the polygon belongs are not. -/
theorem C171_only_the_tip : ∀ j < 5, polygonWeight 5 poked j = if j = 3 then 1 else 0 := by
  obtain ⟨h0, h1, h2, h3, h4⟩ := poked_crossings
  obtain ⟨hp, hp0⟩ := C50_weight_parity 5 (by norm_num) poked
  have c0 : crossingEdges 5 poked 0 = 0 := by simp [crossingEdges]
  have c1 : crossingEdges 5 poked 1 = 1 := by rw [show (1 : ℕ) = 0 + 1 from rfl, crossingEdges_succ, if_pos h0, c0]
  have c2 : crossingEdges 5 poked 2 = 1 := by rw [show (2 : ℕ) = 1 + 1 from rfl, crossingEdges_succ, if_neg h1, c1]
  have c3 : crossingEdges 5 poked 3 = 2 := by rw [show (3 : ℕ) = 2 + 1 from rfl, crossingEdges_succ, if_pos h2, c2]
  have c4 : crossingEdges 5 poked 4 = 3 := by rw [show (4 : ℕ) = 3 + 1 from rfl, crossingEdges_succ, if_pos h3, c3]
  have c5 : crossingEdges 5 poked 5 = 3 := by rw [show (5 : ℕ) = 4 + 1 from rfl, crossingEdges_succ, if_neg h4, c4]
  have z : ∀ j, polygonWeight 5 poked j ≠ 1 → polygonWeight 5 poked j = 0 := fun j h => (C50_weights_zero_or_one 5 poked j).resolve_right h
  intro j hj
  have : j = 0 ∨ j = 1 ∨ j = 2 ∨ j = 3 ∨ j = 4 := by omega
  rcases this with rfl | rfl | rfl | rfl | rfl
  · exact z 0 (by rw [ne_eq, hp0, c5]; decide)
  · exact z 1 (by rw [ne_eq, hp 1 (by norm_num) (by norm_num), c1]; decide)
  · exact z 2 (by rw [ne_eq, hp 2 (by norm_num) (by norm_num), c2]; decide)
  · exact (hp 3 (by norm_num) (by norm_num)).2 (by rw [c3]; decide)
  · exact z 4 (by rw [ne_eq, hp 4 (by norm_num) (by norm_num), c4]; decide)

/-! ## Examples -/

/-- A surface whose cross section degenerates to a line still gives exactly one fit. -/
example : ∃! x, (SurfaceShape.mk 1 true 2 1).IsFit (1 / 100000) (arcSamples ⟨1, true, 2, 1⟩ [2, 1] 4 8 2 2) x :=
  C171_arc_fit_unique _ _ (by norm_num) (by norm_num [interpRows]) (by norm_num)

/-- The same for the other generator. -/
example (G : PlasmaGrid) (h1 : 0 < G.nPhi) (h2 : 0 < G.nTheta) (pts : List FitPoint)
    (hp : atanSamples G ⟨1, false, 2, 1⟩ [2, 1] 1 1 = .ok pts) : ∃! x, (SurfaceShape.mk 1 false 2 1).IsFit (1 / 100000) pts x :=
  C171_atan_fit_unique G _ _ (by norm_num) (by simpa [interpRows] using h1) (by simpa using h2) hp

end Verif
