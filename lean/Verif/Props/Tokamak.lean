import Verif.Lemmas.Axisymmetric
import Verif.Props.AmpereTorus

/-!
# C181: on axisymmetric surfaces the net poloidal current makes a toroidal field only
-/

namespace Verif

open Real

theorem circle_sum_shift_int (g : ℝ → ℝ) (hg : ∀ x, g (x + 1) = g x) (n : ℕ) (j : ℤ) :
    ((linspace0 1 n).map fun x => g (x + j / n)).sum = ((linspace0 1 n).map g).sum := by
  obtain ⟨m, rfl | rfl⟩ := j.eq_nat_or_neg
  · have := circle_sum_shift g hg n m
    simpa only [Int.cast_natCast] using this
  · have := circle_sum_shift (fun x => g (x + ((-m : ℤ) : ℝ) / n)) (fun x => by rw [← hg (x + _)]; congr 1; ring) n m
    rw [← this]
    congr 2
    funext x
    congr 1
    push_cast
    ring

theorem circle_sum_reflect (g : ℝ → ℝ) (hg : ∀ x, g (x + 1) = g x) (n : ℕ) (j : ℤ) :
    ((linspace0 1 n).map fun x => g (j / n - x)).sum = ((linspace0 1 n).map g).sum := by
  have h := circle_sum_neg (fun x => g (x + j / n)) (fun x => by rw [← hg (x + _)]; congr 1; ring) n
  rw [circle_sum_shift_int g hg] at h
  rw [← h]
  congr 2
  funext x
  congr 1
  ring

theorem vsum_grid_reflect (n : ℕ) (j : ℤ) (thetas : List ℝ) (F : ℝ → ℝ → V3) (hF : ∀ p t, F (p + 1) t = F p t) :
    vsum ((gridPoints (linspace0 1 n) thetas).map fun q => F (j / n - q.1) q.2) =
      vsum ((gridPoints (linspace0 1 n) thetas).map fun q => F q.1 q.2) := by
  have key : ∀ f : V3 → ℝ, ((gridPoints (linspace0 1 n) thetas).map fun q => f (F (j / n - q.1) q.2)).sum =
      ((gridPoints (linspace0 1 n) thetas).map fun q => f (F q.1 q.2)).sum := by
    intro f
    rw [gridPoints_sum, gridPoints_sum]
    exact circle_sum_reflect (fun p => (thetas.map fun t => f (F p t)).sum) (fun p => by simp only [hF]) n j
  simp only [vsum, List.map_map, Function.comp_def]
  rw [key V3.x, key V3.y, key V3.z]

theorem planeFlip_vsum (a : ℝ) {β : Type} (l : List β) (f : β → V3) : vsum (l.map fun q => planeFlip a (f q)) = planeFlip a (vsum (l.map f)) := by
  induction l with
  | nil => ext <;> simp [vsum, planeFlip]
  | cons q l ih =>
    have h : ∀ g : β → V3, vsum ((q :: l).map g) = g q + vsum (l.map g) := fun g => by ext <;> simp [vsum]
    rw [h, h, ih]
    ext <;> simp [planeFlip] <;> ring

/-- A vector that the reflection turns round is perpendicular to the plane. -/
theorem planeFlip_odd {p : ℝ} {v : V3} (h : v = -planeFlip (2 * π * (2 * p)) v) : v = V3.dot v (toroidalUnit p) • toroidalUnit p := by
  have hc := sin_sq_add_cos_sq (2 * π * p)
  have hx := congrArg V3.x h
  have hy := congrArg V3.y h
  have hz := congrArg V3.z h
  simp only [planeFlip, V3.neg_x, V3.neg_y, V3.neg_z, show 2 * π * (2 * p) = 2 * (2 * π * p) by ring, cos_two_mul, sin_two_mul] at hx hy hz
  ext
  · simp only [V3.dot, toroidalUnit, V3.smul_x]
    linear_combination hx / 2 - v.x * hc
  · simp only [V3.dot, toroidalUnit, V3.smul_y]
    linear_combination hy / 2
  · simp only [V3.dot, toroidalUnit, V3.smul_z]
    linarith

theorem windingB_withG (Q : FieldProblem) (g : ℝ) (c : List ℝ) (y : V3) :
    (Q.withG g).windingB c y = Q.windingB c y + ((1e-7 : ℝ) / Q.wPhis.length / Q.wThetas.length * (g - Q.cp.G)) •
      vsum ((gridPoints Q.wPhis Q.wThetas).map fun q => poloidalTerm Q.cp y q.1 q.2) := by
  have h : (Q.withG g).computeB c y = (1 : ℝ) • Q.computeB c y + (g - Q.cp.G) •
      vsum ((gridPoints Q.wPhis Q.wThetas).map fun q => poloidalTerm Q.cp y q.1 q.2) :=
    FieldProblem.vsum_lin _ _ _ _ _ _ fun q => by rw [bTerm_withG]; ext <;> simp
  rw [FieldProblem.windingB, h, FieldProblem.windingB]
  simp only [FieldProblem.withG]
  ext <;> simp <;> ring

theorem poloidalTerm_odd {P : CpParams} (h : Axisymmetric P.surf P.wdofs) (n : ℕ) (thetas : List ℝ) (p a b : ℝ) (j : ℤ) (hn : n ≠ 0)
    (hj : 2 * p * n = j) :
    vsum ((gridPoints (linspace0 1 n) thetas).map fun q => poloidalTerm P (rotZ (2 * π * p) ⟨a, 0, b⟩) q.1 q.2) =
      -planeFlip (2 * π * (2 * p)) (vsum ((gridPoints (linspace0 1 n) thetas).map fun q => poloidalTerm P (rotZ (2 * π * p) ⟨a, 0, b⟩) q.1 q.2)) := by
  have hn' : (n : ℝ) ≠ 0 := by exact_mod_cast hn
  have hs : (j : ℝ) / n = 2 * p := by rw [← hj]; field_simp
  have hper : ∀ p' t, poloidalTerm P (rotZ (2 * π * p) ⟨a, 0, b⟩) (p' + 1) t = poloidalTerm P (rotZ (2 * π * p) ⟨a, 0, b⟩) p' t := by
    intro p' t
    have e : ∀ v, rotZ (2 * π * 1) v = v := fun v => by have := rotZ_two_pi_int 1 v; rwa [Int.cast_one] at this
    have := poloidalTerm_turn h (rotZ (2 * π * p) ⟨a, 0, b⟩) p' 1 t
    rwa [e, e] at this
  rw [← planeFlip_vsum, ← neg_vsum, ← vsum_grid_reflect n j thetas _ hper, hs]
  congr 1
  refine List.map_congr_left fun q _ => ?_
  have := poloidalTerm_flip h (rotZ (2 * π * p) ⟨a, 0, b⟩) q.1 (2 * p) q.2
  rw [planeFlip_plane] at this
  exact this

/-- **C181.** On an axisymmetric winding surface with a uniform winding grid, another net poloidal current changes the field in the toroidal
direction only, at every point whose toroidal angle is that of a grid point or lies half way between two. -/
theorem C181_toroidal (Q : FieldProblem) (h : Axisymmetric Q.cp.surf Q.cp.wdofs) (n : ℕ) (hn : n ≠ 0) (hw : Q.wPhis = linspace0 1 n) (g : ℝ)
    (c : List ℝ) (p a b : ℝ) (j : ℤ) (hj : 2 * p * n = j) :
    ∃ s : ℝ, (Q.withG g).windingB c (rotZ (2 * π * p) ⟨a, 0, b⟩) =
      Q.windingB c (rotZ (2 * π * p) ⟨a, 0, b⟩) + s • toroidalUnit p := by
  have e := planeFlip_odd (poloidalTerm_odd h n Q.wThetas p a b j hn hj)
  rw [← hw] at e
  rw [windingB_withG]
  generalize vsum ((gridPoints Q.wPhis Q.wThetas).map fun q => poloidalTerm Q.cp (rotZ (2 * π * p) ⟨a, 0, b⟩) q.1 q.2) = v at e
  refine ⟨(1e-7 : ℝ) / Q.wPhis.length / Q.wThetas.length * (g - Q.cp.G) * V3.dot v (toroidalUnit p), ?_⟩
  have e2 : v.x = _ ∧ v.y = _ ∧ v.z = _ := ⟨congrArg V3.x e, congrArg V3.y e, congrArg V3.z e⟩
  simp only [V3.smul_x, V3.smul_y, V3.smul_z] at e2
  generalize V3.dot v (toroidalUnit p) = d at e2
  ext
  · simp only [V3.add_x, V3.smul_x, e2.1]
    ring
  · simp only [V3.add_y, V3.smul_y, e2.2.1]
    ring
  · simp only [V3.add_z, V3.smul_z, e2.2.2]
    ring

/-- The point of an axisymmetric surface lies in the plane of its angle, and so does its normal. -/
theorem Axisymmetric.in_plane {S : SurfaceShape} {dofs : List ℝ} (h : Axisymmetric S dofs) (p t : ℝ) :
    (∃ a b, S.gamma dofs p t = rotZ (2 * π * p) ⟨a, 0, b⟩) ∧ V3.dot (S.unitnormal dofs p t) (toroidalUnit p) = 0 := by
  have hy : (S.gamma dofs 0 t).y = 0 := by simp [SurfaceShape.gamma, SurfaceShape.gammadash, SurfaceShape.yTerm]
  refine ⟨⟨(S.gamma dofs 0 t).x, (S.gamma dofs 0 t).z, ?_⟩, ?_⟩
  · rw [h]
    congr 1
    ext <;> simp [hy]
  · have hf : S.normal dofs p t = planeFlip (2 * π * (2 * p)) (S.normal dofs p t) := by
      rw [← h.flip_normal]
      congr 1
      ring
    have ho : planeFlip (2 * π * (2 * p)) (toroidalUnit p) = -toroidalUnit p := by
      have hc := sin_sq_add_cos_sq (2 * π * p)
      ext
      · simp only [planeFlip, toroidalUnit, V3.neg_x, show 2 * π * (2 * p) = 2 * (2 * π * p) by ring, cos_two_mul, sin_two_mul]
        ring
      · simp only [planeFlip, toroidalUnit, V3.neg_y, show 2 * π * (2 * p) = 2 * (2 * π * p) by ring, cos_two_mul, sin_two_mul]
        linear_combination (-2 * cos (2 * π * p)) * hc
      · simp [planeFlip, toroidalUnit]
    have hd : V3.dot (S.normal dofs p t) (toroidalUnit p) = 0 := by
      have := planeFlip_dot (2 * π * (2 * p)) (S.normal dofs p t) (toroidalUnit p)
      rw [← hf, ho, v3_dot_neg] at this
      linarith
    rw [SurfaceShape.unitnormal]
    simp only [V3.dot, V3.smul_x, V3.smul_y, V3.smul_z] at hd ⊢
    linear_combination (1 / (S.normal dofs p t).norm) * hd

/-- **C181.** With an axisymmetric plasma and an axisymmetric winding surface, the normal field of the winding surface does not depend on the
net poloidal current, whatever the potential, at plasma points whose toroidal angle is that of a point of the winding grid or lies half
way between two. -/
theorem C181_normal_field (Q : FieldProblem) (h : Axisymmetric Q.cp.surf Q.cp.wdofs) (hp : Axisymmetric Q.plasma.shape Q.plasma.dofs)
    (n : ℕ) (hn : n ≠ 0) (hw : Q.wPhis = linspace0 1 n) (g : ℝ) (c : List ℝ) (p t : ℝ) (j : ℤ) (hj : 2 * p * n = j) :
    (Q.withG g).bnWinding c (p, t) = Q.bnWinding c (p, t) := by
  obtain ⟨⟨a, b, e⟩, hd⟩ := hp.in_plane p t
  obtain ⟨s, hs⟩ := C181_toroidal Q h n hn hw g c p a b j hj
  have e1 : (Q.withG g).bnWinding c (p, t) = V3.dot (Q.plasma.shape.unitnormal Q.plasma.dofs p t)
      ((Q.withG g).windingB c (Q.plasma.shape.gamma Q.plasma.dofs p t)) := rfl
  rw [e1, FieldProblem.bnWinding, e, hs]
  simp only [V3.dot, V3.add_x, V3.add_y, V3.add_z, V3.smul_x, V3.smul_y, V3.smul_z] at hd ⊢
  linear_combination s * hd

/-- **C181.** Then the normal field, `f_B` and what minimises it do not depend on the net poloidal current. -/
theorem C181_f_B (Q : FieldProblem) (h : Axisymmetric Q.cp.surf Q.cp.wdofs) (hp : Axisymmetric Q.plasma.shape Q.plasma.dofs)
    (n : ℕ) (hn : n ≠ 0) (hw : Q.wPhis = linspace0 1 n) (hq : ∀ p ∈ Q.plasma.phis, ∃ j : ℤ, 2 * p * n = j) (g : ℝ) (c : List ℝ) :
    (Q.withG g).bnormal c = Q.bnormal c ∧ (Q.withG g).fB c = Q.fB c := by
  have hb : (Q.withG g).bnormal c = Q.bnormal c := by
    rw [FieldProblem.bnormal, FieldProblem.bnormal]
    refine List.map_congr_left fun q hq' => ?_
    have hm : q.1 ∈ gridPoints Q.plasma.phis Q.plasma.thetas := (List.of_mem_zip (a := q.1) (b := q.2) hq').1
    rw [gridPoints, List.mem_flatMap] at hm
    obtain ⟨p, hp1, hm⟩ := hm
    obtain ⟨t, _, hm⟩ := List.mem_map.1 hm
    obtain ⟨j, hj⟩ := hq p hp1
    rw [← hm, C181_normal_field Q h hp n hn hw g c p t j hj]
  exact ⟨hb, by rw [FieldProblem.fB, hb]; rfl⟩

/-- The default grids of plasma and winding surface are aligned like this. -/
theorem C181_default_grids (nfp : ℕ) (hn : nfp ≠ 0) : defaultWindingPhi nfp = linspace0 1 (32 * nfp) ∧
    ∀ p ∈ defaultPlasmaPhi nfp, ∃ j : ℤ, 2 * p * ((32 * nfp : ℕ) : ℝ) = j := by
  refine ⟨rfl, fun p hp => ?_⟩
  have hn' : (nfp : ℝ) ≠ 0 := by exact_mod_cast hn
  rw [defaultPlasmaPhi, linspace0, List.mem_map] at hp
  obtain ⟨i, _, rfl⟩ := hp
  refine ⟨2 * i, ?_⟩
  push_cast
  field_simp

end Verif
