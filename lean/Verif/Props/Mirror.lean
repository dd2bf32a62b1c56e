import Verif.Props.Unique

/-!
# C115: assuming stellarator symmetry of the potential loses nothing
-/

namespace Verif

open Real CpParams

/-! ## The reflected coefficients -/

/-- The coefficients of the reflected potential `-Phi(-phi, -theta)`: the cosine coefficients change sign. -/
noncomputable def mirror (P : CpParams) (c : List ℝ) : List ℝ := List.zipWith (fun r x => (r.2.2 : ℝ) * x) P.rows c

theorem app_zipWith (R : List (ℤ × ℤ × ℤ)) (f g : ℤ × ℤ × ℤ → ℝ) (c : List ℝ) (h : ∀ r ∈ R, f r * (r.2.2 : ℝ) = g r) :
    app (R.map f) (List.zipWith (fun r x => (r.2.2 : ℝ) * x) R c) = app (R.map g) c := by
  induction R generalizing c with
  | nil => simp [app]
  | cons r R ih =>
    cases c with
    | nil => simp [app]
    | cons x c =>
      have := ih c fun r hr => h r (List.mem_cons_of_mem _ hr)
      simp only [app, List.map_cons, List.zipWith_cons_cons, List.sum_cons] at this ⊢
      rw [this, ← h r (List.mem_cons_self ..)]
      ring

theorem angle_neg (P : CpParams) (p t : ℝ) (r : ℤ × ℤ × ℤ) : P.angle (-p) (-t) r = -P.angle p t r := by
  simp only [angle]
  ring

/-- The potential of the reflected coefficients. -/
theorem Phi_mirror (P : CpParams) (c : List ℝ) (p t : ℝ) : P.Phi (mirror P c) (-p) (-t) = -P.Phi c p t := by
  have : -P.Phi c p t = app (P.rows.map fun r => -sinOrCos (P.angle p t r) r.2.2) c := by
    rw [Phi, trig]
    generalize P.rows = R
    induction R generalizing c with
    | nil => simp [app]
    | cons r R ih =>
      cases c with
      | nil => simp [app]
      | cons x c =>
        have := ih c
        simp only [app, List.map_cons, List.zipWith_cons_cons, List.sum_cons, neg_add] at this ⊢
        rw [this]
        ring
  rw [this, Phi, trig, mirror]
  refine app_zipWith _ _ _ _ fun r hr => ?_
  rw [angle_neg]
  rcases (mem_rows P r hr).1 with h | h <;> simp [h, sinOrCos]

theorem ops_mirror (P : CpParams) (c : List ℝ) (p t : ℝ) :
    app (P.opPhi (-p) (-t)) (mirror P c) = app (P.opPhi p t) c ∧
      app (P.opTheta (-p) (-t)) (mirror P c) = app (P.opTheta p t) c := by
  constructor
  · rw [opPhi_eq, opPhi_eq, mirror]
    refine app_zipWith _ _ _ _ fun r hr => ?_
    simp only [rPhi, angle_neg]
    rcases (mem_rows P r hr).1 with h | h <;> simp [h, sinOrCos]
  · rw [opTheta_eq, opTheta_eq, mirror]
    refine app_zipWith _ _ _ _ fun r hr => ?_
    simp only [rTheta, angle_neg]
    rcases (mem_rows P r hr).1 with h | h <;> simp [h, sinOrCos]

/-- The current of the reflected coefficients is the reflected current. -/
theorem K_mirror (P : CpParams) (hs : P.surf.stellsym = true) (c : List ℝ) (p t : ℝ) :
    P.K (mirror P c) (-p) (-t) = -flipX (P.K c p t) := by
  obtain ⟨h1, h2⟩ := ops_mirror P c p t
  obtain ⟨_, g1, g2⟩ := dg_flip P.surf hs P.wdofs p t
  have hN : P.N (-p) (-t) = flipX (P.N p t) := normal_flip P.surf hs P.wdofs p t
  rw [K_eq, K_eq, h1, h2, invN, hN, flipX_norm, dg1, dg2, g1, g2]
  ext <;> simp only [flipX, invN, dg1, dg2, V3.neg_x, V3.neg_y, V3.neg_z, V3.smul_x, V3.smul_y, V3.smul_z, V3.sub_x, V3.sub_y,
    V3.sub_z] <;> ring

theorem bTerm_mirror (Q : FieldProblem) (hs : Q.cp.surf.stellsym = true) (c : List ℝ) (x : V3) (p t : ℝ) :
    Q.bTerm (mirror Q.cp c) (flipX x) (-p, -t) = -flipX (Q.bTerm c x (p, t)) := by
  have hr : flipX x - flipX (Q.cp.surf.gammadash Q.cp.wdofs 0 0 p t) = flipX (x - Q.cp.surf.gammadash Q.cp.wdofs 0 0 p t) := by
    ext <;> simp only [flipX, V3.sub_x, V3.sub_y, V3.sub_z] <;> ring
  simp only [FieldProblem.bTerm, SurfaceShape.gamma]
  rw [(dg_flip _ hs _ p t).1, normal_flip _ hs, K_mirror _ hs, hr, flipX_normSq, flipX_norm]
  ext <;> simp only [flipX, V3.cross, V3.neg_x, V3.neg_y, V3.neg_z, V3.smul_x, V3.smul_y, V3.smul_z, V3.sub_x, V3.sub_y,
    V3.sub_z] <;> ring

theorem bTerm_phi_periodic (Q : FieldProblem) (hn : Q.cp.surf.nfp ≠ 0) (c : List ℝ) (y : V3) (p t : ℝ) :
    Q.bTerm c y (p + 1, t) = Q.bTerm c y (p, t) := by
  have hn' : (Q.cp.surf.nfp : ℝ) ≠ 0 := by exact_mod_cast hn
  have := bTerm_rot Q hn c y p t (Q.cp.surf.nfp : ℤ)
  rw [rotZ_full _ hn, rotZ_full _ hn] at this
  rw [← this]
  congr 2
  push_cast
  field_simp

theorem K_theta_periodic (P : CpParams) (c : List ℝ) (p t : ℝ) : P.K c p (t + 1) = P.K c p t := by
  have g := fun a b => C39_theta_periodic P.surf P.wdofs a b p t 1
  simp only [Int.cast_one] at g
  have hrow : P.opPhi p (t + 1) = P.opPhi p t ∧ P.opTheta p (t + 1) = P.opTheta p t := by
    have h : ∀ r : ℤ × ℤ × ℤ, P.angle p (t + 1) r = P.angle p t r + ((r.1 : ℤ) : ℝ) * (2 * π) := by
      intro r
      simp only [angle]
      ring
    rw [opPhi_eq, opPhi_eq, opTheta_eq, opTheta_eq]
    exact ⟨List.map_congr_left fun r _ => by simp only [rPhi, h, sinOrCos_periodic],
      List.map_congr_left fun r _ => by simp only [rTheta, h, sinOrCos_periodic]⟩
  rw [K_eq, K_eq, hrow.1, hrow.2, invN, N, dg1, dg2, g, g]
  rfl

theorem bTerm_theta_periodic (Q : FieldProblem) (c : List ℝ) (y : V3) (p t : ℝ) : Q.bTerm c y (p, t + 1) = Q.bTerm c y (p, t) := by
  have g := fun a b => C39_theta_periodic Q.cp.surf Q.cp.wdofs a b p t 1
  simp only [Int.cast_one] at g
  simp only [FieldProblem.bTerm, SurfaceShape.gamma, SurfaceShape.normal, g, K_theta_periodic]

/-- The field of the reflected coefficients is the reflected field. -/
theorem windingB_mirror (Q : FieldProblem) (hn : Q.cp.surf.nfp ≠ 0) (hs : Q.cp.surf.stellsym = true) (k l : ℕ)
    (hw : Q.wPhis = linspace0 1 k) (ht : Q.wThetas = linspace0 1 l) (c : List ℝ) (x : V3) :
    Q.windingB (mirror Q.cp c) (flipX x) = -flipX (Q.windingB c x) := by
  have hB : Q.computeB (mirror Q.cp c) (flipX x) = -flipX (Q.computeB c x) := by
    rw [FieldProblem.computeB, FieldProblem.computeB, vsum_grid, vsum_grid, hw, ht]
    ext
    · simp only [V3.neg_x, flipX]
      rw [← linspace_neg_grid k l (fun q => (Q.bTerm (mirror Q.cp c) ⟨x.x, -x.y, -x.z⟩ q).x)
        (fun p t => by rw [bTerm_phi_periodic Q hn]) (fun p t => by rw [bTerm_theta_periodic])]
      have := fun p t => congrArg V3.x (bTerm_mirror Q hs c x p t)
      simp only [flipX, V3.neg_x] at this
      simp only [this, sum_map_neg]
    · simp only [V3.neg_y, flipX, neg_neg]
      rw [← linspace_neg_grid k l (fun q => (Q.bTerm (mirror Q.cp c) ⟨x.x, -x.y, -x.z⟩ q).y)
        (fun p t => by rw [bTerm_phi_periodic Q hn]) (fun p t => by rw [bTerm_theta_periodic])]
      have := fun p t => congrArg V3.y (bTerm_mirror Q hs c x p t)
      simp only [flipX, V3.neg_y, neg_neg] at this
      simp only [this]
    · simp only [V3.neg_z, flipX, neg_neg]
      rw [← linspace_neg_grid k l (fun q => (Q.bTerm (mirror Q.cp c) ⟨x.x, -x.y, -x.z⟩ q).z)
        (fun p t => by rw [bTerm_phi_periodic Q hn]) (fun p t => by rw [bTerm_theta_periodic])]
      have := fun p t => congrArg V3.z (bTerm_mirror Q hs c x p t)
      simp only [flipX, V3.neg_z, neg_neg] at this
      simp only [this]
  rw [FieldProblem.windingB, FieldProblem.windingB, hB]
  ext <;> simp only [flipX, V3.neg_x, V3.neg_y, V3.neg_z, V3.smul_x, V3.smul_y, V3.smul_z] <;> ring

theorem bnWinding_mirror (Q : FieldProblem) (hn : Q.cp.surf.nfp ≠ 0) (hs : Q.cp.surf.stellsym = true)
    (hp : Q.plasma.shape.stellsym = true) (k l : ℕ) (hw : Q.wPhis = linspace0 1 k) (ht : Q.wThetas = linspace0 1 l) (c : List ℝ)
    (p t : ℝ) : Q.bnWinding (mirror Q.cp c) (-p, -t) = -Q.bnWinding c (p, t) := by
  have h := windingB_mirror Q hn hs k l hw ht c (Q.plasma.shape.gamma Q.plasma.dofs p t)
  simp only [FieldProblem.bnWinding, SurfaceShape.unitnormal]
  rw [C39_position_symmetry _ hp, normal_flip _ hp, flipX_norm]
  have e : (⟨(Q.plasma.shape.gamma Q.plasma.dofs p t).x, -(Q.plasma.shape.gamma Q.plasma.dofs p t).y,
    -(Q.plasma.shape.gamma Q.plasma.dofs p t).z⟩ : V3) = flipX (Q.plasma.shape.gamma Q.plasma.dofs p t) := rfl
  rw [e, h]
  simp only [V3.dot, flipX, V3.smul_x, V3.smul_y, V3.smul_z, V3.neg_x, V3.neg_y, V3.neg_z]
  ring

/-! ## Reflected grids -/

theorem linspace0_scale (s : ℝ) (n : ℕ) : linspace0 s n = (linspace0 1 n).map fun x => s * x := by
  simp only [linspace0, List.map_map]
  refine List.map_congr_left fun j _ => ?_
  simp only [Function.comp_apply]
  ring

/-- Sums over a uniform grid of one period do not change when the argument is reflected. -/
theorem period_sum_neg (s : ℝ) (A B : ℕ) (F : ℝ × ℝ → ℝ) (hp : ∀ p t, F (p + s, t) = F (p, t))
    (ht : ∀ p t, F (p, t + 1) = F (p, t)) :
    ((gridPoints (linspace0 s A) (linspace0 1 B)).map fun q => F (-q.1, -q.2)).sum =
      ((gridPoints (linspace0 s A) (linspace0 1 B)).map F).sum := by
  rw [gridPoints_sum, gridPoints_sum, linspace0_scale s A, List.map_map, List.map_map]
  simp only [Function.comp_def]
  have := linspace_neg_grid A B (fun q => F (s * q.1, q.2)) (fun p t => by
    show F (s * (p + 1), t) = F (s * p, t)
    rw [mul_add, mul_one, hp]) (fun p t => ht _ t)
  simp only [mul_neg] at this
  exact this

/-- The data of a stellarator symmetric problem: symmetric surfaces with the same number of field periods, uniform grids, and
an odd plasma field. The potential need not be symmetric. -/
structure IsSymmetricData (Q : FieldProblem) : Prop where
  nfp : Q.cp.surf.nfp ≠ 0
  winding : Q.cp.surf.stellsym = true
  plasma : Q.plasma.shape.stellsym = true
  same_nfp : Q.plasma.shape.nfp = Q.cp.surf.nfp
  winding_grid : ∃ k l, Q.wPhis = linspace0 1 (Q.cp.surf.nfp * k) ∧ Q.wThetas = linspace0 1 l
  eval_grid : ∃ A B, Q.ePhis = linspace0 (1 / Q.cp.surf.nfp) A ∧ Q.eThetas = linspace0 1 B
  plasma_grid : ∃ A B, Q.plasma.phis = linspace0 (1 / Q.cp.surf.nfp) A ∧ Q.plasma.thetas = linspace0 1 B
  plasma_field : ∃ b : ℝ × ℝ → ℝ, Q.bPlasma = (gridPoints Q.plasma.phis Q.plasma.thetas).map b ∧
    (∀ p t, b (-p, -t) = -b (p, t)) ∧ (∀ p t, b (p + 1 / Q.cp.surf.nfp, t) = b (p, t)) ∧ ∀ p t, b (p, t + 1) = b (p, t)

theorem normal_periodic (S : SurfaceShape) (hn : S.nfp ≠ 0) (dofs : List ℝ) (p t : ℝ) :
    (S.normal dofs (p + 1 / S.nfp) t).norm = (S.normal dofs p t).norm ∧ (S.normal dofs p (t + 1)).norm = (S.normal dofs p t).norm := by
  have g := fun a b => C39_field_period S hn dofs a b p t 1
  have g' := fun a b => C39_theta_periodic S dofs a b p t 1
  simp only [Int.cast_one, mul_one] at g g'
  simp only [SurfaceShape.normal, g, g', rotZ_cross, rotZ_norm, true_and]

theorem normal_norm_neg (S : SurfaceShape) (hs : S.stellsym = true) (dofs : List ℝ) (p t : ℝ) :
    (S.normal dofs (-p) (-t)).norm = (S.normal dofs p t).norm := by rw [normal_flip S hs, flipX_norm]

/-- **C115 (the objectives do not see the reflection).** With symmetric data, reflecting the potential changes neither `f_B`
nor `f_K`. -/
theorem C115_objectives_reflect (Q : FieldProblem) (h : IsSymmetricData Q) (c : List ℝ) :
    Q.fB (mirror Q.cp c) = Q.fB c ∧ Q.fK (mirror Q.cp c) = Q.fK c := by
  obtain ⟨k, l, hw1, hw2⟩ := h.winding_grid
  constructor
  · obtain ⟨A, B, hA, hB⟩ := h.plasma_grid
    obtain ⟨b, hb, hodd, hb1, hb2⟩ := h.plasma_field
    have key : ∀ d, Q.fB d = ((gridPoints Q.plasma.phis Q.plasma.thetas).map fun q => (Q.bnWinding d q + b q) ^ 2 / 2 *
        (gridStep Q.plasma.phis * gridStep Q.plasma.thetas * (Q.plasma.shape.normal Q.plasma.dofs q.1 q.2).norm)).sum * Q.cp.nfp := by
      intro d
      rw [fB_eq, hb, GridSurface.da]
      generalize gridStep Q.plasma.phis * gridStep Q.plasma.thetas = st
      generalize gridPoints Q.plasma.phis Q.plasma.thetas = L
      congr 2
      induction L with
      | nil => simp
      | cons q L ih => simp only [List.map_cons, List.zip_cons_cons, List.zipWith_cons_cons, ih]
    rw [key, key]
    congr 1
    rw [hA, hB]
    rw [← period_sum_neg (1 / Q.cp.surf.nfp) A B]
    · congr 1
      refine List.map_congr_left fun q _ => ?_
      have e1 := bnWinding_mirror Q h.nfp h.winding h.plasma _ l hw1 hw2 c q.1 q.2
      have e2 := hodd q.1 q.2
      rw [e1, e2, normal_norm_neg _ h.plasma]
      ring
    · intro p t
      have e := normal_periodic Q.plasma.shape (by rw [h.same_nfp]; exact h.nfp) Q.plasma.dofs p t
      rw [h.same_nfp] at e
      simp only [C48_normal_field_periodic Q h.nfp h.same_nfp k hw1, hb1, e.1]
    · intro p t
      have e := normal_periodic Q.plasma.shape (by rw [h.same_nfp]; exact h.nfp) Q.plasma.dofs p t
      have g := fun a b => C39_theta_periodic Q.plasma.shape Q.plasma.dofs a b p t 1
      simp only [Int.cast_one] at g
      simp only [FieldProblem.bnWinding, SurfaceShape.gamma, SurfaceShape.unitnormal, SurfaceShape.normal, g, hb2]
  · obtain ⟨A, B, hA, hB⟩ := h.eval_grid
    have key : ∀ d, Q.fK d = ((gridPoints Q.ePhis Q.eThetas).map fun q => Q.cp.K2 d q.1 q.2 / 2 *
        (gridStep Q.ePhis * gridStep Q.eThetas * (Q.cp.surf.normal Q.cp.wdofs q.1 q.2).norm)).sum * Q.cp.nfp := by
      intro d
      rw [fK_eq, GridSurface.da, FieldProblem.evalSurface, List.zipWith_map, List.zipWith_self]
    rw [key, key]
    congr 1
    rw [hA, hB]
    rw [← period_sum_neg (1 / Q.cp.surf.nfp) A B]
    · congr 1
      refine List.map_congr_left fun q _ => ?_
      rw [K2, K_mirror Q.cp h.winding, normal_norm_neg _ h.winding, K2]
      have : (-flipX (Q.cp.K c q.1 q.2)).normSq = (Q.cp.K c q.1 q.2).normSq := by
        simp [V3.normSq, flipX]
      rw [this]
    · intro p t
      have e := normal_periodic Q.cp.surf h.nfp Q.cp.wdofs p t
      have eK := Q.cp.K_field_period h.nfp (mirror Q.cp c) p t 1
      simp only [Int.cast_one] at eK
      simp only [K2, eK, rotZ_normSq, e.1]
    · intro p t
      have e := normal_periodic Q.cp.surf h.nfp Q.cp.wdofs p t
      simp only [K2, K_theta_periodic, e.2]

/-! ## The minimisers -/

theorem mirror_length (P : CpParams) (c : List ℝ) (hc : c.length = (cpNdofs P.stellsym P.mpol P.ntor).1) :
    (mirror P c).length = (cpNdofs P.stellsym P.mpol P.ntor).1 := by
  rw [mirror, List.length_zipWith, rows_length, hc, min_self]

/-- **C115 (solutions are symmetric).** With symmetric data, a positive weight and a resolving evaluation grid, every minimiser of
`f_B + w f_K` over all potentials is stellarator symmetric up to the constant: all its cosine coefficients vanish. -/
theorem C115_minimiser_symmetric (Q : FieldProblem) (h : IsSymmetricData Q) (hs : Q.cp.stellsym = false) (w : ℝ) (hw : 0 < w)
    {A B : ℕ} (hA2 : 2 ≤ A) (hB2 : 2 ≤ B) (hA : 2 * Q.cp.ntor < A) (hB : 2 * Q.cp.mpol < B)
    (heP : Q.ePhis = linspace0 (1 / Q.cp.surf.nfp) A) (heT : Q.eThetas = linspace0 1 B)
    (hp : 0 ≤ gridStep Q.plasma.phis * gridStep Q.plasma.thetas)
    (hN : ∀ q ∈ periodGrid Q.cp A B, Q.cp.N q.1 q.2 ≠ 0) (c : List ℝ)
    (hc : IsBest (regObjective Q w) (cpNdofs Q.cp.stellsym Q.cp.mpol Q.cp.ntor).1 c) :
    ∀ i, (cpNdofs Q.cp.stellsym Q.cp.mpol Q.cp.ntor).2 < i → i < (cpNdofs Q.cp.stellsym Q.cp.mpol Q.cp.ntor).1 → c[i]? = some 0 := by
  have he : 0 < gridStep Q.ePhis * gridStep Q.eThetas := by
    rw [heP, heT, gridStep_linspace0 _ _ hA2, gridStep_linspace0 _ _ hB2]
    have : 0 < Q.cp.surf.nfp := Nat.pos_of_ne_zero h.nfp
    positivity
  obtain ⟨h1, h2⟩ := C115_objectives_reflect Q h c
  have hm : IsBest (regObjective Q w) (cpNdofs Q.cp.stellsym Q.cp.mpol Q.cp.ntor).1 (mirror Q.cp c) := by
    refine ⟨mirror_length _ _ hc.1, fun d hd => ?_⟩
    rw [regObjective, h1, h2]
    exact hc.2 d hd
  have hK : ∀ q ∈ periodGrid Q.cp A B, Q.cp.K c q.1 q.2 = Q.cp.K (mirror Q.cp c) q.1 q.2 := by
    intro q hq
    refine C113_minimiser_current Q w hw _ h.nfp hp he c _ hc hm q ?_ (hN q hq)
    rw [heP, heT]
    exact hq
  have hagree := (C113_current_determines_potential Q.cp h.nfp hA hB hN c _ hc.1 hm.1).2.1 hK
  intro i hi1 hi2
  have hr : i < Q.cp.rows.length := by rw [rows_length]; exact hi2
  have hcl : i < c.length := by rw [hc.1]; exact hi2
  have hcos : Q.cp.rows[i].2.2 = -1 := by
    have hk : (cpNdofs Q.cp.stellsym Q.cp.mpol Q.cp.ntor).2 = (modePairs (makeMn Q.cp.mpol Q.cp.ntor true)).length := by
      rw [(C36_nonsymmetric_layout Q.cp.mpol Q.cp.ntor).2, hs]
    have hm : Q.cp.rows[i] ∈ ((0, 0, -1) :: (modePairs (makeMn Q.cp.mpol Q.cp.ntor true)).map fun t => (t.1, t.2, (-1 : ℤ))) := by
      have : ∀ hr' : i < Q.cp.rows.length, Q.cp.rows[i] ∈
          ((0, 0, -1) :: (modePairs (makeMn Q.cp.mpol Q.cp.ntor true)).map fun t => (t.1, t.2, (-1 : ℤ))) := by
        simp only [rows_general Q.cp hs]
        intro hr'
        rw [List.getElem_append_right (by rw [List.length_map]; omega)]
        exact List.getElem_mem _
      exact this hr
    rcases List.mem_cons.1 hm with h | h
    · rw [h]
    · obtain ⟨t, -, ht⟩ := List.mem_map.1 h
      rw [← ht]
  have := hagree i (by rintro ⟨-, h⟩; omega)
  rw [mirror, List.getElem?_eq_getElem hcl, List.getElem?_eq_getElem (by simp; omega)] at this
  simp only [List.getElem_zipWith, hcos, Option.some.injEq] at this
  rw [List.getElem?_eq_getElem hcl]
  congr 1
  push_cast at this
  linarith

/-- The same problem with a stellarator symmetric potential. -/
def symmetrised (Q : FieldProblem) : FieldProblem := { Q with cp := { Q.cp with stellsym := true } }

theorem app_append (a b c d : List ℝ) (h : a.length = c.length) : app (a ++ b) (c ++ d) = app a c + app b d := by
  rw [app, List.zipWith_append h, List.sum_append]
  rfl

theorem app_replicate_zero (a : List ℝ) (n : ℕ) : app a (List.replicate n 0) = 0 := by
  induction a generalizing n with
  | nil => simp [app]
  | cons x a ih =>
    cases n with
    | zero => simp [app]
    | succ n =>
      have := ih n
      simp only [app] at this ⊢
      simp [List.replicate_succ, this]

/-- A symmetric potential in the general basis. -/
theorem K_embed (P : CpParams) (hs : P.stellsym = false) (s : List ℝ) (d : ℝ) (n : ℕ)
    (hl : s.length = (cpNdofs P.stellsym P.mpol P.ntor).2) (p t : ℝ) :
    P.K (s ++ d :: List.replicate n 0) p t = ({ P with stellsym := true } : CpParams).K s p t := by
  have hk : s.length = (modePairs (makeMn P.mpol P.ntor true)).length := by
    rw [(C36_nonsymmetric_layout P.mpol P.ntor).2, hl, hs]
  have e1 : app (P.opPhi p t) (s ++ d :: List.replicate n 0) = app (({ P with stellsym := true } : CpParams).opPhi p t) s := by
    rw [opPhi_eq, opPhi_eq, rows_general P hs, rows_stellsym ({ P with stellsym := true } : CpParams) rfl, List.map_append,
      app_append _ _ _ _ (by simp [hk]), List.map_cons]
    have : ∀ x : ℝ, ∀ a b : List ℝ, app (x :: a) (d :: b) = x * d + app a b := fun x a b => by simp [app]
    rw [this, app_replicate_zero]
    have h0 : P.rPhi p t (0, 0, -1) = 0 := by simp [rPhi]
    rw [h0]
    simp only [zero_mul, add_zero]
    rfl
  have e2 : app (P.opTheta p t) (s ++ d :: List.replicate n 0) = app (({ P with stellsym := true } : CpParams).opTheta p t) s := by
    rw [opTheta_eq, opTheta_eq, rows_general P hs, rows_stellsym ({ P with stellsym := true } : CpParams) rfl, List.map_append,
      app_append _ _ _ _ (by simp [hk]), List.map_cons]
    have : ∀ x : ℝ, ∀ a b : List ℝ, app (x :: a) (d :: b) = x * d + app a b := fun x a b => by simp [app]
    rw [this, app_replicate_zero]
    have h0 : P.rTheta p t (0, 0, -1) = 0 := by simp [rTheta]
    rw [h0]
    simp only [zero_mul, add_zero]
    rfl
  rw [K_eq, K_eq, e1, e2]
  rfl

/-- Objectives depend on the coefficients only through the current. -/
theorem objectives_of_K (Q Q' : FieldProblem) (hsurf : Q'.cp.surf = Q.cp.surf) (hd : Q'.cp.wdofs = Q.cp.wdofs)
    (h1 : Q'.wPhis = Q.wPhis) (h2 : Q'.wThetas = Q.wThetas) (h3 : Q'.ePhis = Q.ePhis) (h4 : Q'.eThetas = Q.eThetas)
    (h5 : Q'.plasma = Q.plasma) (h6 : Q'.bPlasma = Q.bPlasma) (c d : List ℝ) (hK : ∀ p t, Q.cp.K c p t = Q'.cp.K d p t) :
    Q.fB c = Q'.fB d ∧ Q.fK c = Q'.fK d := by
  have hb : ∀ x q, Q.bTerm c x q = Q'.bTerm d x q := by
    intro x q
    simp only [FieldProblem.bTerm, hK, hsurf, hd]
  have hb' : ∀ x, Q.bTerm c x = Q'.bTerm d x := fun x => funext (hb x)
  have hnf : Q'.cp.nfp = Q.cp.nfp := by rw [CpParams.nfp, CpParams.nfp, hsurf]
  constructor
  · simp only [fB_eq, FieldProblem.bnWinding, FieldProblem.windingB, FieldProblem.computeB, hb', h1, h2, h5, h6, hnf]
  · simp only [fK_eq, K2, hK, FieldProblem.evalSurface, h3, h4, hsurf, hd, hnf]

/-- **C115 (nothing is lost).** The sine coefficients of every minimiser over all potentials are the minimiser of the problem with
a stellarator symmetric potential, with the same value. -/
theorem C115_symmetric_problem (Q : FieldProblem) (h : IsSymmetricData Q) (hs : Q.cp.stellsym = false) (w : ℝ) (hw : 0 < w)
    {A B : ℕ} (hA2 : 2 ≤ A) (hB2 : 2 ≤ B) (hA : 2 * Q.cp.ntor < A) (hB : 2 * Q.cp.mpol < B)
    (heP : Q.ePhis = linspace0 (1 / Q.cp.surf.nfp) A) (heT : Q.eThetas = linspace0 1 B)
    (hp : 0 ≤ gridStep Q.plasma.phis * gridStep Q.plasma.thetas)
    (hN : ∀ q ∈ periodGrid Q.cp A B, Q.cp.N q.1 q.2 ≠ 0) (c : List ℝ)
    (hc : IsBest (regObjective Q w) (cpNdofs Q.cp.stellsym Q.cp.mpol Q.cp.ntor).1 c) :
    IsBest (regObjective (symmetrised Q) w) (cpNdofs true Q.cp.mpol Q.cp.ntor).1
        (c.take (cpNdofs true Q.cp.mpol Q.cp.ntor).1) ∧
      regObjective (symmetrised Q) w (c.take (cpNdofs true Q.cp.mpol Q.cp.ntor).1) = regObjective Q w c := by
  have hzero := C115_minimiser_symmetric Q h hs w hw hA2 hB2 hA hB heP heT hp hN c hc
  have hn1 : (cpNdofs Q.cp.stellsym Q.cp.mpol Q.cp.ntor).2 = (cpNdofs true Q.cp.mpol Q.cp.ntor).1 := by rw [hs]; rfl
  have hn2 : (cpNdofs Q.cp.stellsym Q.cp.mpol Q.cp.ntor).1 = 2 * (cpNdofs true Q.cp.mpol Q.cp.ntor).1 + 1 := by rw [hs]; rfl
  rw [hn1, hn2] at hzero
  have hcl := hc.1
  rw [hn2] at hcl
  rw [hn2] at hc
  generalize hnn : (cpNdofs true Q.cp.mpol Q.cp.ntor).1 = n at *
  have hdec : c = c.take n ++ c[n] :: List.replicate n 0 := by
    apply List.ext_getElem
    · simp [hcl]
      omega
    · intro i h1 h2
      rcases lt_trichotomy i n with hi | hi | hi
      · rw [List.getElem_append_left (by simp; omega)]
        simp
      · subst hi
        rw [List.getElem_append_right (by simp)]
        have : min i c.length = i := by omega
        simp [this]
      · rw [List.getElem_append_right (by simp; omega)]
        have h0 := hzero i hi (by omega)
        rw [List.getElem?_eq_getElem h1, Option.some.injEq] at h0
        obtain ⟨j, hj⟩ : ∃ j, i - (List.take n c).length = j + 1 := ⟨i - n - 1, by simp; omega⟩
        simp only [hj, List.getElem_cons_succ, List.getElem_replicate, h0]
  have hval : ∀ (s : List ℝ) (d : ℝ), s.length = n → regObjective Q w (s ++ d :: List.replicate n 0) =
      regObjective (symmetrised Q) w s := by
    intro s d hl
    obtain ⟨e1, e2⟩ := objectives_of_K Q (symmetrised Q) rfl rfl rfl rfl rfl rfl rfl rfl (s ++ d :: List.replicate n 0) s
      (fun p t => K_embed Q.cp hs s d n (by rw [hl, hn1]) p t)
    rw [regObjective, regObjective, e1, e2]
  have htl : (c.take n).length = n := by simp; omega
  have hce : regObjective (symmetrised Q) w (c.take n) = regObjective Q w c := by
    conv_rhs => rw [hdec]
    rw [hval _ _ htl]
  refine ⟨⟨htl, fun d hd => ?_⟩, hce⟩
  rw [hce, ← hval d 0 hd]
  exact hc.2 _ (by simp [hd]; omega)

/-- The data of `generalTorus` with an odd plasma field are symmetric. -/
noncomputable def oddTorus : FieldProblem :=
  { generalTorus with bPlasma := (gridPoints (linspace0 1 2) (linspace0 1 2)).map fun q => Real.sin (2 * π * q.2) }

theorem oddTorus_symmetric : IsSymmetricData oddTorus where
  nfp := by decide
  winding := rfl
  plasma := rfl
  same_nfp := rfl
  winding_grid := ⟨2, 2, by simp [oddTorus, generalTorus, resolvedTorus, torusProblem, circularTorus],
    by simp [oddTorus, generalTorus, resolvedTorus, torusProblem]⟩
  eval_grid := ⟨2, 3, rfl, rfl⟩
  plasma_grid := ⟨2, 2, by simp [oddTorus, generalTorus, resolvedTorus, torusProblem, circularTorus],
    by simp [oddTorus, generalTorus, resolvedTorus, torusProblem]⟩
  plasma_field := ⟨fun q => Real.sin (2 * π * q.2), rfl, fun p t => by simp [mul_neg, Real.sin_neg], fun p t => rfl,
    fun p t => by
      show Real.sin (2 * π * (t + 1)) = Real.sin (2 * π * t)
      rw [mul_add, mul_one, Real.sin_add_two_pi]⟩

example (c : List ℝ) (hc : IsBest (regObjective oddTorus 1) 3 c) : IsBest (regObjective (symmetrised oddTorus) 1) 1 (c.take 1) :=
  (C115_symmetric_problem oddTorus oddTorus_symmetric rfl 1 one_pos (A := 2) (B := 3) le_rfl (by norm_num) (by decide) (by decide)
    rfl rfl (by simp only [oddTorus, generalTorus, resolvedTorus, torusProblem, gridStep_linspace0 _ _ (le_refl 2)]; norm_num)
    (fun q _ => (circularTorus_regular q.1 q.2).1) c hc).1

end Verif
