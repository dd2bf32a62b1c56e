import Verif.Props.Unique

/-!
# C116: solutions for added currents are added
-/

namespace Verif

open Real CpParams

/-! ## Weighted products of lists -/

/-- `sum_i w_i x_i y_i`. -/
noncomputable def wdot (w x y : List ℝ) : ℝ := (List.zipWith (· * ·) w (List.zipWith (· * ·) x y)).sum

theorem wdot_comb (w : List ℝ) (s t : ℝ) (x₁ x₂ y : List ℝ) (h : x₁.length = x₂.length) :
    wdot w (comb s t x₁ x₂) y = s * wdot w x₁ y + t * wdot w x₂ y := by
  induction w generalizing x₁ x₂ y with
  | nil => simp [wdot]
  | cons a w ih =>
    cases x₁ with
    | nil =>
      cases x₂ with
      | nil => simp [wdot, comb]
      | cons => simp at h
    | cons x x₁ =>
      cases x₂ with
      | nil => simp at h
      | cons x' x₂ =>
        cases y with
        | nil => simp [wdot]
        | cons y ys =>
          have := ih x₁ x₂ ys (by simpa using h)
          simp only [wdot, comb, List.zipWith_cons_cons, List.sum_cons] at this ⊢
          rw [this]
          ring

theorem wdot_comm (w x y : List ℝ) : wdot w x y = wdot w y x := by
  rw [wdot, wdot]
  congr 2
  exact List.zipWith_comm_of_comm (fun a b => mul_comm a b)

theorem wdot_self_nonneg (w x : List ℝ) (h : ∀ a ∈ w, 0 ≤ a) : 0 ≤ wdot w x x := by
  refine List.sum_nonneg fun z hz => ?_
  obtain ⟨i, hi, rfl⟩ := List.mem_iff_getElem.1 hz
  simp only [List.getElem_zipWith]
  exact mul_nonneg (h _ (List.getElem_mem _)) (mul_self_nonneg _)

theorem wdot_append (w₁ w₂ x₁ x₂ y₁ y₂ : List ℝ) (h1 : w₁.length = x₁.length) (h2 : x₁.length = y₁.length) :
    wdot (w₁ ++ w₂) (x₁ ++ x₂) (y₁ ++ y₂) = wdot w₁ x₁ y₁ + wdot w₂ x₂ y₂ := by
  rw [wdot, List.zipWith_append h2, List.zipWith_append (by simp [h1, h2]), List.sum_append]
  rfl

theorem comb_append (s t : ℝ) (a b c d : List ℝ) (h : a.length = c.length) : comb s t (a ++ b) (c ++ d) = comb s t a c ++ comb s t b d :=
  List.zipWith_append h

theorem comb_map {β : Type} (s t : ℝ) (L : List β) (f g h : β → ℝ) (hf : ∀ x, f x = s * g x + t * h x) :
    L.map f = comb s t (L.map g) (L.map h) := by
  rw [comb, List.zipWith_map, List.zipWith_self]
  exact List.map_congr_left fun x _ => hf x

/-! ## The objective as a sum of squares -/

/-- All the numbers whose squares make up the objective: the normal field at the plasma points and the components of the current
at the evaluation points. -/
noncomputable def sample (Q : FieldProblem) (c : List ℝ) : List ℝ :=
  Q.bnormal c ++ ((gridPoints Q.ePhis Q.eThetas).map (fun q => (Q.cp.K c q.1 q.2).x) ++
    ((gridPoints Q.ePhis Q.eThetas).map (fun q => (Q.cp.K c q.1 q.2).y) ++
      (gridPoints Q.ePhis Q.eThetas).map fun q => (Q.cp.K c q.1 q.2).z))

/-- Their weights. -/
noncomputable def sampleWeights (Q : FieldProblem) (w : ℝ) : List ℝ :=
  Q.plasma.da.map (fun a : ℝ => a * Q.cp.nfp / 2) ++ (Q.evalSurface.da.map (fun a : ℝ => w * a * Q.cp.nfp / 2) ++
    (Q.evalSurface.da.map (fun a : ℝ => w * a * Q.cp.nfp / 2) ++ Q.evalSurface.da.map fun a : ℝ => w * a * Q.cp.nfp / 2))

/-- One plasma field value for each plasma point. -/
def MatchingField (Q : FieldProblem) (b : List ℝ) : Prop := b.length = (gridPoints Q.plasma.phis Q.plasma.thetas).length

theorem sq_sum (D u : List ℝ) (n : ℝ) :
    (List.zipWith (· * ·) (u.map fun b => b ^ 2 / 2) D).sum * n = wdot (D.map fun a => a * n / 2) u u := by
  induction D generalizing u with
  | nil => simp [wdot]
  | cons a D ih =>
    cases u with
    | nil => simp [wdot]
    | cons x u =>
      have := ih u
      simp only [wdot, List.map_cons, List.zipWith_cons_cons, List.sum_cons, add_mul] at this ⊢
      rw [this]
      ring

theorem sq_sum3 {β : Type} (L : List β) (f : β → V3) (d : β → ℝ) (w n : ℝ) :
    w * ((List.zipWith (· * ·) (L.map fun q => (f q).normSq / 2) (L.map d)).sum * n) =
      wdot ((L.map d).map fun a => w * a * n / 2) (L.map fun q => (f q).x) (L.map fun q => (f q).x) +
      (wdot ((L.map d).map fun a => w * a * n / 2) (L.map fun q => (f q).y) (L.map fun q => (f q).y) +
      wdot ((L.map d).map fun a => w * a * n / 2) (L.map fun q => (f q).z) (L.map fun q => (f q).z)) := by
  induction L with
  | nil => simp [wdot]
  | cons q L ih =>
    simp only [wdot, List.map_cons, List.zipWith_cons_cons, List.sum_cons, add_mul, mul_add, V3.normSq] at ih ⊢
    rw [ih]
    ring

theorem regObjective_wdot (Q : FieldProblem) (w : ℝ) (hb : MatchingField Q Q.bPlasma) (c : List ℝ) :
    regObjective Q w c = wdot (sampleWeights Q w) (sample Q c) (sample Q c) := by
  have hl : Q.plasma.da.length = (Q.bnormal c).length := by
    rw [GridSurface.da, FieldProblem.bnormal, List.length_map, List.length_map, List.length_zip, hb, min_self]
  rw [sampleWeights, sample, wdot_append _ _ _ _ _ _ (by rw [List.length_map, hl]) rfl,
    wdot_append _ _ _ _ _ _ (by simp [GridSurface.da, FieldProblem.evalSurface]) rfl,
    wdot_append _ _ _ _ _ _ (by simp [GridSurface.da, FieldProblem.evalSurface]) rfl, regObjective, FieldProblem.fB,
    GridSurface.integrate, sq_sum, fK_eq]
  congr 1
  have hd : Q.evalSurface.da = (gridPoints Q.ePhis Q.eThetas).map fun q =>
      gridStep Q.ePhis * gridStep Q.eThetas * (Q.cp.surf.normal Q.cp.wdofs q.1 q.2).norm := rfl
  rw [hd]
  exact sq_sum3 (gridPoints Q.ePhis Q.eThetas) (fun q => Q.cp.K c q.1 q.2) _ w Q.cp.nfp

theorem sample_linear (Q : FieldProblem) (c d : List ℝ) (h : c.length = d.length) (s t G₁ G₂ I₁ I₂ : ℝ) (b₁ b₂ : List ℝ)
    (hb₁ : MatchingField Q b₁) (hb₂ : MatchingField Q b₂) :
    sample (Q.withSources (s * G₁ + t * G₂) (s * I₁ + t * I₂) (comb s t b₁ b₂)) (comb s t c d) =
      comb s t (sample (Q.withSources G₁ I₁ b₁) c) (sample (Q.withSources G₂ I₂ b₂) d) := by
  have hK := fun q : ℝ × ℝ => Q.cp.K_linear c d h s t G₁ G₂ I₁ I₂ q.1 q.2
  have hBn : (Q.withSources (s * G₁ + t * G₂) (s * I₁ + t * I₂) (comb s t b₁ b₂)).bnormal (comb s t c d) =
      comb s t ((Q.withSources G₁ I₁ b₁).bnormal c) ((Q.withSources G₂ I₂ b₂).bnormal d) := by
    have hw : ∀ q, (Q.withSources (s * G₁ + t * G₂) (s * I₁ + t * I₂) (comb s t b₁ b₂)).bnWinding (comb s t c d) q =
        s * (Q.withSources G₁ I₁ b₁).bnWinding c q + t * (Q.withSources G₂ I₂ b₂).bnWinding d q := by
      intro q
      have := C47_field_linear Q c d h s t G₁ G₂ I₁ I₂ (comb s t b₁ b₂) (Q.plasma.shape.gamma Q.plasma.dofs q.1 q.2)
      show V3.dot _ ((Q.withSources (s * G₁ + t * G₂) (s * I₁ + t * I₂) (comb s t b₁ b₂)).windingB (comb s t c d)
        (Q.plasma.shape.gamma Q.plasma.dofs q.1 q.2)) = _
      rw [this]
      show _ = s * V3.dot (Q.plasma.shape.unitnormal Q.plasma.dofs q.1 q.2) ((Q.withSources G₁ I₁ (comb s t b₁ b₂)).windingB c
        (Q.plasma.shape.gamma Q.plasma.dofs q.1 q.2)) + t * V3.dot (Q.plasma.shape.unitnormal Q.plasma.dofs q.1 q.2)
          ((Q.withSources G₂ I₂ (comb s t b₁ b₂)).windingB d (Q.plasma.shape.gamma Q.plasma.dofs q.1 q.2))
      simp only [V3.dot, V3.add_x, V3.add_y, V3.add_z, V3.smul_x, V3.smul_y, V3.smul_z]
      simp only [FieldProblem.withSources]
      ring
    simp only [FieldProblem.bnormal, hw]
    simp only [MatchingField] at hb₁ hb₂
    show List.map (fun q : (ℝ × ℝ) × ℝ => s * (Q.withSources G₁ I₁ b₁).bnWinding c q.1 + t * (Q.withSources G₂ I₂ b₂).bnWinding d q.1 + q.2)
      ((gridPoints Q.plasma.phis Q.plasma.thetas).zip (comb s t b₁ b₂)) =
      comb s t (List.map (fun q : (ℝ × ℝ) × ℝ => (Q.withSources G₁ I₁ b₁).bnWinding c q.1 + q.2)
        ((gridPoints Q.plasma.phis Q.plasma.thetas).zip b₁))
        (List.map (fun q : (ℝ × ℝ) × ℝ => (Q.withSources G₂ I₂ b₂).bnWinding d q.1 + q.2)
        ((gridPoints Q.plasma.phis Q.plasma.thetas).zip b₂))
    generalize gridPoints Q.plasma.phis Q.plasma.thetas = L at *
    generalize (Q.withSources G₁ I₁ b₁).bnWinding c = f1
    generalize (Q.withSources G₂ I₂ b₂).bnWinding d = f2
    apply List.ext_getElem
    · simp [comb, hb₁, hb₂]
    · intro i h1 h2
      simp only [comb, List.getElem_map, List.getElem_zip, List.getElem_zipWith]
      ring
  rw [sample, sample, sample, hBn]
  rw [comb_append _ _ _ _ _ _ (by simp only [FieldProblem.bnormal, List.length_map, List.length_zip]
                                  show min _ b₁.length = min _ b₂.length
                                  rw [hb₁, hb₂]
                                  rfl)]
  rw [comb_append _ _ _ _ _ _ (by simp only [List.length_map]; rfl), comb_append _ _ _ _ _ _ (by simp only [List.length_map]; rfl)]
  congr 1
  congr 1
  · refine comb_map s t _ _ _ _ fun q => ?_
    exact congrArg V3.x (hK q)
  congr 1
  · refine comb_map s t _ _ _ _ fun q => ?_
    exact congrArg V3.y (hK q)
  · refine comb_map s t _ _ _ _ fun q => ?_
    exact congrArg V3.z (hK q)

/-! ## Minimisers -/

theorem sampleWeights_nonneg (Q : FieldProblem) (w : ℝ) (hw : 0 ≤ w) (hp : 0 ≤ gridStep Q.plasma.phis * gridStep Q.plasma.thetas)
    (he : 0 ≤ gridStep Q.ePhis * gridStep Q.eThetas) : ∀ a ∈ sampleWeights Q w, 0 ≤ a := by
  intro a ha
  have h1 := da_nonneg _ hp
  have h2 := da_nonneg Q.evalSurface he
  simp only [sampleWeights, List.mem_append, List.mem_map] at ha
  rcases ha with ⟨x, hx, rfl⟩ | ⟨x, hx, rfl⟩ | ⟨x, hx, rfl⟩ | ⟨x, hx, rfl⟩
  · have := h1 x hx
    positivity
  all_goals
    have := h2 x hx
    positivity

/-- No plasma field. -/
def zeroField (Q : FieldProblem) : List ℝ := List.replicate (gridPoints Q.plasma.phis Q.plasma.thetas).length 0

theorem sample_length (Q : FieldProblem) (hb : MatchingField Q Q.bPlasma) (c : List ℝ) :
    (sample Q c).length = (gridPoints Q.plasma.phis Q.plasma.thetas).length + 3 * (gridPoints Q.ePhis Q.eThetas).length := by
  simp only [MatchingField] at hb
  simp only [sample, FieldProblem.bnormal, List.length_append, List.length_map, List.length_zip, hb, min_self]
  ring

/-- The normal equations: `c` is a minimiser exactly if the sample of `c` is orthogonal to the samples of all coefficient vectors
without sources. -/
theorem isBest_iff_orthogonal (Q : FieldProblem) (w : ℝ) (hw : 0 ≤ w) (hp : 0 ≤ gridStep Q.plasma.phis * gridStep Q.plasma.thetas)
    (he : 0 ≤ gridStep Q.ePhis * gridStep Q.eThetas) (G I : ℝ) (b : List ℝ) (hb : MatchingField Q b) (c : List ℝ) :
    IsBest (regObjective (Q.withSources G I b) w) c.length c ↔
      ∀ h : List ℝ, h.length = c.length →
        wdot (sampleWeights Q w) (sample (Q.withSources G I b) c) (sample (Q.withSources 0 0 (zeroField Q)) h) = 0 := by
  have hz : MatchingField Q (zeroField Q) := by simp [MatchingField, zeroField]
  have hobj : ∀ d, regObjective (Q.withSources G I b) w d =
      wdot (sampleWeights Q w) (sample (Q.withSources G I b) d) (sample (Q.withSources G I b) d) :=
    regObjective_wdot (Q.withSources G I b) w hb
  have hlen : ∀ c h : List ℝ, (sample (Q.withSources G I b) c).length = (sample (Q.withSources 0 0 (zeroField Q)) h).length := by
    intro c h
    rw [sample_length _ hb, sample_length _ hz]
    rfl
  have hstep : ∀ (h : List ℝ) (e : ℝ), h.length = c.length → sample (Q.withSources G I b) (comb 1 e c h) =
      comb 1 e (sample (Q.withSources G I b) c) (sample (Q.withSources 0 0 (zeroField Q)) h) := by
    intro h e hl
    have := sample_linear Q c h hl.symm 1 e G 0 I 0 b (zeroField Q) hb hz
    have hcb : comb 1 e b (zeroField Q) = b := by
      apply List.ext_getElem
      · simp only [MatchingField] at hb
        simp [comb, zeroField, hb]
      · intro i h1 h2
        simp [comb, zeroField]
    rwa [hcb, one_mul, one_mul, mul_zero, add_zero, add_zero] at this
  have hval : ∀ (h : List ℝ) (e : ℝ), h.length = c.length → regObjective (Q.withSources G I b) w (comb 1 e c h) =
      regObjective (Q.withSources G I b) w c +
        2 * e * wdot (sampleWeights Q w) (sample (Q.withSources G I b) c) (sample (Q.withSources 0 0 (zeroField Q)) h) +
        e ^ 2 * wdot (sampleWeights Q w) (sample (Q.withSources 0 0 (zeroField Q)) h) (sample (Q.withSources 0 0 (zeroField Q)) h) := by
    intro h e hl
    rw [hobj, hobj, hstep h e hl, wdot_comb _ _ _ _ _ _ (hlen c h), wdot_comm _ _ (comb _ _ _ _),
      wdot_comm _ (sample (Q.withSources 0 0 (zeroField Q)) h) (comb _ _ _ _), wdot_comb _ _ _ _ _ _ (hlen c h),
      wdot_comb _ _ _ _ _ _ (hlen c h), wdot_comm _ (sample (Q.withSources 0 0 (zeroField Q)) h) (sample (Q.withSources G I b) c)]
    ring
  have hcl : ∀ (h : List ℝ) (e : ℝ), h.length = c.length → (comb 1 e c h).length = c.length := by
    intro h e hl
    simp [comb, hl]
  constructor
  · intro hc h hl
    generalize hβ : wdot (sampleWeights Q w) (sample (Q.withSources G I b) c) (sample (Q.withSources 0 0 (zeroField Q)) h) = β at *
    generalize hγ : wdot (sampleWeights Q w) (sample (Q.withSources 0 0 (zeroField Q)) h)
      (sample (Q.withSources 0 0 (zeroField Q)) h) = γ at *
    have hq : ∀ e : ℝ, 0 ≤ 2 * e * β + e ^ 2 * γ := by
      intro e
      have h1 := hc.2 _ (hcl h e hl)
      rw [hval h e hl, hβ, hγ] at h1
      linarith
    have hγ0 : 0 ≤ γ := by
      rw [← hγ]
      exact wdot_self_nonneg _ _ (sampleWeights_nonneg Q w hw hp he)
    have h1 := hq (-β / (γ + 1))
    have hpos : 0 < γ + 1 := by linarith
    have e1 : 2 * (-β / (γ + 1)) * β + (-β / (γ + 1)) ^ 2 * γ = -(β ^ 2 * (γ + 2)) / (γ + 1) ^ 2 := by
      field_simp
      ring
    rw [e1, le_div_iff₀ (by positivity), zero_mul] at h1
    have : 0 ≤ β ^ 2 := sq_nonneg β
    have : β ^ 2 = 0 := by nlinarith
    exact pow_eq_zero_iff (two_ne_zero) |>.1 this
  · intro hc
    refine ⟨rfl, fun d hd => ?_⟩
    have hdl : (comb 1 (-1) d c).length = c.length := by simp [comb, hd]
    have e : comb 1 1 c (comb 1 (-1) d c) = d := by
      apply List.ext_getElem
      · simp [comb, hd]
      · intro i h1 h2
        simp [comb]
    have h1 := hval (comb 1 (-1) d c) 1 hdl
    rw [e, hc _ hdl] at h1
    rw [h1]
    have := wdot_self_nonneg _ (sample (Q.withSources 0 0 (zeroField Q)) (comb 1 (-1) d c)) (sampleWeights_nonneg Q w hw hp he)
    linarith

/-- **C116 (superposition).** If `c₁` and `c₂` minimise `f_B + w f_K` for two choices of net currents and plasma field, then
`s c₁ + t c₂` minimises it for the same combination of the currents and fields. -/
theorem C116_superposition (Q : FieldProblem) (w : ℝ) (hw : 0 ≤ w) (hp : 0 ≤ gridStep Q.plasma.phis * gridStep Q.plasma.thetas)
    (he : 0 ≤ gridStep Q.ePhis * gridStep Q.eThetas) (s t G₁ G₂ I₁ I₂ : ℝ) (b₁ b₂ : List ℝ)
    (hb₁ : b₁.length = (gridPoints Q.plasma.phis Q.plasma.thetas).length)
    (hb₂ : b₂.length = (gridPoints Q.plasma.phis Q.plasma.thetas).length) (L : ℕ) (c₁ c₂ : List ℝ)
    (h₁ : IsBest (regObjective (Q.withSources G₁ I₁ b₁) w) L c₁) (h₂ : IsBest (regObjective (Q.withSources G₂ I₂ b₂) w) L c₂) :
    IsBest (regObjective (Q.withSources (s * G₁ + t * G₂) (s * I₁ + t * I₂) (comb s t b₁ b₂)) w) L (comb s t c₁ c₂) := by
  have hl1 := h₁.1
  have hl2 := h₂.1
  have hlen : c₁.length = c₂.length := by rw [hl1, hl2]
  have hL : (comb s t c₁ c₂).length = L := by simp [comb, hl1, hl2]
  have hb : MatchingField Q (comb s t b₁ b₂) := by simp [MatchingField, comb, hb₁, hb₂]
  rw [← hl1] at h₁
  rw [← hl2] at h₂
  rw [isBest_iff_orthogonal Q w hw hp he _ _ _ hb₁] at h₁
  rw [isBest_iff_orthogonal Q w hw hp he _ _ _ hb₂] at h₂
  rw [← hL, isBest_iff_orthogonal Q w hw hp he _ _ _ hb]
  intro h hh
  rw [sample_linear Q c₁ c₂ hlen s t G₁ G₂ I₁ I₂ b₁ b₂ hb₁ hb₂, wdot_comb, h₁ h (by rw [hh, hL, hl1]), h₂ h (by rw [hh, hL, hl2])]
  · ring
  · rw [sample_length (Q.withSources G₁ I₁ b₁) hb₁, sample_length (Q.withSources G₂ I₂ b₂) hb₂]
    rfl

/-- **C116 (scaling).** Multiplying net currents and plasma field by `s` multiplies the solution by `s`. -/
theorem C116_scaling (Q : FieldProblem) (w : ℝ) (hw : 0 ≤ w) (hp : 0 ≤ gridStep Q.plasma.phis * gridStep Q.plasma.thetas)
    (he : 0 ≤ gridStep Q.ePhis * gridStep Q.eThetas) (s : ℝ) (hb : Q.bPlasma.length = (gridPoints Q.plasma.phis Q.plasma.thetas).length)
    (L : ℕ) (c : List ℝ) (h : IsBest (regObjective Q w) L c) :
    IsBest (regObjective (Q.withSources (s * Q.cp.G) (s * Q.cp.I) (Q.bPlasma.map (s * ·))) w) L (c.map (s * ·)) := by
  have key := C116_superposition Q w hw hp he s 0 Q.cp.G Q.cp.G Q.cp.I Q.cp.I Q.bPlasma Q.bPlasma hb hb L c c h h
  have e : ∀ l : List ℝ, comb s 0 l l = l.map (s * ·) := by
    intro l
    rw [comb, List.zipWith_self]
    exact List.map_congr_left fun x _ => by ring
  rw [e, e] at key
  simpa using key

/-- **C116 (scaling of the value).** The objective itself grows with the square of the factor. -/
theorem C116_value (Q : FieldProblem) (w : ℝ) (s : ℝ) (hb : Q.bPlasma.length = (gridPoints Q.plasma.phis Q.plasma.thetas).length)
    (c : List ℝ) : regObjective (Q.withSources (s * Q.cp.G) (s * Q.cp.I) (Q.bPlasma.map (s * ·))) w (c.map (s * ·)) =
      s ^ 2 * regObjective Q w c := by
  have e : ∀ l : List ℝ, comb s 0 l l = l.map (s * ·) := by
    intro l
    rw [comb, List.zipWith_self]
    exact List.map_congr_left fun x _ => by ring
  have hs := sample_linear Q c c rfl s 0 Q.cp.G Q.cp.G Q.cp.I Q.cp.I Q.bPlasma Q.bPlasma hb hb
  rw [e, e] at hs
  simp only [zero_mul, add_zero] at hs
  have hb' : MatchingField (Q.withSources (s * Q.cp.G) (s * Q.cp.I) (Q.bPlasma.map (s * ·))) (Q.bPlasma.map (s * ·)) := by
    rw [MatchingField, List.length_map]
    exact hb
  rw [regObjective_wdot _ w hb', hs, regObjective_wdot Q w hb, wdot_comb _ _ _ _ _ _ rfl, wdot_comm _ _ (comb _ _ _ _),
    wdot_comb _ _ _ _ _ _ rfl]
  show s * (s * wdot (sampleWeights Q w) (sample Q c) (sample Q c) + 0 * _) + 0 * _ = _
  ring

/-- The hypotheses hold for `torusProblem`, and a minimiser exists. -/
example : ∃ c, IsBest (regObjective torusProblem 1) 1 c ∧
    IsBest (regObjective (torusProblem.withSources (2 * 5) (2 * 7) [2 * 0, 2 * 0, 2 * 0, 2 * 1]) 1) 1 (c.map (2 * ·)) := by
  have hg : 0 ≤ gridStep torusProblem.plasma.phis * gridStep torusProblem.plasma.thetas ∧
      0 ≤ gridStep torusProblem.ePhis * gridStep torusProblem.eThetas := by
    simp only [torusProblem, gridStep_linspace0 _ _ (le_refl 2)]
    norm_num
  obtain ⟨c, hc⟩ := C113_minimiser_exists torusProblem 1 zero_le_one 1 hg.1 hg.2
  exact ⟨c, hc, C116_scaling torusProblem 1 zero_le_one hg.1 hg.2 2 (by simp [torusProblem, gridPoints, linspace0, List.range_succ]) 1 c hc⟩

end Verif
