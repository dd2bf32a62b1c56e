import Verif.Props.WellPosed
import Verif.Props.Superposition

/-!
# C127: the solution depends continuously on the net currents and the plasma field
-/

namespace Verif

open Real CpParams

/-- `c` is a best choice among the coefficient vectors in `S`. -/
def IsBestIn (F : List ℝ → ℝ) (S : Set (List ℝ)) (c : List ℝ) : Prop := c ∈ S ∧ ∀ d ∈ S, F c ≤ F d

/-- `S` is a convex set of coefficient vectors with `L` entries. -/
structure ConvexSet (L : ℕ) (S : Set (List ℝ)) : Prop where
  length : ∀ c ∈ S, c.length = L
  segment : ∀ c ∈ S, ∀ d ∈ S, ∀ a : ℝ, 0 ≤ a → a ≤ 1 → comb (1 - a) a c d ∈ S

section
variable (Q : FieldProblem)

theorem zeroField_matching : MatchingField Q (zeroField Q) := by simp [MatchingField, zeroField]

theorem comb_zeroField (e : ℝ) {b : List ℝ} (hb : MatchingField Q b) : comb 1 e b (zeroField Q) = b := by
  simp only [MatchingField] at hb
  apply List.ext_getElem
  · simp [comb, zeroField, hb]
  · intro i h1 h2
    simp [comb, zeroField]

theorem sample_step (G I : ℝ) {b : List ℝ} (hb : MatchingField Q b) (c h : List ℝ) (hl : c.length = h.length) (e : ℝ) :
    sample (Q.withSources G I b) (comb 1 e c h) =
      comb 1 e (sample (Q.withSources G I b) c) (sample (Q.withSources 0 0 (zeroField Q)) h) := by
  have := sample_linear Q c h hl 1 e G 0 I 0 b (zeroField Q) hb (zeroField_matching Q)
  rwa [comb_zeroField Q e hb, one_mul, one_mul, mul_zero, add_zero, add_zero] at this

theorem sample_lengths (G I G' I' : ℝ) {b b' : List ℝ} (hb : MatchingField Q b) (hb' : MatchingField Q b') (c d : List ℝ) :
    (sample (Q.withSources G I b) c).length = (sample (Q.withSources G' I' b') d).length := by
  rw [sample_length _ hb, sample_length _ hb']
  rfl

/-- The value of the objective on a straight line. -/
theorem objective_on_line (w G I : ℝ) {b : List ℝ} (hb : MatchingField Q b) (c h : List ℝ) (hl : c.length = h.length) (e : ℝ) :
    regObjective (Q.withSources G I b) w (comb 1 e c h) = regObjective (Q.withSources G I b) w c +
      2 * e * wdot (sampleWeights Q w) (sample (Q.withSources G I b) c) (sample (Q.withSources 0 0 (zeroField Q)) h) +
      e ^ 2 * regObjective (Q.withSources 0 0 (zeroField Q)) w h := by
  have hz := zeroField_matching Q
  have hlen := sample_lengths Q G I 0 0 hb hz c h
  have h1 := regObjective_wdot (Q.withSources G I b) w hb
  have h2 := regObjective_wdot (Q.withSources 0 0 (zeroField Q)) w hz
  have hw1 : sampleWeights (Q.withSources G I b) w = sampleWeights Q w := rfl
  have hw2 : sampleWeights (Q.withSources 0 0 (zeroField Q)) w = sampleWeights Q w := rfl
  rw [hw1] at h1
  rw [hw2] at h2
  rw [h1, h1, h2, sample_step Q G I hb c h hl e, wdot_comb _ _ _ _ _ _ hlen, wdot_comm _ _ (comb _ _ _ _),
    wdot_comm _ (sample (Q.withSources 0 0 (zeroField Q)) h) (comb _ _ _ _), wdot_comb _ _ _ _ _ _ hlen,
    wdot_comb _ _ _ _ _ _ hlen, wdot_comm _ (sample (Q.withSources 0 0 (zeroField Q)) h) (sample (Q.withSources G I b) c)]
  ring

/-- At a minimiser over a convex set no direction into the set is a direction of descent. -/
theorem no_descent (w G I : ℝ) {b : List ℝ} (hb : MatchingField Q b) {L : ℕ} {S : Set (List ℝ)} (hS : ConvexSet L S) {c d : List ℝ}
    (hc : IsBestIn (regObjective (Q.withSources G I b) w) S c) (hd : d ∈ S) :
    0 ≤ wdot (sampleWeights Q w) (sample (Q.withSources G I b) c) (sample (Q.withSources 0 0 (zeroField Q)) (comb 1 (-1) d c)) := by
  have hcl := hS.length c hc.1
  have hdl := hS.length d hd
  have hl : c.length = (comb 1 (-1) d c).length := by simp [comb, hcl, hdl]
  generalize hβ : wdot (sampleWeights Q w) (sample (Q.withSources G I b) c)
    (sample (Q.withSources 0 0 (zeroField Q)) (comb 1 (-1) d c)) = β
  generalize hγ : regObjective (Q.withSources 0 0 (zeroField Q)) w (comb 1 (-1) d c) = γ
  have key : ∀ a : ℝ, 0 < a → a ≤ 1 → 0 ≤ 2 * β + a * γ := by
    intro a h0 h1
    have e : comb 1 a c (comb 1 (-1) d c) = comb (1 - a) a c d := by
      apply List.ext_getElem
      · simp [comb, hcl, hdl]
      · intro i _ _
        simp only [comb, List.getElem_zipWith]
        ring
    have h2 := hc.2 _ (hS.segment c hc.1 d hd a h0.le h1)
    rw [← e, objective_on_line Q w G I hb c _ hl a, hβ, hγ] at h2
    have h3 : 0 ≤ a * (2 * β + a * γ) := by
      have : a * (2 * β + a * γ) = 2 * a * β + a ^ 2 * γ := by ring
      linarith
    exact (mul_nonneg_iff_of_pos_left h0).1 h3
  by_contra hlt
  push Not at hlt
  by_cases hg : γ ≤ 0
  · have := key 1 one_pos le_rfl
    linarith
  · push Not at hg
    have h0 : 0 < min 1 (-β / γ) := lt_min one_pos (div_pos (by linarith) hg)
    have h1 := key _ h0 (min_le_left _ _)
    have h2 : min 1 (-β / γ) * γ ≤ -β / γ * γ := mul_le_mul_of_nonneg_right (min_le_right _ _) hg.le
    rw [div_mul_cancel₀ _ hg.ne'] at h2
    linarith

/-- **C127 (continuous dependence).** Two problems with the same geometry, weight and convex set of allowed coefficients, and other
net currents and plasma fields: the field and the current of the difference of the solutions are together at most as large as the
field and the current of the difference of the sources. -/
theorem C127_continuous_dependence (w : ℝ) (hw : 0 ≤ w) (hp : 0 ≤ gridStep Q.plasma.phis * gridStep Q.plasma.thetas)
    (he : 0 ≤ gridStep Q.ePhis * gridStep Q.eThetas) (G₁ G₂ I₁ I₂ : ℝ) (b₁ b₂ : List ℝ)
    (hb₁ : b₁.length = (gridPoints Q.plasma.phis Q.plasma.thetas).length)
    (hb₂ : b₂.length = (gridPoints Q.plasma.phis Q.plasma.thetas).length) {L : ℕ} {S : Set (List ℝ)} (hS : ConvexSet L S)
    (c₁ c₂ : List ℝ) (h₁ : IsBestIn (regObjective (Q.withSources G₁ I₁ b₁) w) S c₁)
    (h₂ : IsBestIn (regObjective (Q.withSources G₂ I₂ b₂) w) S c₂) :
    regObjective (Q.withSources 0 0 (zeroField Q)) w (List.zipWith (· - ·) c₁ c₂) ≤
      regObjective (Q.withSources (G₁ - G₂) (I₁ - I₂) (List.zipWith (· - ·) b₁ b₂)) w (List.replicate L 0) := by
  have hsub : ∀ u v : List ℝ, List.zipWith (· - ·) u v = comb 1 (-1) u v := by
    intro u v
    rw [comb]
    congr 1
    funext a b
    ring
  have hl1 := hS.length c₁ h₁.1
  have hl2 := hS.length c₂ h₂.1
  have hz := zeroField_matching Q
  have hbd : MatchingField Q (comb 1 (-1) b₁ b₂) := by simp [MatchingField, comb, hb₁, hb₂]
  have k1 := no_descent Q w G₁ I₁ hb₁ hS h₁ h₂.1
  have k2 := no_descent Q w G₂ I₂ hb₂ hS h₂ h₁.1
  rw [hsub, hsub, regObjective_wdot (Q.withSources (G₁ - G₂) (I₁ - I₂) (comb 1 (-1) b₁ b₂)) w hbd,
    regObjective_wdot (Q.withSources 0 0 (zeroField Q)) w hz]
  have hw1 : sampleWeights (Q.withSources (G₁ - G₂) (I₁ - I₂) (comb 1 (-1) b₁ b₂)) w = sampleWeights Q w := rfl
  have hw2 : sampleWeights (Q.withSources 0 0 (zeroField Q)) w = sampleWeights Q w := rfl
  rw [hw1, hw2]
  -- the sample of the reversed difference
  have hrev : sample (Q.withSources 0 0 (zeroField Q)) (comb 1 (-1) c₂ c₁) =
      comb (-1) 0 (sample (Q.withSources 0 0 (zeroField Q)) (comb 1 (-1) c₁ c₂))
        (sample (Q.withSources 0 0 (zeroField Q)) (comb 1 (-1) c₁ c₂)) := by
    have := sample_linear Q (comb 1 (-1) c₁ c₂) (comb 1 (-1) c₁ c₂) rfl (-1) 0 0 0 0 0 (zeroField Q) (zeroField Q) hz hz
    have e1 : comb (-1) 0 (comb 1 (-1) c₁ c₂) (comb 1 (-1) c₁ c₂) = comb 1 (-1) c₂ c₁ := by
      apply List.ext_getElem
      · simp [comb, hl1, hl2]
      · intro i _ _
        simp only [comb, List.getElem_zipWith]
        ring
    have e2 : comb (-1) 0 (zeroField Q) (zeroField Q) = zeroField Q := by
      apply List.ext_getElem
      · simp [comb]
      · intro i _ _
        simp [comb, zeroField]
    simpa only [e1, e2, mul_zero, add_zero] using this
  -- the difference of the samples of the solutions
  have hdiff : comb 1 (-1) (sample (Q.withSources G₁ I₁ b₁) c₁) (sample (Q.withSources G₂ I₂ b₂) c₂) =
      comb 1 1 (sample (Q.withSources (G₁ - G₂) (I₁ - I₂) (comb 1 (-1) b₁ b₂)) (List.replicate L 0))
        (sample (Q.withSources 0 0 (zeroField Q)) (comb 1 (-1) c₁ c₂)) := by
    have h1 := sample_linear Q c₁ c₂ (by rw [hl1, hl2]) 1 (-1) G₁ G₂ I₁ I₂ b₁ b₂ hb₁ hb₂
    have h2 := sample_step Q (G₁ - G₂) (I₁ - I₂) hbd (List.replicate L 0) (comb 1 (-1) c₁ c₂) (by simp [comb, hl1, hl2]) 1
    have e1 : comb 1 1 (List.replicate L 0) (comb 1 (-1) c₁ c₂) = comb 1 (-1) c₁ c₂ := by
      apply List.ext_getElem
      · simp [comb, hl1, hl2]
      · intro i _ _
        simp [comb]
    rw [← h1, ← h2, e1]
    congr 2 <;> ring
  have hlen := sample_lengths Q G₁ I₁ G₂ I₂ hb₁ hb₂ c₁ c₂
  have hlen' := sample_lengths Q (G₁ - G₂) (I₁ - I₂) 0 0 hbd hz (List.replicate L 0) (comb 1 (-1) c₁ c₂)
  generalize hp' : sample (Q.withSources (G₁ - G₂) (I₁ - I₂) (comb 1 (-1) b₁ b₂)) (List.replicate L 0) = p at *
  generalize hD : sample (Q.withSources 0 0 (zeroField Q)) (comb 1 (-1) c₁ c₂) = D at *
  have a1 : wdot (sampleWeights Q w) (sample (Q.withSources G₁ I₁ b₁) c₁) D ≤ 0 := by
    rw [hrev, wdot_comm, wdot_comb _ _ _ _ _ _ rfl, wdot_comm _ D] at k1
    linarith
  have a2 := wdot_comb (sampleWeights Q w) 1 (-1) _ _ D hlen
  rw [hdiff, wdot_comb _ _ _ _ _ _ hlen'] at a2
  have a3 := wdot_self_nonneg _ (comb 1 1 p D) (sampleWeights_nonneg Q w hw hp he)
  rw [wdot_comb _ _ _ _ _ _ hlen', wdot_comm _ p, wdot_comm _ D (comb 1 1 p D), wdot_comb _ _ _ _ _ _ hlen',
    wdot_comb _ _ _ _ _ _ hlen', wdot_comm _ D p] at a3
  linarith

/-- **C127 (the coefficients).** On a resolving grid the coefficients themselves depend Lipschitz continuously on the sources: there
is one constant for the geometry. -/
theorem C127_coefficients {A B : ℕ} (R : Resolved Q A B) : ∃ μ > 0, ∀ (w : ℝ) (_ : 0 ≤ w) (G₁ G₂ I₁ I₂ : ℝ) (b₁ b₂ : List ℝ)
    (_ : b₁.length = (gridPoints Q.plasma.phis Q.plasma.thetas).length)
    (_ : b₂.length = (gridPoints Q.plasma.phis Q.plasma.thetas).length) {S : Set (List ℝ)}
    (_ : ConvexSet (cpNdofs Q.cp.stellsym Q.cp.mpol Q.cp.ntor).1 S) (c₁ c₂ : List ℝ)
    (_ : IsBestIn (regObjective (Q.withSources G₁ I₁ b₁) w) S c₁) (_ : IsBestIn (regObjective (Q.withSources G₂ I₂ b₂) w) S c₂),
    w * μ * (List.zipWith (fun a b => (a - b) ^ 2) c₁ c₂).sum ≤
      regObjective (Q.withSources (G₁ - G₂) (I₁ - I₂) (List.zipWith (· - ·) b₁ b₂)) w
        (List.replicate (cpNdofs Q.cp.stellsym Q.cp.mpol Q.cp.ntor).1 0) := by
  let Q₀ := Q.withSources 0 0 (zeroField Q)
  have R₀ : Resolved Q₀ A B := ⟨⟨R.nfp, R.two_le_A, R.two_le_B, R.ntor, R.mpol, R.ePhis, R.eThetas, R.regular, R.plasma⟩, R.stellsym⟩
  obtain ⟨hdef, hnn⟩ := R₀.definite one_pos
  obtain ⟨μ, hμ, hco⟩ := hdef.coercive (kTerms_affine Q₀ _ _) hnn
  have hco : ∀ x y : Fin (cpNdofs Q.cp.stellsym Q.cp.mpol Q.cp.ntor).1 → ℝ, μ * ∑ i, (x i - y i) ^ 2 ≤
    diffSq (kTerms Q₀ 1 (cpNdofs Q.cp.stellsym Q.cp.mpol Q.cp.ntor).1) x y := hco
  refine ⟨μ, hμ, ?_⟩
  intro w hw G₁ G₂ I₁ I₂ b₁ b₂ hb₁ hb₂ S hS c₁ c₂ h₁ h₂
  refine le_trans ?_ (C127_continuous_dependence Q w hw R.plasma R.eval_nonneg G₁ G₂ I₁ I₂ b₁ b₂ hb₁ hb₂ hS c₁ c₂ h₁ h₂)
  have hB := (C47_objectives_nonneg Q₀ R.plasma R.eval_nonneg (List.zipWith (· - ·) c₁ c₂)).1
  obtain ⟨x, rfl⟩ := eq_ofFn c₁ (hS.length c₁ h₁.1)
  obtain ⟨y, rfl⟩ := eq_ofFn c₂ (hS.length c₂ h₂.1)
  have hz : List.zipWith (· - ·) (List.ofFn x) (List.ofFn y) = List.ofFn fun i => x i - y i := by
    apply List.ext_getElem
    · simp
    · intro k _ _
      simp
  have hz2 : List.zipWith (fun a b => (a - b) ^ 2) (List.ofFn x) (List.ofFn y) = List.ofFn fun i => (x i - y i) ^ 2 := by
    apply List.ext_getElem
    · simp
    · intro k _ _
      simp
  rw [hz2, List.sum_ofFn]
  rw [hz] at hB ⊢
  have h1 := hco (fun i => x i - y i) fun _ => 0
  have h2 : diffSq (kTerms Q₀ 1 (cpNdofs Q.cp.stellsym Q.cp.mpol Q.cp.ntor).1) (fun i => x i - y i) (fun _ => 0) =
      termsSq (kTerms Q₀ 1 (cpNdofs Q.cp.stellsym Q.cp.mpol Q.cp.ntor).1) fun i => x i - y i := by
    have hK : ∀ q : ℝ × ℝ, Q₀.cp.K (List.ofFn fun _ : Fin (cpNdofs Q.cp.stellsym Q.cp.mpol Q.cp.ntor).1 => (0 : ℝ)) q.1 q.2 = 0 := by
      intro q
      have := Q.cp.K_linear (List.ofFn fun _ : Fin (cpNdofs Q.cp.stellsym Q.cp.mpol Q.cp.ntor).1 => (0 : ℝ))
        (List.ofFn fun _ : Fin (cpNdofs Q.cp.stellsym Q.cp.mpol Q.cp.ntor).1 => (0 : ℝ)) rfl 0 0 0 0 0 0 q.1 q.2
      have e : List.zipWith (fun x y : ℝ => 0 * x + 0 * y) (List.ofFn fun _ : Fin (cpNdofs Q.cp.stellsym Q.cp.mpol Q.cp.ntor).1 => (0 : ℝ))
          (List.ofFn fun _ : Fin (cpNdofs Q.cp.stellsym Q.cp.mpol Q.cp.ntor).1 => (0 : ℝ)) =
          List.ofFn fun _ : Fin (cpNdofs Q.cp.stellsym Q.cp.mpol Q.cp.ntor).1 => (0 : ℝ) := by
        apply List.ext_getElem
        · simp
        · intro i _ _
          simp
      rw [e] at this
      simp only [mul_zero, add_zero] at this
      refine this.trans ?_
      ext <;> simp
    simp only [diffSq, termsSq]
    congr 1
    refine List.map_congr_left fun t ht => ?_
    obtain ⟨q, -, hq⟩ := List.mem_flatMap.1 ht
    simp only [List.mem_cons, List.not_mem_nil, or_false] at hq
    rcases hq with rfl | rfl | rfl <;> simp only [hK] <;> simp
  simp only [sub_zero] at h1
  rw [h2, kTerms_sum, one_mul] at h1
  show _ ≤ Q₀.fB _ + w * Q₀.fK _
  have := mul_le_mul_of_nonneg_left h1 hw
  rw [mul_assoc]
  linarith

end

/-! ## An example -/

theorem allVectors_convex (L : ℕ) : ConvexSet L {c | c.length = L} where
  length := fun _ h => h
  segment := by
    intro c hc d hd a _ _
    change c.length = L at hc
    change d.length = L at hd
    change (comb (1 - a) a c d).length = L
    simp [comb, hc, hd]

/-- A box of coefficients is convex too. -/
theorem box_convex (L : ℕ) (r : ℝ) : ConvexSet L {c | c.length = L ∧ ∀ x ∈ c, |x| ≤ r} where
  length := fun _ h => h.1
  segment := by
    rintro c ⟨hc, hc'⟩ d ⟨hd, hd'⟩ a h0 h1
    refine ⟨by simp [comb, hc, hd], fun x hx => ?_⟩
    obtain ⟨i, hi, rfl⟩ := List.mem_iff_getElem.1 hx
    simp only [comb, List.getElem_zipWith]
    have e1 := abs_le.1 (hc' _ (List.getElem_mem (l := c) (n := i) (by simp [comb] at hi; omega)))
    have e2 := abs_le.1 (hd' _ (List.getElem_mem (l := d) (n := i) (by simp [comb] at hi; omega)))
    rw [abs_le]
    constructor <;> nlinarith [e1.1, e1.2, e2.1, e2.2]

/-- Two problems on the same torus with other sources, and their solutions. -/
example : ∃ c₁ c₂, IsBestIn (regObjective (resolvedTorus.withSources 1 2 [0, 0, 0, 1]) 1) {c | c.length = 1} c₁ ∧
    IsBestIn (regObjective (resolvedTorus.withSources 3 2 [1, 0, 0, 1]) 1) {c | c.length = 1} c₂ ∧
    regObjective (resolvedTorus.withSources 0 0 (zeroField resolvedTorus)) 1 (List.zipWith (· - ·) c₁ c₂) ≤
      regObjective (resolvedTorus.withSources (1 - 3) (2 - 2) (List.zipWith (· - ·) [0, 0, 0, 1] [1, 0, 0, 1])) 1 (List.replicate 1 0) := by
  have hp := resolvedTorus_resolved.plasma
  have he := resolvedTorus_resolved.eval_nonneg
  obtain ⟨c₁, h1, h1'⟩ := C113_minimiser_exists (resolvedTorus.withSources 1 2 [0, 0, 0, 1]) 1 zero_le_one 1 hp he
  obtain ⟨c₂, h2, h2'⟩ := C113_minimiser_exists (resolvedTorus.withSources 3 2 [1, 0, 0, 1]) 1 zero_le_one 1 hp he
  refine ⟨c₁, c₂, ⟨h1, h1'⟩, ⟨h2, h2'⟩, ?_⟩
  exact C127_continuous_dependence resolvedTorus 1 zero_le_one hp he 1 3 2 2 [0, 0, 0, 1] [1, 0, 0, 1] (by rfl) (by rfl)
    (allVectors_convex 1) c₁ c₂ ⟨h1, h1'⟩ ⟨h2, h2'⟩

end Verif
