import Verif.Props.SlackL1

/-!
# C130, C134: the smoothed Huber loss is convex, but not smooth
-/

namespace Verif

open Real CpParams

/-! ## Kinks -/

/-- A function which grows linearly, on average, in both directions of a line is not differentiable there. -/
theorem not_differentiableAt_of_kink {N : ℕ} {F : (Fin N → ℝ) → ℝ} {x y : Fin N → ℝ} {A : ℝ} (hA : 0 < A)
    (h : ∀ s : ℝ, 2 * A * |s| ≤ F (fun i => s * y i + (1 - s) * x i) + F (fun i => (-s) * y i + (1 - (-s)) * x i) - 2 * F x) :
    ¬ DifferentiableAt ℝ F x := by
  intro hd
  let γ : ℝ → Fin N → ℝ := fun s i => s * y i + (1 - s) * x i
  have hγ : ∀ s, DifferentiableAt ℝ γ s := by
    intro s
    rw [differentiableAt_pi]
    intro i
    exact (differentiableAt_id.mul_const _).add (((differentiableAt_const _).sub differentiableAt_id).mul_const _)
  have hγ0 : γ 0 = x := by
    funext i
    simp [γ]
  have hd' : DifferentiableAt ℝ F (γ 0) := by rwa [hγ0]
  have h1 : DifferentiableAt ℝ (F ∘ γ) 0 := hd'.comp 0 (hγ 0)
  have hneg : DifferentiableAt ℝ (fun s : ℝ => -s) 0 := differentiableAt_id.neg
  have h2 : DifferentiableAt ℝ (fun s : ℝ => (F ∘ γ) (-s)) 0 := DifferentiableAt.comp (g := F ∘ γ) 0 (by simpa using h1) hneg
  -- the even part has derivative zero
  let E : ℝ → ℝ := fun s => (F ∘ γ) s + (F ∘ γ) (-s)
  have hE : HasDerivAt E 0 0 := by
    have a := h1.hasDerivAt
    have b : HasDerivAt (fun s : ℝ => (F ∘ γ) (-s)) (deriv (F ∘ γ) 0 * (-1)) 0 := by
      have a' : HasDerivAt (F ∘ γ) (deriv (F ∘ γ) 0) (-0) := by simpa using a
      exact a'.comp (0 : ℝ) (hasDerivAt_neg 0)
    have := a.add b
    rw [mul_neg_one, add_neg_cancel] at this
    exact this
  rw [hasDerivAt_iff_isLittleO_nhds_zero] at hE
  have hlit := hE.def (show (0 : ℝ) < A by exact hA)
  obtain ⟨δ, hδ, hball⟩ := Metric.eventually_nhds_iff.1 hlit
  have hs := hball (y := δ / 2) (by rw [Real.dist_eq, sub_zero, abs_of_pos (by linarith)]; linarith)
  have hk := h (δ / 2)
  have e0 : E 0 = 2 * F x := by
    simp only [E, Function.comp, neg_zero, hγ0]
    ring
  rw [zero_add, smul_zero, sub_zero, e0, Real.norm_eq_abs, Real.norm_eq_abs] at hs
  have : F (fun i => δ / 2 * y i + (1 - δ / 2) * x i) + F (fun i => -(δ / 2) * y i + (1 - -(δ / 2)) * x i) - 2 * F x = E (δ / 2) - 2 * F x := rfl
  rw [this] at hk
  have hab : 0 < |δ / 2| := by positivity
  have := le_abs_self (E (δ / 2) - 2 * F x)
  nlinarith

/-! ## The smoothed Huber loss -/

/-- The vector whose length is integrated: current in units of `w`, with `eps ^ 2` added to each component. -/
noncomputable def shiftedK (Q : FieldProblem) (w eps : ℝ) (c : List ℝ) (q : ℝ × ℝ) : V3 :=
  ⟨(Q.cp.K c q.1 q.2).x / w + eps ^ 2, (Q.cp.K c q.1 q.2).y / w + eps ^ 2, (Q.cp.K c q.1 q.2).z / w + eps ^ 2⟩

/-- The smoothed loss. -/
noncomputable def huberSum (Q : FieldProblem) (w eps : ℝ) (c : List ℝ) : ℝ :=
  (Q.evalGrid.map fun q => gridStep Q.ePhis * gridStep Q.eThetas * (Q.cp.N q.1 q.2).norm * ((shiftedK Q w eps c q).norm - eps)).sum * Q.cp.nfp

theorem huberSmooth_eq (Q : FieldProblem) (w eps : ℝ) (d : Dofs) :
    Quantity.generateHuber.huberSmooth Q (FieldProblem.fns.K Q d) w eps = huberSum Q w eps (coefs d) := by
  simp only [Quantity.generateHuber.huberSmooth, Quantity.l1Integral, huberSum]
  show (List.zipWith (· * ·) Q.evalSurface.da _).sum * (Q.cp.nfp : ℝ) = _
  congr 2
  simp only [GridSurface.da, FieldProblem.fns, FieldProblem.evalSurface, FieldProblem.evalGrid, List.zipWith_map, List.map_map]
  rw [List.zipWith_self]
  refine List.map_congr_left fun q _ => ?_
  simp only [Function.comp, Quantity.vecNorm, V3.toList, List.map_cons, List.map_nil, List.sum_cons, List.sum_nil, shiftedK, V3.norm, V3.normSq]
  congr 3
  ring

/-- Minimise the Huber loss of the current in units of `v`. -/
noncomputable def huberArgs (sm : String) (e v : ℝ) : QuadcoilArgs :=
  { maxCurrentArgs with objectiveName := .one "f_huber_K", objectiveUnit := .one (.scalar v), smoothing := some sm, sp := ⟨e⟩ }

/-- The smoothing parameter in use: fixed in slack mode. -/
noncomputable def huberEps (sm : String) (e : ℝ) : ℝ := if sm = "slack" then 1 / 1000 else e

/-- The objective of that call. -/
theorem huber_objective (Q : FieldProblem) (others : List String) {sm : String} (hsm : sm = "slack" ∨ sm = "approx") {e u v : ℝ} {S : Setup}
    (hs : quadcoilSetup (shippedRegistry FieldProblem.fns others) Q (huberArgs sm e v) u = .ok S) :
    ∃ pos : Fin (HasQp.ndofs Q) → Fin S.x0.length, Function.Injective pos ∧
      ∀ x : Fin S.x0.length → ℝ, S.problem.f (List.ofFn x) = huberSum Q |v| (huberEps sm e) (List.ofFn fun l => x (pos l) * u) := by
  obtain ⟨o, c, ho, hc, hpu, ht, hx0, -, -, -, hf, -, -⟩ := quadcoilSetup_ok hs
  have hreg := shipped_auxNames FieldProblem.fns others
  have hok : SlackOk (shippedRegistry FieldProblem.fns others) (joinParsed o c).slack :=
    slackOk_union (slackOk_objectives hreg ho) (slackOk_constraints hreg hc)
  have hsl : (joinParsed o c).slack = [] := by
    rcases hsm with rfl | rfl <;> cases ho <;> cases hc <;> rfl
  have hval : ∀ d : Dofs, ((joinParsed o c).f Q d).entries.headD 0 = huberSum Q |v| (huberEps sm e) (coefs d) := by
    intro d
    rw [← huberSmooth_eq]
    rcases hsm with rfl | rfl
    · cases ho
      show (0 : ℝ) + _ * 1 = _
      rw [zero_add, mul_one]
      rfl
    · cases ho
      show (0 : ℝ) + _ * 1 = _
      rw [zero_add, mul_one]
      rfl
  obtain ⟨F, hF⟩ := setup_flatDofs hreg hok (p := List.replicate (HasQp.ndofs Q) 0) u (N := S.x0.length)
    (by rw [hx0, ht]; rfl) (by rw [hsl]; simp)
  have hlen : (List.replicate (HasQp.ndofs Q) (0 : ℝ)).length = HasQp.ndofs Q := List.length_replicate
  refine ⟨fun l => F.pos (Fin.cast hlen.symm l), fun a b h => ?_, fun x => ?_⟩
  · have := F.inj h
    simpa using this
  · rw [hf, hval]
    have hphi : dofsOf S.template u (List.ofFn x) "phi" = .array (List.ofFn fun l => x (F.pos (Fin.cast hlen.symm l)) * u) := by
      rw [ht]
      refine (F.phi x).trans ?_
      rw [hF]
      congr 1
      apply List.ext_getElem <;> simp
    rw [coefs, hphi]
    rfl

/-- Coefficients along a line. -/
theorem ofFn_line {N L : ℕ} (pos : Fin L → Fin N) (u s : ℝ) (x y : Fin N → ℝ) :
    (List.ofFn fun l => (s * y (pos l) + (1 - s) * x (pos l)) * u) =
      comb s (1 - s) (List.ofFn fun l => y (pos l) * u) (List.ofFn fun l => x (pos l) * u) := by
  rw [← ofFn_comb]
  congr 1
  funext l
  ring

theorem shiftedK_line (Q : FieldProblem) (w eps : ℝ) {n : ℕ} {c d : List ℝ} (hc : c.length = n) (hd : d.length = n) (s : ℝ) (q : ℝ × ℝ) :
    shiftedK Q w eps (comb s (1 - s) d c) q = s • shiftedK Q w eps d q + (1 - s) • shiftedK Q w eps c q := by
  obtain ⟨h1, h2, h3⟩ := affine_K Q (n := n) q
  have e1 := h1 d c hd hc s
  have e2 := h2 d c hd hc s
  have e3 := h3 d c hd hc s
  simp only at e1 e2 e3
  ext <;> simp only [shiftedK, e1, e2, e3, V3.add_x, V3.add_y, V3.add_z, V3.smul_x, V3.smul_y, V3.smul_z] <;> ring

theorem V3.norm_combination_le (a b : V3) (s t : ℝ) (hs : 0 ≤ s) (ht : 0 ≤ t) : (s • a + t • b).norm ≤ s * a.norm + t * b.norm := by
  have ha : 0 ≤ a.norm := Real.sqrt_nonneg _
  have hb : 0 ≤ b.norm := Real.sqrt_nonneg _
  have ea : a.norm ^ 2 = a.normSq := Real.sq_sqrt (V3.normSq_nonneg a)
  have eb : b.norm ^ 2 = b.normSq := Real.sq_sqrt (V3.normSq_nonneg b)
  refine Real.sqrt_le_iff.2 ⟨by positivity, ?_⟩
  have hcs : V3.dot a b ≤ a.norm * b.norm := by
    refine (le_abs_self _).trans (abs_le_of_sq_le_sq ?_ (by positivity))
    rw [mul_pow, ea, eb]
    simp only [V3.dot, V3.normSq]
    nlinarith [sq_nonneg (a.x * b.y - a.y * b.x), sq_nonneg (a.x * b.z - a.z * b.x), sq_nonneg (a.y * b.z - a.z * b.y)]
  have hst : 0 ≤ s * t := mul_nonneg hs ht
  have e : (s • a + t • b).normSq = s ^ 2 * a.normSq + 2 * (s * t) * V3.dot a b + t ^ 2 * b.normSq := by
    simp only [V3.normSq, V3.dot, V3.add_x, V3.add_y, V3.add_z, V3.smul_x, V3.smul_y, V3.smul_z]
    ring
  rw [e, ← ea, ← eb]
  nlinarith

theorem line_length {N L : ℕ} (pos : Fin L → Fin N) (u : ℝ) (x : Fin N → ℝ) : (List.ofFn fun l => x (pos l) * u).length = L := by simp

/-- **C130, C134.** The smoothed Huber loss is convex, in slack and in approx mode. -/
theorem C134_huber_convex (Q : FieldProblem) (others : List String) (he : 0 ≤ gridStep Q.ePhis * gridStep Q.eThetas)
    {sm : String} (hsm : sm = "slack" ∨ sm = "approx") {e u v : ℝ} {S : Setup}
    (hs : quadcoilSetup (shippedRegistry FieldProblem.fns others) Q (huberArgs sm e v) u = .ok S) :
    ConvexOn ℝ Set.univ (fun x : Fin S.x0.length → ℝ => S.problem.f (List.ofFn x)) := by
  obtain ⟨pos, -, hf⟩ := huber_objective Q others hsm hs
  simp only [hf]
  refine ⟨convex_univ, fun y _ x _ s t hs' ht hst => ?_⟩
  obtain rfl : t = 1 - s := by linarith
  have hline := ofFn_line pos u s x y
  simp only [Pi.add_apply, Pi.smul_apply, smul_eq_mul]
  rw [hline]
  have hnfp : (0 : ℝ) ≤ Q.cp.nfp := Nat.cast_nonneg _
  simp only [huberSum]
  have key : ∀ l : List (ℝ × ℝ),
      (l.map fun q => gridStep Q.ePhis * gridStep Q.eThetas * (Q.cp.N q.1 q.2).norm * ((shiftedK Q |v| (huberEps sm e)
        (comb s (1 - s) (List.ofFn fun l => y (pos l) * u) (List.ofFn fun l => x (pos l) * u)) q).norm - huberEps sm e)).sum ≤
      s * (l.map fun q => gridStep Q.ePhis * gridStep Q.eThetas * (Q.cp.N q.1 q.2).norm * ((shiftedK Q |v| (huberEps sm e)
        (List.ofFn fun l => y (pos l) * u) q).norm - huberEps sm e)).sum +
      (1 - s) * (l.map fun q => gridStep Q.ePhis * gridStep Q.eThetas * (Q.cp.N q.1 q.2).norm * ((shiftedK Q |v| (huberEps sm e)
        (List.ofFn fun l => x (pos l) * u) q).norm - huberEps sm e)).sum := by
    intro l
    induction l with
    | nil => simp
    | cons q l ih =>
      simp only [List.map_cons, List.sum_cons]
      have h1 := V3.norm_combination_le (shiftedK Q |v| (huberEps sm e) (List.ofFn fun l => y (pos l) * u) q)
        (shiftedK Q |v| (huberEps sm e) (List.ofFn fun l => x (pos l) * u) q) s (1 - s) hs' ht
      rw [← shiftedK_line Q |v| (huberEps sm e) (line_length pos u x) (line_length pos u y)] at h1
      have h2 : 0 ≤ gridStep Q.ePhis * gridStep Q.eThetas * (Q.cp.N q.1 q.2).norm := mul_nonneg he (Real.sqrt_nonneg _)
      have h3 := mul_le_mul_of_nonneg_left h1 h2
      linarith
  have := mul_le_mul_of_nonneg_right (key Q.evalGrid) hnfp
  linarith

/-- The mean of the loss at two opposite points of a line, when the shifted current vanishes at one grid point in the middle. -/
theorem huber_kink (Q : FieldProblem) (he : 0 < gridStep Q.ePhis * gridStep Q.eThetas) {w eps : ℝ} {n : ℕ} {c d : List ℝ}
    (hc : c.length = n) (hd : d.length = n) {q : ℝ × ℝ} (hq : q ∈ Q.evalGrid) (hzero : shiftedK Q w eps c q = 0) (s : ℝ) :
    2 * (gridStep Q.ePhis * gridStep Q.eThetas * (Q.cp.N q.1 q.2).norm * (shiftedK Q w eps d q).norm * Q.cp.nfp) * |s| ≤
      huberSum Q w eps (comb s (1 - s) d c) + huberSum Q w eps (comb (-s) (1 - -s) d c) - 2 * huberSum Q w eps c := by
  have hnfp : (0 : ℝ) ≤ Q.cp.nfp := Nat.cast_nonneg _
  have hnn : ∀ p : ℝ × ℝ, 0 ≤ gridStep Q.ePhis * gridStep Q.eThetas * (Q.cp.N p.1 p.2).norm := fun p => mul_nonneg he.le (Real.sqrt_nonneg _)
  have hterm : ∀ p : ℝ × ℝ, 2 * (shiftedK Q w eps c p).norm ≤
      (shiftedK Q w eps (comb s (1 - s) d c) p).norm + (shiftedK Q w eps (comb (-s) (1 - -s) d c) p).norm := by
    intro p
    have h1 := V3.norm_combination_le (shiftedK Q w eps (comb s (1 - s) d c) p) (shiftedK Q w eps (comb (-s) (1 - -s) d c) p) (1 / 2) (1 / 2)
      (by norm_num) (by norm_num)
    have e : (1 / 2 : ℝ) • shiftedK Q w eps (comb s (1 - s) d c) p + (1 / 2 : ℝ) • shiftedK Q w eps (comb (-s) (1 - -s) d c) p =
        shiftedK Q w eps c p := by
      rw [shiftedK_line Q w eps hc hd, shiftedK_line Q w eps hc hd]
      ext <;> simp only [V3.add_x, V3.add_y, V3.add_z, V3.smul_x, V3.smul_y, V3.smul_z] <;> ring
    rw [e] at h1
    linarith
  have hs : ∀ r : ℝ, (shiftedK Q w eps (comb r (1 - r) d c) q).norm = |r| * (shiftedK Q w eps d q).norm := by
    intro r
    rw [shiftedK_line Q w eps hc hd, hzero]
    have e : (r • shiftedK Q w eps d q + (1 - r) • (0 : V3)).normSq = r ^ 2 * (shiftedK Q w eps d q).normSq := by
      simp only [V3.normSq, V3.add_x, V3.add_y, V3.add_z, V3.smul_x, V3.smul_y, V3.smul_z, V3.zero_x, V3.zero_y, V3.zero_z]
      ring
    rw [V3.norm, e, Real.sqrt_mul (sq_nonneg r), Real.sqrt_sq_eq_abs, V3.norm]
  have h0 : (shiftedK Q w eps c q).norm = 0 := by rw [hzero]; simp [V3.norm, V3.normSq]
  have hsum : ∀ l : List (ℝ × ℝ),
      2 * (l.map fun p => gridStep Q.ePhis * gridStep Q.eThetas * (Q.cp.N p.1 p.2).norm * ((shiftedK Q w eps c p).norm - eps)).sum +
        (if q ∈ l then 2 * (gridStep Q.ePhis * gridStep Q.eThetas * (Q.cp.N q.1 q.2).norm * (shiftedK Q w eps d q).norm) * |s| else 0) ≤
      (l.map fun p => gridStep Q.ePhis * gridStep Q.eThetas * (Q.cp.N p.1 p.2).norm *
          ((shiftedK Q w eps (comb s (1 - s) d c) p).norm - eps)).sum +
        (l.map fun p => gridStep Q.ePhis * gridStep Q.eThetas * (Q.cp.N p.1 p.2).norm *
          ((shiftedK Q w eps (comb (-s) (1 - -s) d c) p).norm - eps)).sum := by
    intro l
    induction l with
    | nil => simp
    | cons p l ih =>
      simp only [List.map_cons, List.sum_cons]
      have h1 := mul_le_mul_of_nonneg_left (hterm p) (hnn p)
      by_cases hpq : p = q
      · subst hpq
        rw [if_pos (by simp)]
        have h2 : (if p ∈ l then 2 * (gridStep Q.ePhis * gridStep Q.eThetas * (Q.cp.N p.1 p.2).norm * (shiftedK Q w eps d p).norm) * |s|
            else 0) ≥ 0 := by
          split_ifs
          · have := hnn p
            have : 0 ≤ (shiftedK Q w eps d p).norm := Real.sqrt_nonneg _
            positivity
          · exact le_rfl
        rw [hs s, hs (-s), h0, abs_neg]
        linarith
      · have hiff : (q ∈ p :: l) ↔ q ∈ l := by
          simp [Ne.symm hpq, eq_comm]
        simp only [hiff]
        linarith
  have := hsum Q.evalGrid
  rw [if_pos hq] at this
  have := mul_le_mul_of_nonneg_right this hnfp
  simp only [huberSum]
  linarith

/-- **C130, C134, false of the code.** The smoothed Huber loss is not differentiable at any vector for which, at some grid point, the
current is minus `eps ^ 2` times the unit in every component, if the current there depends on the potential. The smoothing moves the
kink of the norm, it does not remove it: `eps ^ 2` is added to the components instead of the square of the norm. -/
theorem C134_huber_kink_violated_partial (Q : FieldProblem) (others : List String) (he : 0 < gridStep Q.ePhis * gridStep Q.eThetas)
    (hn : Q.cp.nfp ≠ 0) {sm : String} (hsm : sm = "slack" ∨ sm = "approx") {e u v : ℝ} (hu : u ≠ 0) {S : Setup}
    (hs : quadcoilSetup (shippedRegistry FieldProblem.fns others) Q (huberArgs sm e v) u = .ok S) :
    ∀ (c d : List ℝ) (q : ℝ × ℝ), c.length = HasQp.ndofs Q → d.length = HasQp.ndofs Q → q ∈ Q.evalGrid → Q.cp.N q.1 q.2 ≠ 0 →
      shiftedK Q |v| (huberEps sm e) c q = 0 → shiftedK Q |v| (huberEps sm e) d q ≠ 0 →
      ∃ x : Fin S.x0.length → ℝ, (∃ pos : Fin (HasQp.ndofs Q) → Fin S.x0.length, (List.ofFn fun l => x (pos l) * u) = c) ∧
        ¬ DifferentiableAt ℝ (fun x : Fin S.x0.length → ℝ => S.problem.f (List.ofFn x)) x := by
  intro c d q hc hd hq hN hzero hne
  obtain ⟨pos, hinj, hf⟩ := huber_objective Q others hsm hs
  -- flat vectors for the two lists of coefficients
  have hpre : ∀ c : List ℝ, c.length = HasQp.ndofs Q → ∃ x : Fin S.x0.length → ℝ, (List.ofFn fun l => x (pos l) * u) = c := by
    intro c hc
    obtain ⟨g, rfl⟩ := exists_ofFn hc
    refine ⟨Function.extend pos (fun l => g l / u) 0, ?_⟩
    congr 1
    funext l
    rw [hinj.extend_apply, div_mul_cancel₀ _ hu]
  obtain ⟨x, hx⟩ := hpre c hc
  obtain ⟨y, hy⟩ := hpre d hd
  refine ⟨x, ⟨pos, hx⟩, ?_⟩
  have hnfp : (0 : ℝ) < Q.cp.nfp := by exact_mod_cast Nat.pos_of_ne_zero hn
  have hA : 0 < gridStep Q.ePhis * gridStep Q.eThetas * (Q.cp.N q.1 q.2).norm * (shiftedK Q |v| (huberEps sm e) d q).norm * Q.cp.nfp :=
    mul_pos (mul_pos (mul_pos he ((V3.norm_pos_iff _).2 hN)) ((V3.norm_pos_iff _).2 hne)) hnfp
  refine not_differentiableAt_of_kink (y := y) hA fun s => ?_
  rw [hf, hf, hf, ofFn_line, ofFn_line, hx, hy]
  exact huber_kink Q he hc hd hq hzero s

/-! ## A torus with such a kink -/

/-- Circular torus with net poloidal current `G`. -/
noncomputable def kinkTorus (G : ℝ) : FieldProblem where
  cp := { surf := { nfp := 1, stellsym := true, mpol := 1, ntor := 0 }, wdofs := [2, 1, 1], G := G, I := 0, mpol := 1, ntor := 0, stellsym := true }
  wPhis := linspace0 1 8
  wThetas := linspace0 1 3
  ePhis := linspace0 1 8
  eThetas := linspace0 1 3
  plasma := ⟨{ nfp := 1, stellsym := true, mpol := 1, ntor := 0 }, [2, 1 / 2, 1 / 2], linspace0 1 8, linspace0 1 3⟩
  bPlasma := []

/-- The current at the point with toroidal angle 135 degrees on the outside. -/
theorem kinkTorus_K (G x : ℝ) : (kinkTorus G).cp.K [x] (3 / 8) 0 = ⟨x * (√2 / 2), x * (√2 / 2), G / (6 * π)⟩ := by
  have hpi := pi_ne_zero
  have a1 : sin (2 * π * (3 / 8)) = √2 / 2 := by
    rw [show 2 * π * (3 / 8) = π - π / 4 by ring, sin_pi_sub, sin_pi_div_four]
  have a2 : cos (2 * π * (3 / 8)) = -(√2 / 2) := by
    rw [show 2 * π * (3 / 8) = π - π / 4 by ring, cos_pi_sub, cos_pi_div_four]
  have h1 : (kinkTorus G).cp.dg1 (3 / 8) 0 = ⟨-(6 * π * (√2 / 2)), -(6 * π * (√2 / 2)), 0⟩ := by
    have := (circularTorus_tangents (3 / 8) 0).1
    rw [a1, a2, mul_zero, cos_zero] at this
    refine Eq.trans (show _ = circularTorus.dg1 (3 / 8) 0 from rfl) (this.trans ?_)
    ext <;> simp <;> ring
  have h2 : (kinkTorus G).cp.dg2 (3 / 8) 0 = ⟨0, 0, 2 * π⟩ := by
    have := (circularTorus_tangents (3 / 8) 0).2
    refine Eq.trans (show _ = circularTorus.dg2 (3 / 8) 0 from rfl) (this.trans ?_)
    ext <;> simp
  have hsq : ((kinkTorus G).cp.N (3 / 8) 0).normSq = (12 * π ^ 2) ^ 2 := by
    have h22 : √2 * √2 = 2 := Real.mul_self_sqrt (by norm_num)
    rw [N, h1, h2]
    simp only [V3.cross, V3.normSq]
    ring_nf
    rw [show √2 ^ 2 = 2 by rw [sq]; exact h22]
    ring
  have hn : ((kinkTorus G).cp.N (3 / 8) 0).norm = 12 * π ^ 2 := by rw [V3.norm, hsq, sqrt_sq (by positivity)]
  have hr : (kinkTorus G).cp.rows = [(1, 0, 1)] := show circularTorus.rows = [(1, 0, 1)] by decide
  have r1 : (kinkTorus G).cp.opPhi (3 / 8) 0 = [0] := by
    simp [opPhi, trigDiff, partialPhi, mulDiag, hr, angle, sinOrCos]
  have r2 : (kinkTorus G).cp.opTheta (3 / 8) 0 = [2 * π] := by
    simp [opTheta, trigDiff, partialTheta, mulDiag, hr, angle, sinOrCos]
  have hGI : (kinkTorus G).cp.G = G ∧ (kinkTorus G).cp.I = 0 := ⟨rfl, rfl⟩
  simp only [K, bK, cK, r1, r2, invN, hn, h1, h2, hGI.1, hGI.2]
  ext <;> simp [appV, app] <;> field_simp <;> ring

/-- **C130, C134, false of the code.** In slack and in approx mode, for every smoothing parameter and every unit, there is a torus with a
net poloidal current on which the objective `f_huber_K` is not differentiable at some vector. -/
theorem C134_huber_kink_exists_violated_partial {sm : String} (hsm : sm = "slack" ∨ sm = "approx") (e : ℝ) {u v : ℝ} (hu : u ≠ 0)
    (hv : v ≠ 0) : ∃ G S, quadcoilSetup (shippedRegistry FieldProblem.fns []) (kinkTorus G) (huberArgs sm e v) u = .ok S ∧
      ∃ x : Fin S.x0.length → ℝ, ¬ DifferentiableAt ℝ (fun x : Fin S.x0.length → ℝ => S.problem.f (List.ofFn x)) x := by
  have hok : ∀ G, ∃ S, quadcoilSetup (shippedRegistry FieldProblem.fns []) (kinkTorus G) (huberArgs sm e v) u = .ok S := by
    intro G
    rw [C131_setup_succeeds_iff_legal]
    refine ⟨?_, ⟨rfl, rfl, by simp [huberArgs, maxCurrentArgs], by simp [QuadcoilArgs.requests, huberArgs, maxCurrentArgs, zipRequests]⟩,
      fun h => by cases h⟩
    have h : LegalUse (shippedRegistry FieldProblem.fns []) (some sm) "f_huber_K" (.scalar v) "f" :=
      legal_shipped FieldProblem.fns [] (by rcases hsm with rfl | rfl <;> simp [knownSmoothing]) rfl (by decide) (by simp)
    exact h
  obtain ⟨G, hG⟩ : ∃ G, G = -(6 * π * (huberEps sm e ^ 2 * |v|)) := ⟨_, rfl⟩
  obtain ⟨S, hS⟩ := hok G
  have hpi := pi_ne_zero
  have hv' : |v| ≠ 0 := abs_ne_zero.2 hv
  have h22 : √2 * √2 = 2 := Real.mul_self_sqrt (by norm_num)
  have hK := kinkTorus_K G
  have step8 : gridStep (linspace0 1 8) = 1 / 8 := by rw [gridStep_linspace0 _ _ (by norm_num)]; norm_num
  have step3 : gridStep (linspace0 1 3) = 1 / 3 := by rw [gridStep_linspace0 _ _ (by norm_num)]; norm_num
  obtain ⟨x, -, hx⟩ := C134_huber_kink_violated_partial (kinkTorus G) [] (by
      show 0 < gridStep (linspace0 1 8) * gridStep (linspace0 1 3)
      rw [step8, step3]; norm_num) (show (1 : ℕ) ≠ 0 by decide) hsm hu hS [-(√2 * (huberEps sm e ^ 2 * |v|))] [-(√2 * (huberEps sm e ^ 2 * |v|)) + 1] (3 / 8, 0)
    rfl rfl (by
      simp only [FieldProblem.evalGrid, gridPoints, kinkTorus, linspace0, List.range_succ, List.range_zero]
      simp
      norm_num) (circularTorus_regular (3 / 8) 0).1
    (by
      simp only [shiftedK, hK]
      have e1 : -(√2 * (huberEps sm e ^ 2 * |v|)) * (√2 / 2) / |v| + huberEps sm e ^ 2 = 0 := by
        field_simp
        nlinarith
      have e2 : G / (6 * π) / |v| + huberEps sm e ^ 2 = 0 := by
        rw [hG]
        field_simp
        ring
      rw [e1, e2]
      rfl)
    (by
      intro h
      have h1 := congrArg V3.x h
      simp only [shiftedK, hK, V3.zero_x] at h1
      have e1 : -(√2 * (huberEps sm e ^ 2 * |v|)) * (√2 / 2) / |v| + huberEps sm e ^ 2 = 0 := by
        field_simp
        nlinarith
      have h2 : √2 / 2 / |v| = 0 := by
        have : (-(√2 * (huberEps sm e ^ 2 * |v|)) + 1) * (√2 / 2) / |v| + huberEps sm e ^ 2 =
          (-(√2 * (huberEps sm e ^ 2 * |v|)) * (√2 / 2) / |v| + huberEps sm e ^ 2) + √2 / 2 / |v| := by ring
        rw [this, e1, zero_add] at h1
        exact h1
      have h3 : (0 : ℝ) < √2 := Real.sqrt_pos.2 (by norm_num)
      have h4 : 0 < |v| := abs_pos.2 hv
      have : 0 < √2 / 2 / |v| := by positivity
      exact this.ne' h2)
  exact ⟨G, S, hS, x, hx⟩

end Verif
