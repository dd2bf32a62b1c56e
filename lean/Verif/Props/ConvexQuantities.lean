import Verif.Props.Unique
import Verif.Props.ForceField
import Verif.Model.Problem
import Verif.Lemmas.Lse

/-!
# C124: which quantities are convex
-/

namespace Verif

open Real CpParams

/-- `f` is affine on the vectors of length `n`. -/
def AffineOnVectors (n : ℕ) (f : List ℝ → ℝ) : Prop :=
  ∀ c d : List ℝ, c.length = n → d.length = n → ∀ a : ℝ, f (comb a (1 - a) c d) = a * f c + (1 - a) * f d

/-- Every entry of the list-valued `g` has the property `p`. The number of entries does not depend on the argument. -/
def EachEntry (p : (List ℝ → ℝ) → Prop) (g : List ℝ → List ℝ) : Prop :=
  ∃ fs : List (List ℝ → ℝ), (∀ c, g c = fs.map fun f => f c) ∧ ∀ f ∈ fs, p f

/-- The numbers a quantity returns when it is called with coefficients `c`. -/
noncomputable def valuesOf {P : Type} (q : Quantity P) (Q : P) (c : List ℝ) : List ℝ := (q.call Q (phiOnly (.array c))).entries

section
variable {n : ℕ}

theorem AffineOnVectors.convex {f : List ℝ → ℝ} (h : AffineOnVectors n f) : ConvexOnVectors n f :=
  fun c d hc hd a _ _ => (h c d hc hd a).le

theorem ConvexOnVectors.abs_affine {f : List ℝ → ℝ} (h : AffineOnVectors n f) : ConvexOnVectors n fun c => |f c| := by
  intro c d hc hd a h0 h1
  simp only [h c d hc hd a]
  refine (abs_add_le _ _).trans ?_
  rw [abs_mul, abs_mul, abs_of_nonneg h0, abs_of_nonneg (by linarith : 0 ≤ 1 - a)]

theorem ConvexOnVectors.pow_nonneg {f : List ℝ → ℝ} (h : ConvexOnVectors n f) (hf : ∀ c, 0 ≤ f c) :
    ConvexOnVectors n fun c => f c ^ 2 := by
  intro c d hc hd a h0 h1
  refine (pow_le_pow_left₀ (hf _) (h c d hc hd a h0 h1) 2).trans (sq_convex _ _ a h0 h1)

theorem ConvexOnVectors.sq_affine {f : List ℝ → ℝ} (h : AffineOnVectors n f) : ConvexOnVectors n fun c => f c ^ 2 := by
  intro c d hc hd a h0 h1
  simp only [h c d hc hd a]
  exact sq_convex _ _ a h0 h1

theorem ConvexOnVectors.add {f g : List ℝ → ℝ} (hf : ConvexOnVectors n f) (hg : ConvexOnVectors n g) :
    ConvexOnVectors n fun c => f c + g c := by
  intro c d hc hd a h0 h1
  have := hf c d hc hd a h0 h1
  have := hg c d hc hd a h0 h1
  simp only
  linarith

theorem ConvexOnVectors.const_mul {f : List ℝ → ℝ} (hf : ConvexOnVectors n f) (w : ℝ) (hw : 0 ≤ w) :
    ConvexOnVectors n fun c => w * f c := by
  intro c d hc hd a h0 h1
  have := mul_le_mul_of_nonneg_left (hf c d hc hd a h0 h1) hw
  simp only
  linarith

theorem ConvexOnVectors.sup {f g : List ℝ → ℝ} (hf : ConvexOnVectors n f) (hg : ConvexOnVectors n g) :
    ConvexOnVectors n fun c => max (f c) (g c) := by
  intro c d hc hd a h0 h1
  have h1' : 0 ≤ 1 - a := by linarith
  refine max_le ((hf c d hc hd a h0 h1).trans ?_) ((hg c d hc hd a h0 h1).trans ?_)
  · exact add_le_add (mul_le_mul_of_nonneg_left (le_max_left _ _) h0) (mul_le_mul_of_nonneg_left (le_max_left _ _) h1')
  · exact add_le_add (mul_le_mul_of_nonneg_left (le_max_right _ _) h0) (mul_le_mul_of_nonneg_left (le_max_right _ _) h1')

theorem convex_jmax (fs : List (List ℝ → ℝ)) (h : ∀ f ∈ fs, ConvexOnVectors n f) :
    ConvexOnVectors n fun c => jmax (fs.map fun f => f c) := by
  cases fs with
  | nil => intro c d _ _ a _ _; simp [jmax]
  | cons g l =>
    have hg := h g (by simp)
    have hl : ∀ f ∈ l, ConvexOnVectors n f := fun f hf => h f (by simp [hf])
    clear h
    induction l with
    | nil => simpa [jmax] using hg
    | cons f l ih =>
      have e : (fun c => jmax ((g :: f :: l).map fun f => f c)) = fun c => max (f c) (jmax ((g :: l).map fun f => f c)) := by
        funext c
        simp [jmax]
      rw [e]
      exact (hl f (by simp)).sup (ih fun f hf => hl f (by simp [hf]))

theorem convex_wsum (ws : List ℝ) (hw : ∀ w ∈ ws, 0 ≤ w) (fs : List (List ℝ → ℝ)) (h : ∀ f ∈ fs, ConvexOnVectors n f) :
    ConvexOnVectors n fun c => (List.zipWith (· * ·) ws (fs.map fun f => f c)).sum := by
  induction ws generalizing fs with
  | nil => intro c d _ _ a _ _; simp
  | cons w ws ih =>
    cases fs with
    | nil => intro c d _ _ a _ _; simp
    | cons f fs =>
      simp only [List.map_cons, List.zipWith_cons_cons, List.sum_cons]
      exact ((h f (by simp)).const_mul w (hw w (by simp))).add
        (ih (fun w hw' => hw w (by simp [hw'])) fs fun f hf => h f (by simp [hf]))

theorem jmax_nonneg (l : List ℝ) (h : ∀ x ∈ l, 0 ≤ x) : 0 ≤ jmax l := by
  cases l with
  | nil => simp [jmax]
  | cons a l =>
    simp only [jmax]
    induction l with
    | nil => exact h a (by simp)
    | cons b l ih => exact le_max_of_le_left (h b (by simp))

/-- The norm of a vector of affine functions is convex. -/
theorem convex_vecNorm (fs : List (List ℝ → ℝ)) (h : ∀ f ∈ fs, AffineOnVectors n f) :
    ConvexOnVectors n fun c => Quantity.vecNorm (fs.map fun f => f c) := by
  intro c d hc hd a h0 h1
  have h1' : 0 ≤ 1 - a := by linarith
  simp only [Quantity.vecNorm, List.map_map]
  set N : List ℝ → ℝ := fun c => (fs.map ((fun x : ℝ => x ^ 2) ∘ fun f => f c)).sum with hN
  have hpos : ∀ (gs : List (List ℝ → ℝ)) (e : List ℝ), 0 ≤ (gs.map ((fun x : ℝ => x ^ 2) ∘ fun f => f e)).sum := by
    intro gs e
    refine List.sum_nonneg fun x hx => ?_
    obtain ⟨f, -, rfl⟩ := List.mem_map.1 hx
    exact sq_nonneg _
  -- Minkowski
  have key : ∀ gs : List (List ℝ → ℝ), (∀ f ∈ gs, AffineOnVectors n f) →
      sqrt ((gs.map ((fun x : ℝ => x ^ 2) ∘ fun f => f (comb a (1 - a) c d))).sum) ≤
        a * sqrt ((gs.map ((fun x : ℝ => x ^ 2) ∘ fun f => f c)).sum) +
          (1 - a) * sqrt ((gs.map ((fun x : ℝ => x ^ 2) ∘ fun f => f d)).sum) := by
    intro gs hgs
    induction gs with
    | nil => simp
    | cons f gs ih =>
      have ih := ih fun g hg => hgs g (by simp [hg])
      simp only [List.map_cons, List.sum_cons, Function.comp_apply]
      have hA := hpos gs (comb a (1 - a) c d)
      have hC := hpos gs c
      have hD := hpos gs d
      generalize (gs.map ((fun x : ℝ => x ^ 2) ∘ fun f => f (comb a (1 - a) c d))).sum = A at ih hA ⊢
      generalize (gs.map ((fun x : ℝ => x ^ 2) ∘ fun f => f c)).sum = C at ih hC ⊢
      generalize (gs.map ((fun x : ℝ => x ^ 2) ∘ fun f => f d)).sum = D at ih hD ⊢
      rw [hgs f (by simp) c d hc hd a]
      generalize f c = u
      generalize f d = v
      have hsC := sqrt_nonneg (u ^ 2 + C)
      have hsD := sqrt_nonneg (v ^ 2 + D)
      refine sqrt_le_iff.2 ⟨by positivity, ?_⟩
      have hA2 : A ≤ (a * sqrt C + (1 - a) * sqrt D) ^ 2 := by
        have := pow_le_pow_left₀ (sqrt_nonneg A) ih 2
        rwa [sq_sqrt hA] at this
      have hcs : u * v + sqrt C * sqrt D ≤ sqrt (u ^ 2 + C) * sqrt (v ^ 2 + D) := by
        rw [← sqrt_mul (by positivity : (0 : ℝ) ≤ u ^ 2 + C) (v ^ 2 + D)]
        refine le_sqrt_of_sq_le ?_
        have e1 := sq_sqrt hC
        have e2 := sq_sqrt hD
        nlinarith [sq_nonneg (u * sqrt D - v * sqrt C)]
      have e1 := sq_sqrt hC
      have e2 := sq_sqrt hD
      have e3 : sqrt (u ^ 2 + C) ^ 2 = u ^ 2 + C := sq_sqrt (by positivity)
      have e4 : sqrt (v ^ 2 + D) ^ 2 = v ^ 2 + D := sq_sqrt (by positivity)
      have hm := mul_le_mul_of_nonneg_left hcs (mul_nonneg h0 h1')
      calc (a * u + (1 - a) * v) ^ 2 + A ≤ (a * u + (1 - a) * v) ^ 2 + (a * sqrt C + (1 - a) * sqrt D) ^ 2 := by linarith
        _ = a ^ 2 * (u ^ 2 + sqrt C ^ 2) + (1 - a) ^ 2 * (v ^ 2 + sqrt D ^ 2) + 2 * (a * (1 - a) * (u * v + sqrt C * sqrt D)) := by
          ring
        _ ≤ a ^ 2 * (u ^ 2 + C) + (1 - a) ^ 2 * (v ^ 2 + D)
            + 2 * (a * (1 - a) * (sqrt (u ^ 2 + C) * sqrt (v ^ 2 + D))) := by rw [e1, e2]; linarith
        _ = (a * sqrt (u ^ 2 + C) + (1 - a) * sqrt (v ^ 2 + D)) ^ 2 := by rw [← e3, ← e4]; simp only [sqrt_sq hsC, sqrt_sq hsD]; ring
  exact key fs h

end

/-! ## The quantities of the package -/

section
variable (Q : FieldProblem) {n : ℕ}

theorem affine_K (q : ℝ × ℝ) : AffineOnVectors n (fun c => (Q.cp.K c q.1 q.2).x) ∧ AffineOnVectors n (fun c => (Q.cp.K c q.1 q.2).y) ∧
    AffineOnVectors n (fun c => (Q.cp.K c q.1 q.2).z) := by
  have h : ∀ c d : List ℝ, c.length = n → d.length = n → ∀ a : ℝ, Q.cp.K (comb a (1 - a) c d) q.1 q.2 =
      a • Q.cp.K c q.1 q.2 + (1 - a) • Q.cp.K d q.1 q.2 := fun c d hc hd a => C41_affine Q.cp c d (hc.trans hd.symm) a q.1 q.2
  refine ⟨fun c d hc hd a => ?_, fun c d hc hd a => ?_, fun c d hc hd a => ?_⟩ <;> simp only [h c d hc hd a] <;> simp

theorem affine_windingB (x : V3) : AffineOnVectors n (fun c => (Q.windingB c x).x) ∧ AffineOnVectors n (fun c => (Q.windingB c x).y) ∧
    AffineOnVectors n (fun c => (Q.windingB c x).z) := by
  have h : ∀ c d : List ℝ, c.length = n → d.length = n → ∀ a : ℝ, Q.windingB (comb a (1 - a) c d) x =
      a • Q.windingB c x + (1 - a) • Q.windingB d x := fun c d hc hd a => C47_field_affine Q c d (hc.trans hd.symm) a x
  refine ⟨fun c d hc hd a => ?_, fun c d hc hd a => ?_, fun c d hc hd a => ?_⟩ <;> simp only [h c d hc hd a] <;> simp

theorem affine_app (row : List ℝ) : AffineOnVectors n (fun c => app row c) :=
  fun c d hc hd a => app_comb _ _ _ _ _ (hc.trans hd.symm)

theorem affine_add_const {f : List ℝ → ℝ} (h : AffineOnVectors n f) (b : ℝ) : AffineOnVectors n fun c => f c + b := by
  intro c d hc hd a
  simp only [h c d hc hd a]
  ring

theorem affine_bnormal (q : (ℝ × ℝ) × ℝ) : AffineOnVectors n fun c => Q.bnWinding c q.1 + q.2 :=
  affine_add_const (fun c d hc hd a => bnWinding_affine Q c d (hc.trans hd.symm) a q.1) q.2

theorem affine_KTheta (q : ℝ × ℝ) : AffineOnVectors n fun c => okOr0 (Q.cp.KTheta c q.1 q.2) := by
  cases h : Q.cp.stellsym
  · intro c d _ _ a
    simp [CpParams.KTheta, h, okOr0]
  · have e : (fun c => okOr0 (Q.cp.KTheta c q.1 q.2)) = fun c => app (Q.cp.opPhi q.1 q.2) c + Q.cp.G := by
      funext c
      simp [CpParams.KTheta, h, okOr0]
    rw [e]
    exact affine_add_const (affine_app _) _

theorem coefs_phiOnly (c : List ℝ) : coefs (phiOnly (.array c)) = c := by
  simp [coefs, phiOnly, Val.entries]

theorem call_phiOnly (q : Quantity FieldProblem) (c : List ℝ) :
    q.call Q (phiOnly (.array c)) = q.rawF Q (phiOnly (.array c)) := by
  have : phiOnly (phiOnly (.array c) "phi") = phiOnly (.array c) := by
    funext k
    simp [phiOnly]
  rw [Quantity.call, this]

theorem eachEntry_map {β : Type} {p : (List ℝ → ℝ) → Prop} (l : List β) (f : List ℝ → β → ℝ) (h : ∀ b ∈ l, p fun c => f c b) :
    EachEntry p fun c => l.map (f c) := by
  refine ⟨l.map fun b c => f c b, fun c => ?_, ?_⟩
  · rw [List.map_map]
    rfl
  · intro g hg
    obtain ⟨b, hb, rfl⟩ := List.mem_map.1 hg
    exact h b hb

theorem eachEntry_vec {β : Type} {p : (List ℝ → ℝ) → Prop} (l : List β) (f : List ℝ → β → V3)
    (h : ∀ b ∈ l, p (fun c => (f c b).x) ∧ p (fun c => (f c b).y) ∧ p (fun c => (f c b).z)) :
    EachEntry p fun c => l.flatMap fun b => (f c b).toList := by
  refine ⟨l.flatMap fun b => [fun c => (f c b).x, fun c => (f c b).y, fun c => (f c b).z], fun c => ?_, ?_⟩
  · rw [List.map_flatMap]
    rfl
  · intro g hg
    obtain ⟨b, hb, hg⟩ := List.mem_flatMap.1 hg
    simp only [List.mem_cons, List.not_mem_nil, or_false] at hg
    obtain ⟨h1, h2, h3⟩ := h b hb
    rcases hg with rfl | rfl | rfl
    · exact h1
    · exact h2
    · exact h3

theorem eachEntry_single {p : (List ℝ → ℝ) → Prop} {f : List ℝ → ℝ} (h : p f) : EachEntry p fun c => [f c] :=
  ⟨[f], fun _ => rfl, by simpa using h⟩

/-- The names of the quantities that are affine in the coefficients. -/
def affineNames : List String := ["K", "K_theta", "winding_surface_B", "Bnormal", "Phi", "Phi_with_net_current"]

/-- The names of the quantities that are convex in the coefficients, and not affine. -/
def convexNames : List String :=
  ["K2", "f_max_K2", "f_huber_K", "f_K", "Bnormal2", "f_B", "f_B_normalized_by_Bnormal_IG", "f_max_Bnormal", "f_max_Bnormal2", "Phi2",
   "f_max_Phi", "f_max_Phi2", "f_max_Phi4", "f_l1_Phi", "f_Phi"]

/-- **C124.** The values of the fields `K`, `K_theta`, `winding_surface_B`, `Bnormal`, `Phi` and `Phi_with_net_current` are affine
functions of the coefficients. -/
theorem C124_affine_partial (name : String) (h : name ∈ affineNames) :
    ∃ q, (shipped FieldProblem.fns).lookup name = some q ∧ EachEntry (AffineOnVectors n) (valuesOf q Q) := by
  have e : ∀ q : Quantity FieldProblem, valuesOf q Q = fun c => (q.rawF Q (phiOnly (.array c))).entries := by
    intro q
    funext c
    rw [valuesOf, call_phiOnly]
  simp only [affineNames, List.mem_cons, List.not_mem_nil, or_false] at h
  rcases h with rfl | rfl | rfl | rfl | rfl | rfl
  · refine ⟨_, rfl, ?_⟩
    rw [e]
    simp only [Quantity.generateC2, arr, Val.entries, FieldProblem.fns, coefs_phiOnly, ← List.flatMap_def]
    exact eachEntry_vec _ _ fun q _ => affine_K Q q
  · refine ⟨_, rfl, ?_⟩
    rw [e]
    simp only [Quantity.generateC2, arr, Val.entries, FieldProblem.fns, coefs_phiOnly]
    exact eachEntry_map _ _ fun q _ => affine_KTheta Q q
  · refine ⟨_, rfl, ?_⟩
    rw [e]
    simp only [Quantity.generateC2, arr, Val.entries, FieldProblem.fns, coefs_phiOnly]
    exact eachEntry_vec _ _ fun q _ => affine_windingB Q _
  · refine ⟨_, rfl, ?_⟩
    rw [e]
    simp only [Quantity.generateC2, arr, Val.entries, FieldProblem.fns, coefs_phiOnly, FieldProblem.bnormal]
    exact eachEntry_map _ _ fun q _ => affine_bnormal Q q
  · refine ⟨_, rfl, ?_⟩
    rw [e]
    simp only [Quantity.generateC2, arr, Val.entries, FieldProblem.fns, coefs_phiOnly]
    exact eachEntry_map _ _ fun q _ => affine_app _
  · refine ⟨_, rfl, ?_⟩
    rw [e]
    simp only [Quantity.generateC2, arr, Val.entries, FieldProblem.fns, coefs_phiOnly]
    exact eachEntry_map _ _ fun q _ => affine_add_const (affine_add_const (affine_app _) _) _

theorem convex_K2 (q : ℝ × ℝ) : ConvexOnVectors n fun c => Q.cp.K2 c q.1 q.2 := by
  obtain ⟨h1, h2, h3⟩ := affine_K Q (n := n) q
  have := ((ConvexOnVectors.sq_affine h1).add (ConvexOnVectors.sq_affine h2)).add (ConvexOnVectors.sq_affine h3)
  simpa only [CpParams.K2, V3.normSq, V3.dot, ← pow_two] using this

theorem K2_nonneg (c : List ℝ) (q : ℝ × ℝ) : 0 ≤ Q.cp.K2 c q.1 q.2 := by
  simp only [CpParams.K2, V3.normSq]
  positivity

/-- The maximum of convex functions. -/
theorem convex_max {β : Type} (l : List β) (f : List ℝ → β → ℝ) (h : ∀ b ∈ l, ConvexOnVectors n fun c => f c b) :
    ConvexOnVectors n fun c => jmax (l.map (f c)) := by
  obtain ⟨fs, e, hfs⟩ := eachEntry_map l f h
  have := convex_jmax fs hfs
  simpa only [← e] using this

/-- A weighted sum over the evaluation grid. -/
theorem convex_integral (he : 0 ≤ gridStep Q.ePhis * gridStep Q.eThetas) (f : List ℝ → ℝ × ℝ → ℝ)
    (h : ∀ q, ConvexOnVectors n fun c => f c q) :
    ConvexOnVectors n fun c => (List.zipWith (· * ·) Q.evalSurface.da (Q.evalGrid.map (f c))).sum * Q.cp.nfp := by
  obtain ⟨fs, e, hfs⟩ := eachEntry_map Q.evalGrid f fun q _ => h q
  have h1 := convex_wsum Q.evalSurface.da (fun w hw => da_nonneg Q.evalSurface he w hw) fs hfs
  have h2 := h1.const_mul (Q.cp.nfp : ℝ) (Nat.cast_nonneg _)
  simp only [← e] at h2
  simpa only [mul_comm] using h2

/-- **C124.** The quantities built from norms of affine fields, and the squared fields, are convex functions of the coefficients. -/
theorem C124_convex_partial (hp : 0 ≤ gridStep Q.plasma.phis * gridStep Q.plasma.thetas)
    (he : 0 ≤ gridStep Q.ePhis * gridStep Q.eThetas) (name : String) (h : name ∈ convexNames) :
    ∃ q, (shipped FieldProblem.fns).lookup name = some q ∧ EachEntry (ConvexOnVectors n) (valuesOf q Q) := by
  have e : ∀ q : Quantity FieldProblem, valuesOf q Q = fun c => (q.rawF Q (phiOnly (.array c))).entries := by
    intro q
    funext c
    rw [valuesOf, call_phiOnly]
  have hfBK := C47_objectives_convex Q hp he
  simp only [convexNames, List.mem_cons, List.not_mem_nil, or_false] at h
  rcases h with rfl | rfl | rfl | rfl | rfl | rfl | rfl | rfl | rfl | rfl | rfl | rfl | rfl | rfl | rfl <;>
    refine ⟨_, rfl, ?_⟩ <;> rw [e] <;>
    simp only [Quantity.generateC2, Quantity.generateLinf, Quantity.generateLinf4, Quantity.generateL1, Quantity.generateHuber,
      Quantity.maxAbs, Quantity.l1Integral, arr, num, Val.entries, FieldProblem.fns, coefs_phiOnly, FieldProblem.bnormal, HasQp.da,
      HasQp.nfp, List.map_map, Bool.false_eq_true, if_false, if_true, Function.comp_def]
  · exact eachEntry_map _ _ fun q _ => convex_K2 Q q
  · refine eachEntry_single (convex_max _ _ fun q _ => ?_)
    simp only [abs_of_nonneg (K2_nonneg Q _ q)]
    exact convex_K2 Q q
  · refine eachEntry_single (convex_integral Q he _ fun q => ?_)
    obtain ⟨h1, h2, h3⟩ := affine_K Q (n := n) q
    exact convex_vecNorm [fun c => (Q.cp.K c q.1 q.2).x, fun c => (Q.cp.K c q.1 q.2).y, fun c => (Q.cp.K c q.1 q.2).z] (by
      intro f hf
      simp only [List.mem_cons, List.not_mem_nil, or_false] at hf
      rcases hf with rfl | rfl | rfl
      · exact h1
      · exact h2
      · exact h3)
  · exact eachEntry_single (hfBK n).2
  · exact eachEntry_map _ _ fun q _ => ConvexOnVectors.sq_affine (affine_bnormal Q q)
  · exact eachEntry_single (hfBK n).1
  · refine eachEntry_single ?_
    have h0 := (C47_objectives_nonneg Q hp he (List.replicate (cpNdofs Q.cp.stellsym Q.cp.mpol Q.cp.ntor).1 0)).1
    have := (hfBK n).1.const_mul _ (inv_nonneg.2 h0)
    have e : Q.fBnormalized = fun c => (Q.fB (List.replicate (cpNdofs Q.cp.stellsym Q.cp.mpol Q.cp.ntor).1 0))⁻¹ * Q.fB c := by
      funext c
      rw [FieldProblem.fBnormalized, div_eq_inv_mul]
    rw [e]
    exact this
  · exact eachEntry_single (convex_max _ _ fun q _ => ConvexOnVectors.abs_affine (affine_bnormal Q q))
  · refine eachEntry_single (convex_max _ _ fun q _ => ?_)
    have := ConvexOnVectors.sq_affine (affine_bnormal Q (n := n) q)
    simpa only [abs_pow, sq_abs] using this
  · exact eachEntry_map _ _ fun q _ => ConvexOnVectors.sq_affine (affine_app _)
  · exact eachEntry_single (convex_max _ _ fun q _ => ConvexOnVectors.abs_affine (affine_app _))
  · refine eachEntry_single ((convex_max Q.evalGrid (fun c q => |Q.cp.Phi c q.1 q.2|) fun q _ =>
      ConvexOnVectors.abs_affine (affine_app _)).pow_nonneg fun c => jmax_nonneg _ fun x hx => ?_)
    obtain ⟨q, -, rfl⟩ := List.mem_map.1 hx
    exact abs_nonneg _
  · refine eachEntry_single (convex_max _ _ fun q _ => ?_)
    have := (ConvexOnVectors.sq_affine (affine_app (n := n) (Q.cp.trig q.1 q.2))).pow_nonneg fun c => sq_nonneg _
    simp only [← pow_mul] at this
    exact this
  · exact eachEntry_single (convex_integral Q he _ fun q => ConvexOnVectors.abs_affine (affine_app _))
  · refine eachEntry_single ?_
    have := convex_integral Q he (fun c q => Q.cp.Phi c q.1 q.2 ^ 2 / 2) (n := n) fun q => by
      have := (ConvexOnVectors.sq_affine (affine_app (n := n) (Q.cp.trig q.1 q.2))).const_mul (1 / 2) (by norm_num)
      simp only [one_div] at this
      simp only [div_eq_inv_mul]
      exact this
    have e2 : ∀ l m : List ℝ, (List.zipWith (· * ·) l m).sum = (List.zipWith (· * ·) m l).sum := by
      intro l m
      rw [List.zipWith_comm]
      simp only [mul_comm]
    simpa only [GridSurface.integrate, e2 Q.evalSurface.da] using this

end

/-! ## The curvature is not convex -/

/-- `torusProblem` without net toroidal current. -/
noncomputable def poloidalTorus : FieldProblem := { torusProblem with cp := { circularTorus with I := 0 } }

theorem poloidalTorus_geometry (p t : ℝ) (e : ℝ) (he : e ^ 2 = 1) (hc : cos (2 * π * t) = e) (hs : sin (2 * π * t) = 0) :
    poloidalTorus.cp.surf.gamma poloidalTorus.cp.wdofs p t = ⟨(2 + e) * cos (2 * π * p), (2 + e) * sin (2 * π * p), 0⟩ ∧
    poloidalTorus.cp.dg1 p t = ⟨-(2 * π) * (2 + e) * sin (2 * π * p), 2 * π * (2 + e) * cos (2 * π * p), 0⟩ ∧
    poloidalTorus.cp.dg2 p t = ⟨0, 0, 2 * π * e⟩ ∧
    poloidalTorus.cp.dg11 p t = ⟨-(2 * π) ^ 2 * (2 + e) * cos (2 * π * p), -(2 * π) ^ 2 * (2 + e) * sin (2 * π * p), 0⟩ ∧
    poloidalTorus.cp.dg12 p t = 0 ∧
    poloidalTorus.cp.dg22 p t = ⟨-(2 * π) ^ 2 * e * cos (2 * π * p), -(2 * π) ^ 2 * e * sin (2 * π * p), 0⟩ := by
  have e1 : p * π * 2 = 2 * π * p := by ring
  have e2 : π * 2 * t = 2 * π * t := by ring
  obtain ⟨h1, h2⟩ := circularTorus_tangents p t
  rw [hc] at h1 h2
  rw [hs] at h2
  have h2' : circularTorus.dg2 p t = ⟨0, 0, 2 * π * e⟩ := by rw [h2]; simp
  refine ⟨?_, h1, h2', ?_, ?_, ?_⟩ <;> simp only [dg11, dg12, dg22, SurfaceShape.gamma]
  all_goals
    rw [SurfaceShape.gammadash_eq]
    simp only [poloidalTorus, circularTorus, SurfaceShape.leibniz, Finset.Nat.antidiagonal_succ, Finset.Nat.antidiagonal_zero]
    simp [SurfaceShape.rDash, SurfaceShape.zDash, SurfaceShape.rOperatorPadded, SurfaceShape.zOperatorPadded,
      SurfaceShape.rOperator, SurfaceShape.zOperator, SurfaceShape.cmn, SurfaceShape.smn, surfMc, surfNc, surfMs, surfNs,
      repeatEach, tile, arange, SurfaceShape.applyRow, cEntry, sEntry, derivFactor, modeAngle, cosD, sinD, e1, e2, hc, hs]
  · constructor <;> ring
  · rfl
  · constructor <;> left <;> left <;> ring

theorem poloidalTorus_curvature (p t : ℝ) (e : ℝ) (he : e ^ 2 = 1) (hc : cos (2 * π * t) = e) (hs : sin (2 * π * t) = 0) (x : ℝ) :
    projectCylindrical (poloidalTorus.cp.surf.gamma poloidalTorus.cp.wdofs p t) (poloidalTorus.cp.KdotGradK [x] p t) =
      ⟨-(25 * e + (2 * π * x) ^ 2 * (2 + e)) / (2 * π * (2 + e)) ^ 2, 0, 0⟩ := by
  have hp := sin_sq_add_cos_sq (2 * π * p)
  obtain ⟨h0, h1, h2, h11, h12, h22⟩ := poloidalTorus_geometry p t e he hc hs
  have hR : 0 < 2 + e := by nlinarith
  have hpi := Real.pi_pos
  have hN : poloidalTorus.cp.N p t = ⟨(2 * π) ^ 2 * (2 + e) * e * cos (2 * π * p), (2 * π) ^ 2 * (2 + e) * e * sin (2 * π * p), 0⟩ := by
    rw [N, h1, h2]
    ext <;> simp [V3.cross] <;> ring
  have hNn : (poloidalTorus.cp.N p t).norm = (2 * π) ^ 2 * (2 + e) := by
    rw [V3.norm, show (poloidalTorus.cp.N p t).normSq = ((2 * π) ^ 2 * (2 + e)) ^ 2 by
      rw [hN, V3.normSq]
      linear_combination ((2 * π) ^ 2 * (2 + e)) ^ 2 * e ^ 2 * hp + ((2 * π) ^ 2 * (2 + e)) ^ 2 * he]
    exact Real.sqrt_sq (by positivity)
  have hg : (poloidalTorus.cp.surf.gamma poloidalTorus.cp.wdofs p t).norm = 2 + e := by
    rw [V3.norm, show (poloidalTorus.cp.surf.gamma poloidalTorus.cp.wdofs p t).normSq = (2 + e) ^ 2 by
      rw [h0, V3.normSq]
      linear_combination (2 + e) ^ 2 * hp]
    exact Real.sqrt_sq hR.le
  have i1 : poloidalTorus.cp.invNdash1 p t = 0 := by
    rw [invNdash1, normaldash1, hN, h11, h2, h1, h12]
    simp [V3.cross, V3.dot]
    left
    ring
  have i2 : poloidalTorus.cp.invNdash2 p t = 0 := by
    rw [invNdash2, normaldash2, hN, h22, h2, h1, h12]
    simp [V3.cross, V3.dot]
  have e2 : π * 2 * t = 2 * π * t := by ring
  have hr : poloidalTorus.cp.rows = [(1, 0, 1)] := by decide
  have r1 : poloidalTorus.cp.opPhi p t = [0] := by
    simp [opPhi, trigDiff, partialPhi, mulDiag, hr, angle, sinOrCos]
  have r2 : poloidalTorus.cp.opTheta p t = [2 * π * e] := by
    simp [opTheta, trigDiff, partialTheta, mulDiag, hr, angle, sinOrCos, e2, hc]
    ring
  have r3 : poloidalTorus.cp.opPhiPhi p t = [0] := by
    simp [opPhiPhi, trig, partialPhiPhi, mulDiag, hr, angle, sinOrCos]
  have r4 : poloidalTorus.cp.opPhiTheta p t = [0] := by
    simp [opPhiTheta, trig, partialPhiTheta, mulDiag, hr, angle, sinOrCos]
  have r5 : poloidalTorus.cp.opThetaTheta p t = [0] := by
    simp [opThetaTheta, trig, partialThetaTheta, mulDiag, hr, angle, sinOrCos, e2, hs]
  have hK : poloidalTorus.cp.KdotGradK [x] p t =
      (-(25 * e + (2 * π * x) ^ 2 * (2 + e)) / (2 * π * (2 + e)) ^ 2) • (⟨cos (2 * π * p), sin (2 * π * p), 0⟩ : V3) := by
    have hGI : poloidalTorus.cp.G = 5 ∧ poloidalTorus.cp.I = 0 := ⟨by simp [poloidalTorus, circularTorus], rfl⟩
    simp only [KdotGradK, Kdash1, Kdash2, Kdash1Op, Kdash2Op, Kdash1Const, Kdash2Const, dg1InvNdash1, dg1InvNdash2, dg2InvNdash1,
      dg2InvNdash2, i1, i2, r1, r2, r3, r4, r5, hGI.1, hGI.2, invN, hNn, h1, h2, h11, h12, h22]
    ext <;> simp [appV, app]
    · field_simp
      linear_combination (-(cos (2 * π * p) * 4 * π ^ 2 * x ^ 2 * (2 + e))) * he
    · field_simp
      linear_combination (-(sin (2 * π * p) * 4 * π ^ 2 * x ^ 2 * (2 + e))) * he
  rw [hK, projectCylindrical, projectCoord, phiUnit, rUnit, hg, h0]
  ext <;> simp [V3.cross, V3.dot, zUnit]
  · field_simp
    linear_combination (-(25 * e + (2 * π * x) ^ 2 * (2 + e))) * hp
  · field_simp
    ring

/-- **C124.** The value of `f_max_K_dot_grad_K_cyl`, a norm generated like the others, is not convex: at zero coefficients it is
larger than at both `[5/(2π)]` and `[-5/(2π)]`. -/
theorem C124_curvature_violated_partial :
    ∃ q, (shipped FieldProblem.fns).lookup "f_max_K_dot_grad_K_cyl" = some q ∧
      ¬ EachEntry (ConvexOnVectors 1) (valuesOf q poloidalTorus) := by
  refine ⟨_, rfl, ?_⟩
  rintro ⟨fs, hfs, hconv⟩
  have hpi := Real.pi_pos
  have hv : ∀ x : ℝ, (fs.map fun f => f [x]) = [jmax ((FieldProblem.fns.KdotGradKCyl poloidalTorus (phiOnly (.array [x]))).map
      fun y => |y|)] := by
    intro x
    rw [← hfs [x], valuesOf, call_phiOnly]
    simp [Quantity.generateLinf, Quantity.maxAbs, arr, Val.entries]
  obtain ⟨f, rfl⟩ : ∃ f, fs = [f] := by
    have := congrArg List.length (hv 0)
    exact List.length_eq_one_iff.1 (by simpa using this)
  have hf : ∀ x : ℝ, f [x] = jmax ((FieldProblem.fns.KdotGradKCyl poloidalTorus (phiOnly (.array [x]))).map fun y => |y|) := by
    intro x
    have := hv x
    simpa using this
  have hgrid : ∀ q ∈ poloidalTorus.evalGrid, q.2 = 0 ∨ q.2 = 1 / 2 := by
    intro q hq
    simp only [poloidalTorus, torusProblem, FieldProblem.evalGrid, gridPoints, linspace0, List.range_succ, List.range_zero] at hq
    simp at hq
    rcases hq with rfl | rfl | rfl | rfl <;> simp
  have hgrid' : (0, 1 / 2) ∈ poloidalTorus.evalGrid := by
    simp only [poloidalTorus, torusProblem, FieldProblem.evalGrid, gridPoints, linspace0, List.range_succ, List.range_zero]
    simp
  have h0 : 25 / (2 * π) ^ 2 ≤ f [0] := by
    rw [hf]
    refine le_jmax (List.mem_map.2 ⟨25 / (2 * π) ^ 2, ?_, abs_of_nonneg (by positivity)⟩)
    refine List.mem_flatMap.2 ⟨_, hgrid', ?_⟩
    rw [coefs_phiOnly, poloidalTorus_curvature 0 (1 / 2) (-1) (by norm_num) (by rw [show 2 * π * (1 / 2) = π by ring, cos_pi])
      (by rw [show 2 * π * (1 / 2) = π by ring, sin_pi])]
    simp only [V3.toList, List.mem_cons]
    left
    ring
  have h1 : ∀ x : ℝ, (2 * π * x) ^ 2 = 25 → f [x] ≤ 100 / (6 * π) ^ 2 := by
    intro x hx
    rw [hf, jmax_le_iff]
    · intro y hy
      obtain ⟨z, hz, rfl⟩ := List.mem_map.1 hy
      obtain ⟨q, hq, hz⟩ := List.mem_flatMap.1 hz
      have hpos : 0 ≤ 100 / (6 * π) ^ 2 := by positivity
      rw [coefs_phiOnly] at hz
      rcases hgrid q hq with h | h <;> rw [h] at hz
      · rw [poloidalTorus_curvature q.1 0 1 (by norm_num) (by simp) (by simp)] at hz
        simp only [V3.toList, List.mem_cons, List.not_mem_nil, or_false] at hz
        rcases hz with rfl | rfl | rfl
        · rw [hx, show (2 * π * (2 + 1)) = 6 * π by ring, abs_div, abs_of_nonneg (by positivity : 0 ≤ (6 * π) ^ 2)]
          norm_num
        · simpa using hpos
        · simpa using hpos
      · rw [poloidalTorus_curvature q.1 (1 / 2) (-1) (by norm_num) (by rw [show 2 * π * (1 / 2) = π by ring, cos_pi])
          (by rw [show 2 * π * (1 / 2) = π by ring, sin_pi])] at hz
        simp only [V3.toList, List.mem_cons, List.not_mem_nil, or_false] at hz
        rcases hz with rfl | rfl | rfl
        · rw [hx]
          norm_num
          positivity
        · simpa using hpos
        · simpa using hpos
    · intro h
      have hne := List.map_eq_nil_iff.1 h
      have hmem := (List.flatMap_eq_nil_iff.1 hne) _ hgrid'
      simp [V3.toList] at hmem
  have hc := hconv f (by simp) [5 / (2 * π)] [-(5 / (2 * π))] rfl rfl (1 / 2) (by norm_num) (by norm_num)
  have e : comb (1 / 2) (1 - 1 / 2) [5 / (2 * π)] [-(5 / (2 * π))] = [0] := by
    simp [comb]
    ring
  rw [e] at hc
  have a1 := h1 (5 / (2 * π)) (by field_simp; norm_num)
  have a2 := h1 (-(5 / (2 * π))) (by field_simp; norm_num)
  have : 25 / (2 * π) ^ 2 ≤ 100 / (6 * π) ^ 2 := by linarith
  rw [div_le_div_iff₀ (by positivity) (by positivity)] at this
  nlinarith [sq_pos_of_pos hpi]

/-- The grid hypotheses hold for this problem, so its other norms are convex. -/
example : ∃ q, (shipped FieldProblem.fns).lookup "f_max_Bnormal" = some q ∧ EachEntry (ConvexOnVectors 1) (valuesOf q poloidalTorus) :=
  C124_convex_partial poloidalTorus
    (by simp only [poloidalTorus, torusProblem, gridStep_linspace0 _ _ (le_refl 2)]; norm_num)
    (by simp only [poloidalTorus, torusProblem, gridStep_linspace0 _ _ (le_refl 2)]; norm_num) _ (by decide)

example : ∃ q, (shipped FieldProblem.fns).lookup "Phi" = some q ∧ EachEntry (AffineOnVectors 1) (valuesOf q poloidalTorus) :=
  C124_affine_partial poloidalTorus _ (by decide)

end Verif
