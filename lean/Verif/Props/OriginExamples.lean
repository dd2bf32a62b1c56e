import Verif.Props.Origin
import Verif.Props.ConvexQuantities

/-!
# C149: a torus turned by 180 degrees
-/

namespace Verif

open Real CpParams

/-- The circular torus with an evaluation grid on a quarter of it. -/
noncomputable def quarterTorus : FieldProblem := { poloidalTorus with ePhis := [0, 1 / 4], eThetas := [1 / 4, 1 / 2] }

/-- The same torus turned by half a turn. -/
noncomputable def turnedTorus : FieldProblem where
  cp := quarterTorus.cp
  wPhis := quarterTorus.wPhis.map fun p => p + 1 / 2
  wThetas := quarterTorus.wThetas.map fun x => x + 0
  ePhis := quarterTorus.ePhis.map fun p => p + 1 / 2
  eThetas := quarterTorus.eThetas.map fun x => x + 0
  plasma := ⟨quarterTorus.plasma.shape, quarterTorus.plasma.dofs, quarterTorus.plasma.phis.map fun p => p + 1 / 2,
    quarterTorus.plasma.thetas.map fun x => x + 0⟩
  bPlasma := quarterTorus.bPlasma

theorem torus_turned (R a s p x : ℝ) :
    circularTorus.surf.gamma [R, a, a] (p + s) (x + 0) = rotZ (2 * π * s) (circularTorus.surf.gamma [R, a, a] p x) := by
  have e : 2 * π * (p + s) = 2 * π * p + 2 * π * s := by ring
  rw [torus_gamma, torus_gamma, rotZ, e, cos_add, sin_add, add_zero]
  ext <;> simp only <;> ring

/-- The two problems meet the hypotheses of the theorems. -/
theorem turned_moved : MovedProblem (1 / 2) 0 quarterTorus turnedTorus :=
  ⟨⟨torus_turned 2 1 _, rfl, rfl⟩, ⟨torus_turned 2 1 _, rfl, rfl⟩, ⟨torus_turned 2 (1 / 2) _, rfl, rfl⟩, rfl, rfl, rfl, rfl, rfl, rfl, rfl⟩

theorem turned_ok : OriginOk quarterTorus.cp.stellsym quarterTorus.cp.surf.nfp (1 / 2) 0 :=
  fun _ => ⟨1, 0, by simp [quarterTorus, poloidalTorus, circularTorus], by simp⟩

/-- The potential with one coefficient is axisymmetric and so the same on the turned torus. -/
theorem turned_potential (x : ℝ) : MovedPotential (1 / 2) 0 quarterTorus turnedTorus [x] [x] := by
  refine ⟨rfl, fun p t => ?_⟩
  have hr : quarterTorus.cp.rows = [(1, 0, 1)] := by decide
  show quarterTorus.cp.Phi [x] (p + 1 / 2) (t + 0) = quarterTorus.cp.Phi [x] p t
  simp [Phi, trig, hr, angle, app]

/-- A problem without stellarator symmetry can be turned by any angle. -/
example (s t : ℝ) : ∃ Q', MovedProblem s t { quarterTorus with
    cp := { quarterTorus.cp with surf := ⟨1, false, 1, 0⟩, wdofs := [2, 1, 0, 0, 0, 1], stellsym := false }
    plasma := ⟨⟨1, false, 1, 0⟩, [2, 1 / 2, 0, 0, 0, 1 / 2], [0], [0]⟩ } Q' := by
  obtain ⟨Q', h, -⟩ := C149_exists (s := s) (t := t) { quarterTorus with
    cp := { quarterTorus.cp with surf := ⟨1, false, 1, 0⟩, wdofs := [2, 1, 0, 0, 0, 1], stellsym := false }
    plasma := ⟨⟨1, false, 1, 0⟩, [2, 1 / 2, 0, 0, 0, 1 / 2], [0], [0]⟩ } (fun h => by simp at h) (fun h => by simp at h)
    (by simp [SurfaceShape.numDofs]) (by simp [SurfaceShape.numDofs])
  exact ⟨Q', h⟩

/-! ## The quantities that depend on the orientation -/

theorem quarterTorus_K (p x e f : ℝ) (hc : cos (2 * π * x) = e) (hs : sin (2 * π * x) = f) (hR : 0 < 2 + e) :
    (quarterTorus.cp.N p x).norm = (2 * π) ^ 2 * (2 + e) ∧
    quarterTorus.cp.K [0] p x = (5 / (2 * π * (2 + e))) • (⟨-f * cos (2 * π * p), -f * sin (2 * π * p), e⟩ : V3) := by
  obtain ⟨h1, h2⟩ := circularTorus_tangents p x
  rw [hc] at h1 h2
  rw [hs] at h2
  have h1' : quarterTorus.cp.dg1 p x = _ := h1
  have h2' : quarterTorus.cp.dg2 p x = _ := h2
  have hp := sin_sq_add_cos_sq (2 * π * p)
  have hx : f ^ 2 + e ^ 2 = 1 := by rw [← hc, ← hs]; exact sin_sq_add_cos_sq _
  have hpi := Real.pi_pos
  have hN : (quarterTorus.cp.N p x).norm = (2 * π) ^ 2 * (2 + e) := by
    rw [V3.norm, show (quarterTorus.cp.N p x).normSq = ((2 * π) ^ 2 * (2 + e)) ^ 2 by
      rw [N, h1', h2']
      simp only [V3.cross, V3.normSq]
      generalize sin (2 * π * p) = sp at *
      generalize cos (2 * π * p) = cp at *
      linear_combination ((2 * π) ^ 4 * (2 + e) ^ 2 * (e ^ 2 + f ^ 2 * (sp ^ 2 + cp ^ 2 + 1))) * hp + ((2 * π) ^ 4 * (2 + e) ^ 2) * hx]
    exact Real.sqrt_sq (by positivity)
  refine ⟨hN, ?_⟩
  have hr : quarterTorus.cp.rows = [(1, 0, 1)] := by decide
  have hG : quarterTorus.cp.G = 5 := by simp [quarterTorus, poloidalTorus, circularTorus]
  have hI : quarterTorus.cp.I = 0 := rfl
  have r1 : app (quarterTorus.cp.opPhi p x) [0] = 0 := by
    simp [opPhi, trigDiff, partialPhi, mulDiag, hr, app]
  have r2 : app (quarterTorus.cp.opTheta p x) [0] = 0 := by
    simp [opTheta, trigDiff, partialTheta, mulDiag, hr, app]
  rw [K_eq, r1, r2, invN, hN, h1', h2', hG, hI]
  ext <;> simp <;> field_simp

theorem quarter_angles : cos (2 * π * (1 / 4)) = 0 ∧ sin (2 * π * (1 / 4)) = 1 ∧ cos (2 * π * (1 / 2)) = -1 ∧ sin (2 * π * (1 / 2)) = 0 ∧
    cos (2 * π * (1 / 4 + 1 / 2)) = 0 ∧ sin (2 * π * (1 / 4 + 1 / 2)) = -1 := by
  have e1 : 2 * π * (1 / 4) = π / 2 := by ring
  have e2 : 2 * π * (1 / 2) = π := by ring
  have e3 : 2 * π * (1 / 4 + 1 / 2) = π / 2 + π := by ring
  rw [e1, e2, e3, cos_add_pi, sin_add_pi]
  simp

/-- **C149 (violated part).** The current density as a quantity is Cartesian: its entries change with the orientation, so that bounds
on them mean something else. The total potential changes with the origin. -/
theorem C149_oriented_violated_partial :
    (∃ q, (shipped FieldProblem.fns).lookup "K" = some q ∧
      (q.rawF turnedTorus (phiOnly (.array [0]))).entries ≠ (q.rawF quarterTorus (phiOnly (.array [0]))).entries) ∧
    ∃ q, (shipped FieldProblem.fns).lookup "Phi_with_net_current" = some q ∧
      (q.rawF turnedTorus (phiOnly (.array [0]))).entries ≠ (q.rawF quarterTorus (phiOnly (.array [0]))).entries := by
  obtain ⟨a1, a2, a3, a4, a5, a6⟩ := quarter_angles
  have hpi := Real.pi_pos
  constructor
  · refine ⟨_, rfl, fun h => ?_⟩
    have h0 : (quarterTorus.cp.K [0] (0 + 1 / 2) (1 / 4 + 0)).x = (quarterTorus.cp.K [0] 0 (1 / 4)).x := congrArg (fun l => l.headD 0) h
    rw [(quarterTorus_K (0 + 1 / 2) (1 / 4 + 0) 0 1 (by rw [add_zero, a1]) (by rw [add_zero, a2]) (by norm_num)).2,
      (quarterTorus_K 0 (1 / 4) 0 1 a1 a2 (by norm_num)).2] at h0
    simp only [V3.smul_x, zero_add, a3, mul_zero, cos_zero, add_zero] at h0
    have h1 : 0 < 5 / (2 * π * 2) := by positivity
    linarith
  · refine ⟨_, rfl, fun h => ?_⟩
    have h0 : quarterTorus.cp.PhiNet [0] (0 + 1 / 2) (1 / 4 + 0) = quarterTorus.cp.PhiNet [0] 0 (1 / 4) := congrArg (fun l => l.headD 0) h
    have hr : quarterTorus.cp.rows = [(1, 0, 1)] := by decide
    have hG : quarterTorus.cp.G = 5 := by simp [quarterTorus, poloidalTorus, circularTorus]
    have hI : quarterTorus.cp.I = 0 := rfl
    simp only [PhiNet, Phi, trig, hr, app, List.map_cons, List.map_nil, List.zipWith_cons_cons, List.zipWith_nil_right, List.sum_cons, List.sum_nil,
      hG, hI] at h0
    norm_num at h0

theorem vecNorm_shift_lt {k e : ℝ} (hk : 0 < k) (he : 0 < e) (l l' : List ℝ)
    (hl : (l.map fun x => x ^ 2).sum = k ^ 2 + 3 * e ^ 2 - 2 * k * e) (hl' : (l'.map fun x => x ^ 2).sum = k ^ 2 + 3 * e ^ 2 + 2 * k * e) :
    Quantity.vecNorm l < Quantity.vecNorm l' := by
  rw [Quantity.vecNorm, Quantity.vecNorm, hl, hl']
  exact Real.sqrt_lt_sqrt (by nlinarith [sq_nonneg (k - e)]) (by nlinarith [mul_pos hk he])

/-- **C149 (violated part).** The smoothed Huber loss adds the square of the smoothing parameter to every Cartesian component of the
current. Turning the torus by 180 degrees changes its value, for every smoothing parameter and every unit. -/
theorem C149_huber_violated_partial : ∃ q, (shipped FieldProblem.fns).lookup "f_huber_K" = some q ∧
    ∀ (u : ℝ) (sp : SmoothingParams), 0 < u → sp.lseEpsilon ≠ 0 →
      (q.approxF quarterTorus (phiOnly (.array [0])) (.scalar u) sp).entries.headD 0 <
        (q.approxF turnedTorus (phiOnly (.array [0])) (.scalar u) sp).entries.headD 0 := by
  refine ⟨_, rfl, fun u sp hu hsp => ?_⟩
  obtain ⟨a1, a2, a3, a4, a5, a6⟩ := quarter_angles
  have hpi := Real.pi_pos
  have e2 : 0 < sp.lseEpsilon ^ 2 := by positivity
  let F : V3 → ℝ := fun v => Quantity.vecNorm ((v.toList).map fun x => x / u + sp.lseEpsilon ^ 2) - sp.lseEpsilon
  let g : ℝ := gridStep quarterTorus.ePhis * gridStep quarterTorus.eThetas
  let g' : ℝ := gridStep turnedTorus.ePhis * gridStep turnedTorus.eThetas
  have hg : g = 1 / 16 := by simp [g, gridStep, quarterTorus]; norm_num
  have hg' : g' = 1 / 16 := by
    have h1 : g' = g := by
      simp only [g, g', turnedTorus, gridStep_shift]
    rw [h1, hg]
  let n : ℝ → ℝ → ℝ := fun p x => (quarterTorus.cp.N p x).norm
  let k : ℝ → ℝ → ℝ := fun p x => F (quarterTorus.cp.K [0] p x)
  show (g * n 0 (1 / 4) * k 0 (1 / 4) + (g * n 0 (1 / 2) * k 0 (1 / 2) + (g * n (1 / 4) (1 / 4) * k (1 / 4) (1 / 4) +
      (g * n (1 / 4) (1 / 2) * k (1 / 4) (1 / 2) + 0)))) * ((1 : ℕ) : ℝ) <
    (g' * n (0 + 1 / 2) (1 / 4 + 0) * k (0 + 1 / 2) (1 / 4 + 0) + (g' * n (0 + 1 / 2) (1 / 2 + 0) * k (0 + 1 / 2) (1 / 2 + 0) +
      (g' * n (1 / 4 + 1 / 2) (1 / 4 + 0) * k (1 / 4 + 1 / 2) (1 / 4 + 0) +
      (g' * n (1 / 4 + 1 / 2) (1 / 2 + 0) * k (1 / 4 + 1 / 2) (1 / 2 + 0) + 0)))) * ((1 : ℕ) : ℝ)
  have A := fun p => quarterTorus_K p (1 / 4) 0 1 a1 a2 (by norm_num)
  have B := fun p => quarterTorus_K p (1 / 2) (-1) 0 a3 a4 (by norm_num)
  have nA : ∀ p, n p (1 / 4) = (2 * π) ^ 2 * (2 + 0) := fun p => (A p).1
  have nB : ∀ p, n p (1 / 2) = (2 * π) ^ 2 * (2 + -1) := fun p => (B p).1
  have kB : ∀ p, k p (1 / 2) = k 0 (1 / 2) := fun p => by
    simp only [k, (B _).2, neg_zero, zero_mul]
  have l1 : k 0 (1 / 4) < k (1 / 2) (1 / 4) := by
    simp only [k, (A _).2, F]
    refine sub_lt_sub_right (vecNorm_shift_lt (k := 5 / (2 * π * 2) / u) (by positivity) e2 _ _ ?_ ?_) _
    · simp [V3.toList]
      ring
    · simp [V3.toList, a3, a4, -one_div]
      ring
  have l2 : k (1 / 4) (1 / 4) < k (1 / 4 + 1 / 2) (1 / 4) := by
    simp only [k, (A _).2, F]
    refine sub_lt_sub_right (vecNorm_shift_lt (k := 5 / (2 * π * 2) / u) (by positivity) e2 _ _ ?_ ?_) _
    · simp [V3.toList, a1, a2, -one_div]
      ring
    · simp [V3.toList, a5, a6, -one_div]
      ring
  simp only [add_zero, zero_add, hg, hg', nA, nB, kB (1 / 4), kB (1 / 2), kB (1 / 4 + 1 / 2), Nat.cast_one, mul_one]
  have hc : 0 < 1 / 16 * ((2 * π) ^ 2 * 2) := by positivity
  have m1 := mul_lt_mul_of_pos_left l1 hc
  have m2 := mul_lt_mul_of_pos_left l2 hc
  linarith

end Verif
