import Verif.Props.NetFlux
import Verif.Props.BiotSavart
import Verif.Lemmas.TiledProblem
import Verif.Lemmas.Scaling
import Verif.Spec.UserProblem

/-!
# C183: inequalities between the quantities
-/

namespace Verif

open Real

/-- The number that a scalar quantity of the package takes for a potential. -/
noncomputable def quantityNumber (others : List String) (Q : FieldProblem) (d : Dofs) (n : String) : ℝ :=
  (rawOf (shippedRegistry FieldProblem.fns others) n Q d).entries.headD 0

/-! ## Weighted sums and maxima -/

theorem weighted_le (f w : List ℝ) (hw : ∀ x ∈ w, 0 ≤ x) (M : ℝ) (hM : 0 ≤ M) (hf : ∀ x ∈ f, x ≤ M) :
    (List.zipWith (· * ·) f w).sum ≤ M * w.sum := by
  induction f generalizing w with
  | nil => simpa using mul_nonneg hM (List.sum_nonneg hw)
  | cons a f ih =>
    cases w with
    | nil => simp
    | cons b w =>
      have := ih w (fun x hx => hw x (List.mem_cons_of_mem _ hx)) fun x hx => hf x (List.mem_cons_of_mem _ hx)
      simp only [List.zipWith_cons_cons, List.sum_cons, mul_add]
      exact add_le_add (mul_le_mul_of_nonneg_right (hf a List.mem_cons_self) (hw b List.mem_cons_self)) this

theorem GridSurface.da_nonneg (S : GridSurface) (hs : 0 ≤ gridStep S.phis * gridStep S.thetas) : ∀ x ∈ S.da, 0 ≤ x := by
  intro x hx
  obtain ⟨q, -, rfl⟩ := List.mem_map.1 hx
  exact mul_nonneg hs (Real.sqrt_nonneg _)

theorem integrate_mul (S : GridSurface) (a : ℝ) (l : List ℝ) : S.integrate (l.map fun x => a * x) = a * S.integrate l := by
  rw [GridSurface.integrate, GridSurface.integrate]
  generalize S.da = w
  induction l generalizing w with
  | nil => simp
  | cons b l ih =>
    cases w with
    | nil => simp
    | cons c w =>
      simp only [List.map_cons, List.zipWith_cons_cons, List.sum_cons, ih]
      ring

theorem half_squares (S : GridSurface) (l : List ℝ) : 2 * S.integrate (l.map fun x => x ^ 2 / 2) = S.integrate (l.map fun x => x ^ 2) := by
  rw [← integrate_mul, List.map_map]
  congr 2
  funext x
  simp only [Function.comp_apply]
  ring

theorem zero_le_maxAbs (v : Val) : 0 ≤ Quantity.maxAbs v := by
  rw [Quantity.maxAbs]
  rcases v.entries with _ | ⟨a, l⟩
  · simp [jmax]
  · exact (abs_nonneg a).trans (le_jmax (by simp))

theorem le_maxAbs (v : Val) {x : ℝ} (h : x ∈ v.entries) : |x| ≤ Quantity.maxAbs v := le_jmax (List.mem_map_of_mem h)

/-- The largest `|x|^n` is the `n`th power of the largest `|x|`. -/
theorem jmax_abs_pow (l : List ℝ) (n : ℕ) (hn : n ≠ 0) : jmax (l.map fun x => |x| ^ n) = jmax (l.map fun x => |x|) ^ n := by
  rcases l with _ | ⟨a, l⟩
  · simp [jmax, hn]
  · have hm := jmax_mem (xs := (a :: l).map fun x => |x|) (by simp)
    obtain ⟨x, hx, e⟩ := List.mem_map.1 hm
    refine jmax_eq (List.mem_map.2 ⟨x, hx, by rw [← e]⟩) fun y hy => ?_
    obtain ⟨z, hz, rfl⟩ := List.mem_map.1 hy
    exact pow_le_pow_left₀ (abs_nonneg z) (le_jmax (List.mem_map_of_mem hz)) n

/-- The three inequalities between the integral of the square, the integral of the absolute value and the maximum. -/
theorem integral_norms (S : GridSurface) (hs : 0 ≤ gridStep S.phis * gridStep S.thetas) (n : ℕ) (l : List ℝ) (M : ℝ) (hM : 0 ≤ M)
    (hl : ∀ x ∈ l, |x| ≤ M) :
    2 * (S.integrate (l.map fun x => x ^ 2 / 2) * n) ≤ n * S.area * M ^ 2 ∧
      (S.integrate (l.map fun x => |x|) * n) ^ 2 ≤ 2 * (n * S.area) * (S.integrate (l.map fun x => x ^ 2 / 2) * n) ∧
      2 * (S.integrate (l.map fun x => x ^ 2 / 2) * n) ≤ (S.integrate (l.map fun x => |x|) * n) * M ∧
      S.integrate (l.map fun x => |x|) * n ≤ n * S.area * M := by
  have hw := S.da_nonneg hs
  have hn : (0 : ℝ) ≤ n := Nat.cast_nonneg n
  have h2 := half_squares S l
  have a1 : S.integrate (l.map fun x => x ^ 2) ≤ M ^ 2 * S.area := weighted_le _ _ hw _ (by positivity) (by
    intro x hx
    obtain ⟨y, hy, rfl⟩ := List.mem_map.1 hx
    rw [← sq_abs]
    exact pow_le_pow_left₀ (abs_nonneg y) (hl y hy) 2)
  have a2 : S.integrate (l.map fun x => |x|) ^ 2 ≤ S.integrate (l.map fun x => x ^ 2) * S.area := by
    have := (weighted_cauchy_schwarz (l.map fun x => |x|) S.da hw).2.2
    rw [List.map_map] at this
    simp only [Function.comp_def, sq_abs] at this
    exact this
  have a3 : S.integrate (l.map fun x => x ^ 2) ≤ M * S.integrate (l.map fun x => |x|) := by
    rw [GridSurface.integrate, GridSurface.integrate]
    generalize S.da = w at hw
    clear a1 a2 h2
    induction l generalizing w with
    | nil => simp
    | cons b l ih =>
      cases w with
      | nil => simp
      | cons c w =>
        have := ih (fun x hx => hl x (List.mem_cons_of_mem _ hx)) w fun x hx => hw x (List.mem_cons_of_mem _ hx)
        have hb := hl b List.mem_cons_self
        have hc := hw c List.mem_cons_self
        simp only [List.map_cons, List.zipWith_cons_cons, List.sum_cons, mul_add]
        refine add_le_add ?_ this
        rw [← mul_assoc, ← sq_abs, sq]
        exact mul_le_mul_of_nonneg_right (mul_le_mul_of_nonneg_right hb (abs_nonneg b)) hc
  have a4 : S.integrate (l.map fun x => |x|) ≤ M * S.area := weighted_le _ _ hw _ hM (by
    intro x hx
    obtain ⟨y, hy, rfl⟩ := List.mem_map.1 hx
    exact hl y hy)
  refine ⟨?_, ?_, ?_, ?_⟩
  · nlinarith [mul_le_mul_of_nonneg_left a1 hn]
  · rw [← h2] at a2
    calc (S.integrate (l.map fun x => |x|) * n) ^ 2 = (n : ℝ) ^ 2 * S.integrate (l.map fun x => |x|) ^ 2 := by ring
      _ ≤ (n : ℝ) ^ 2 * (2 * S.integrate (l.map fun x => x ^ 2 / 2) * S.area) := mul_le_mul_of_nonneg_left a2 (sq_nonneg (n : ℝ))
      _ = _ := by ring
  · nlinarith [mul_le_mul_of_nonneg_left a3 hn]
  · nlinarith [mul_le_mul_of_nonneg_left a4 hn]

/-! ## The quantities -/

theorem huber_value (others : List String) (Q : FieldProblem) (d : Dofs) : quantityNumber others Q d "f_huber_K" =
    Q.evalSurface.integrate ((Q.evalGrid.map fun q => (Q.cp.K (coefs d) q.1 q.2).norm).map fun x => |x|) * Q.cp.nfp := by
  have : quantityNumber others Q d "f_huber_K" =
      Quantity.l1Integral Q ((Q.evalGrid.map fun q => (Q.cp.K (coefs d) q.1 q.2).toList).map Quantity.vecNorm) := rfl
  rw [this, List.map_map, l1_grid, List.map_map]
  congr 3
  funext q
  simp only [Function.comp_apply, vecNorm_toList]
  exact (abs_of_nonneg (Real.sqrt_nonneg _)).symm

theorem K2_norm (P : CpParams) (c : List ℝ) (p t : ℝ) : P.K2 c p t = (P.K c p t).norm ^ 2 := by
  rw [CpParams.K2, V3.norm, Real.sq_sqrt]
  simp only [V3.normSq]
  positivity

/-- **C183 (quantities of the current density).** With `A` the area of the whole winding surface: `2 f_K ≤ A f_max_K2`, `f_huber_K^2 ≤ 2 A f_K`,
`2 f_K ≤ f_huber_K sqrt(f_max_K2)` and `f_huber_K ≤ A sqrt(f_max_K2)`. -/
theorem C183_K (others : List String) (Q : FieldProblem) (d : Dofs) (hs : 0 ≤ gridStep Q.ePhis * gridStep Q.eThetas) :
    let v := quantityNumber others Q d
    let A := Q.cp.nfp * Q.evalSurface.area
    2 * v "f_K" ≤ A * v "f_max_K2" ∧ v "f_huber_K" ^ 2 ≤ 2 * A * v "f_K" ∧ 2 * v "f_K" ≤ v "f_huber_K" * √(v "f_max_K2") ∧
      v "f_huber_K" ≤ A * √(v "f_max_K2") := by
  intro v A
  have e1 : v "f_K" = Q.evalSurface.integrate ((Q.evalGrid.map fun q => (Q.cp.K (coefs d) q.1 q.2).norm).map fun x => x ^ 2 / 2) * Q.cp.nfp := by
    have : v "f_K" = Q.evalSurface.integrate (Q.evalGrid.map fun q => Q.cp.K2 (coefs d) q.1 q.2 / 2) * Q.cp.nfp := rfl
    rw [this, List.map_map]
    congr 3
    funext q
    simp only [Function.comp_apply, K2_norm]
  have e2 : v "f_max_K2" = Quantity.maxAbs (.array (Q.evalGrid.map fun q => Q.cp.K2 (coefs d) q.1 q.2)) := rfl
  have hM := zero_le_maxAbs (.array (Q.evalGrid.map fun q => Q.cp.K2 (coefs d) q.1 q.2))
  obtain ⟨h1, h2, h3, h4⟩ := integral_norms Q.evalSurface hs Q.cp.nfp (Q.evalGrid.map fun q => (Q.cp.K (coefs d) q.1 q.2).norm)
    (√(v "f_max_K2")) (Real.sqrt_nonneg _) (by
      intro x hx
      obtain ⟨q, hq, rfl⟩ := List.mem_map.1 hx
      refine Real.le_sqrt_of_sq_le ?_
      rw [sq_abs, ← K2_norm, e2]
      exact (le_abs_self _).trans (le_maxAbs (.array _) (List.mem_map.2 ⟨q, hq, rfl⟩)))
  rw [Real.sq_sqrt (e2 ▸ hM)] at h1
  rw [← e1] at h1 h2 h3
  rw [← huber_value others] at h2 h3 h4
  exact ⟨h1, h2, h3, h4⟩

/-- The values of the potential. -/
noncomputable def phiValues (Q : FieldProblem) (d : Dofs) : List ℝ := Q.evalGrid.map fun q => Q.cp.Phi (coefs d) q.1 q.2

theorem f_Phi_value (others : List String) (Q : FieldProblem) (d : Dofs) : quantityNumber others Q d "f_Phi" =
    Q.evalSurface.integrate ((phiValues Q d).map fun x => x ^ 2 / 2) * Q.cp.nfp := by
  rw [phiValues, List.map_map]
  rfl

theorem f_l1_Phi_value (others : List String) (Q : FieldProblem) (d : Dofs) : quantityNumber others Q d "f_l1_Phi" =
    Q.evalSurface.integrate ((phiValues Q d).map fun x => |x|) * Q.cp.nfp := by
  have : quantityNumber others Q d "f_l1_Phi" = Quantity.l1Integral Q ((phiValues Q d).map fun x => |x|) := rfl
  rw [this, phiValues, List.map_map, l1_grid]

theorem f_max_Phi_value (others : List String) (Q : FieldProblem) (d : Dofs) : quantityNumber others Q d "f_max_Phi" =
    Quantity.maxAbs (.array (phiValues Q d)) := rfl

theorem f_max_Phi2_value (others : List String) (Q : FieldProblem) (d : Dofs) : quantityNumber others Q d "f_max_Phi2" =
    Quantity.maxAbs (.array (phiValues Q d)) ^ 2 := rfl

theorem f_max_Phi4_value (others : List String) (Q : FieldProblem) (d : Dofs) : quantityNumber others Q d "f_max_Phi4" =
    jmax ((phiValues Q d).map fun x => x ^ 4) := rfl

/-- **C183 (quantities of the potential).** The same for `f_Phi`, `f_l1_Phi` and `f_max_Phi`; `f_max_Phi2` and `f_max_Phi4` are powers of
`f_max_Phi`. -/
theorem C183_Phi (others : List String) (Q : FieldProblem) (d : Dofs) (hs : 0 ≤ gridStep Q.ePhis * gridStep Q.eThetas) :
    let v := quantityNumber others Q d
    let A := Q.cp.nfp * Q.evalSurface.area
    2 * v "f_Phi" ≤ A * v "f_max_Phi2" ∧ v "f_l1_Phi" ^ 2 ≤ 2 * A * v "f_Phi" ∧ 2 * v "f_Phi" ≤ v "f_l1_Phi" * v "f_max_Phi" ∧
      v "f_l1_Phi" ≤ A * v "f_max_Phi" ∧ v "f_max_Phi2" = v "f_max_Phi" ^ 2 ∧ v "f_max_Phi4" = v "f_max_Phi" ^ 4 := by
  simp only [f_Phi_value, f_l1_Phi_value, f_max_Phi_value, f_max_Phi2_value, f_max_Phi4_value]
  obtain ⟨h1, h2, h3, h4⟩ := integral_norms Q.evalSurface hs Q.cp.nfp (phiValues Q d) (Quantity.maxAbs (.array (phiValues Q d)))
    (zero_le_maxAbs _) fun x hx => le_maxAbs (.array (phiValues Q d)) hx
  refine ⟨h1, h2, h3, h4, trivial, ?_⟩
  rw [Quantity.maxAbs, Val.entries, ← jmax_abs_pow _ 4 (by norm_num)]
  congr 2
  funext x
  exact (Even.pow_abs (by decide) x).symm

/-- **C183 (quantities of the normal field).** With `A` the area of the whole plasma surface `2 f_B ≤ A f_max_Bnormal2`, and `f_max_Bnormal2` is the
square of `f_max_Bnormal`. -/
theorem C183_B (others : List String) (Q : FieldProblem) (d : Dofs) (hs : 0 ≤ gridStep Q.plasma.phis * gridStep Q.plasma.thetas) :
    let v := quantityNumber others Q d
    2 * v "f_B" ≤ Q.cp.nfp * Q.plasma.area * v "f_max_Bnormal2" ∧ v "f_max_Bnormal2" = v "f_max_Bnormal" ^ 2 := by
  intro v
  have e2 : v "f_max_Bnormal2" = v "f_max_Bnormal" ^ 2 := by
    have : v "f_max_Bnormal2" = jmax (((Q.bnormal (coefs d)).map fun b => b ^ 2).map fun x => |x|) := rfl
    have e : v "f_max_Bnormal" = jmax ((Q.bnormal (coefs d)).map fun x => |x|) := rfl
    rw [this, e, List.map_map, ← jmax_abs_pow _ 2 (by norm_num)]
    congr 2
    funext x
    simp only [Function.comp_apply, abs_pow]
  obtain ⟨h1, -⟩ := integral_norms Q.plasma hs Q.cp.nfp (Q.bnormal (coefs d)) (v "f_max_Bnormal")
    (zero_le_maxAbs (.array (Q.bnormal (coefs d)))) fun x hx => le_maxAbs (.array (Q.bnormal (coefs d))) hx
  exact ⟨e2 ▸ h1, e2⟩

/-! ## The field of a current density at a distance -/

theorem dot_sq_le (u v : V3) : V3.dot u v ^ 2 ≤ u.normSq * v.normSq := by
  simp only [V3.dot, V3.normSq]
  nlinarith [sq_nonneg (u.x * v.y - u.y * v.x), sq_nonneg (u.x * v.z - u.z * v.x), sq_nonneg (u.y * v.z - u.z * v.y)]

theorem cross_normSq_le (u v : V3) : (V3.cross u v).normSq ≤ u.normSq * v.normSq := by
  simp only [V3.cross, V3.normSq]
  nlinarith [sq_nonneg (u.x * v.x + u.y * v.y + u.z * v.z)]

theorem abs_dot_cross_le (n u v : V3) (hn : n.normSq ≤ 1) : |V3.dot n (V3.cross u v)| ≤ u.norm * v.norm := by
  have p : ∀ w : V3, 0 ≤ w.normSq := fun w => by simp only [V3.normSq]; positivity
  rw [V3.norm, V3.norm, ← Real.sqrt_mul (p u), ← Real.sqrt_sq_eq_abs]
  refine Real.sqrt_le_sqrt ((dot_sq_le _ _).trans ?_)
  calc n.normSq * (V3.cross u v).normSq ≤ 1 * (V3.cross u v).normSq := mul_le_mul_of_nonneg_right hn (p _)
    _ ≤ _ := by rw [one_mul]; exact cross_normSq_le u v

theorem unit_normSq_le (v : V3) : ((1 / v.norm) • v).normSq ≤ 1 := by
  have p : 0 ≤ v.normSq := by simp only [V3.normSq]; positivity
  rw [V3.normSq_smul, V3.norm, div_pow, Real.sq_sqrt p, one_pow]
  rcases p.eq_or_lt with h | h
  · rw [← h]; norm_num
  · rw [one_div, inv_mul_cancel₀ h.ne']

theorem dot_vsum (n : V3) (l : List V3) : V3.dot n (vsum l) = (l.map fun v => V3.dot n v).sum := by
  induction l with
  | nil => simp [vsum, V3.dot]
  | cons a l ih =>
    rw [List.map_cons, List.sum_cons, ← ih]
    simp only [vsum, V3.dot, List.map_cons, List.sum_cons]
    ring

theorem abs_sum_map_le {β : Type} (l : List β) (f g : β → ℝ) (h : ∀ x ∈ l, |f x| ≤ g x) : |(l.map f).sum| ≤ (l.map g).sum := by
  induction l with
  | nil => simp
  | cons a l ih =>
    simp only [List.map_cons, List.sum_cons]
    exact (abs_add_le _ _).trans (add_le_add (h a List.mem_cons_self) (ih fun x hx => h x (List.mem_cons_of_mem _ hx)))

theorem sum_map_div {β : Type} (l : List β) (f : β → ℝ) (a : ℝ) : (l.map fun x => f x / a).sum = (l.map f).sum / a := by
  induction l with
  | nil => simp
  | cons b l ih => simp only [List.map_cons, List.sum_cons, ih, add_div]

/-- **C183 (the field at a distance).** On grids that cover whole periods, the normal field of the winding surface at a plasma point with distance at
least `r` from every point of the winding grid is at most `1e-7 f_huber_K / r^2`. -/
theorem C183_field (others : List String) (Q : FieldProblem) (d : Dofs) (hn : Q.cp.surf.nfp ≠ 0) (k l : ℕ) (hk : 2 ≤ k) (hl : 2 ≤ l)
    (hw : Q.wPhis = linspace0 1 (Q.cp.surf.nfp * k)) (hwt : Q.wThetas = linspace0 1 l)
    (he : Q.ePhis = defaultEvalPhi Q.cp.surf.nfp Q.wPhis) (ht : Q.eThetas = Q.wThetas) (r : ℝ) (hr : 0 < r) (q : ℝ × ℝ)
    (hd : ∀ y ∈ gridPoints Q.wPhis Q.wThetas,
      r ≤ (Q.plasma.shape.gamma Q.plasma.dofs q.1 q.2 - Q.cp.surf.gamma Q.cp.wdofs y.1 y.2).norm) :
    |Q.bnWinding (coefs d) q| ≤ 1e-7 * quantityNumber others Q d "f_huber_K" / r ^ 2 := by
  have hnk : 2 ≤ Q.cp.surf.nfp * k := hk.trans (Nat.le_mul_of_pos_left k (Nat.pos_of_ne_zero hn))
  have e := C46_one_period_times_nfp Q.cp.surf Q.cp.wdofs hn k hk Q.wThetas (fun p t => (Q.cp.K (coefs d) p t).norm) (fun p t => by
    have := Q.cp.K_field_period hn (coefs d) p t 1
    rw [Int.cast_one] at this
    rw [this, rotZ_norm])
  have eh : quantityNumber others Q d "f_huber_K" =
      Q.winding.integrate ((gridPoints Q.wPhis Q.wThetas).map fun y => (Q.cp.K (coefs d) y.1 y.2).norm) := by
    rw [huber_value, List.map_map]
    have : ((fun x : ℝ => |x|) ∘ fun y : ℝ × ℝ => (Q.cp.K (coefs d) y.1 y.2).norm) = fun y => (Q.cp.K (coefs d) y.1 y.2).norm := by
      funext y
      exact abs_of_nonneg (Real.sqrt_nonneg _)
    rw [this, FieldProblem.evalGrid, FieldProblem.evalSurface, FieldProblem.winding, he, ht, defaultEvalPhi, hw]
    exact e
  have ei : Q.winding.integrate ((gridPoints Q.wPhis Q.wThetas).map fun y => (Q.cp.K (coefs d) y.1 y.2).norm) =
      (1 / Q.wPhis.length / Q.wThetas.length) * ((gridPoints Q.wPhis Q.wThetas).map fun y =>
        (Q.cp.surf.normal Q.cp.wdofs y.1 y.2).norm * (Q.cp.K (coefs d) y.1 y.2).norm).sum := by
    have s1 : gridStep Q.wPhis = 1 / Q.wPhis.length := by rw [hw, gridStep_linspace0 _ _ hnk, linspace0_length]
    have s2 : gridStep Q.wThetas = 1 / Q.wThetas.length := by rw [hwt, gridStep_linspace0 _ _ hl, linspace0_length]
    rw [GridSurface.integrate, GridSurface.da, FieldProblem.winding, List.zipWith_map, List.zipWith_self, s1, s2]
    refine sum_map_scale _ _ _ _ fun y _ => ?_
    ring
  rw [eh, ei, FieldProblem.bnWinding, FieldProblem.windingB, V3.dot_smul_right, FieldProblem.computeB, dot_vsum, List.map_map, abs_mul]
  have key : |((gridPoints Q.wPhis Q.wThetas).map ((fun v => V3.dot (Q.plasma.shape.unitnormal Q.plasma.dofs q.1 q.2) v) ∘
      Q.bTerm (coefs d) (Q.plasma.shape.gamma Q.plasma.dofs q.1 q.2))).sum| ≤
      ((gridPoints Q.wPhis Q.wThetas).map fun y =>
        (Q.cp.surf.normal Q.cp.wdofs y.1 y.2).norm * (Q.cp.K (coefs d) y.1 y.2).norm / r ^ 2).sum := by
    refine abs_sum_map_le _ _ _ fun y hy => ?_
    have h0 := hd y hy
    simp only [Function.comp_apply, FieldProblem.bTerm, V3.dot_smul_right]
    generalize hR : Q.plasma.shape.gamma Q.plasma.dofs q.1 q.2 - Q.cp.surf.gamma Q.cp.wdofs y.1 y.2 = R at h0
    have hRp : 0 < R.norm := hr.trans_le h0
    have hN : 0 ≤ (Q.cp.surf.normal Q.cp.wdofs y.1 y.2).norm := Real.sqrt_nonneg _
    have hK : 0 ≤ (Q.cp.K (coefs d) y.1 y.2).norm := Real.sqrt_nonneg _
    have hc := abs_dot_cross_le _ (Q.cp.K (coefs d) y.1 y.2) R
      (unit_normSq_le (Q.plasma.shape.normal Q.plasma.dofs q.1 q.2))
    rw [← SurfaceShape.unitnormal] at hc
    rw [← V3.norm, abs_mul, abs_mul, abs_of_nonneg hN, abs_of_nonneg (by positivity : 0 ≤ (1 / R.norm) ^ 3)]
    calc (1 / R.norm) ^ 3 * ((Q.cp.surf.normal Q.cp.wdofs y.1 y.2).norm *
          |V3.dot (Q.plasma.shape.unitnormal Q.plasma.dofs q.1 q.2) (V3.cross (Q.cp.K (coefs d) y.1 y.2) R)|)
        ≤ (1 / R.norm) ^ 3 * ((Q.cp.surf.normal Q.cp.wdofs y.1 y.2).norm * ((Q.cp.K (coefs d) y.1 y.2).norm * R.norm)) := by gcongr
      _ = (Q.cp.surf.normal Q.cp.wdofs y.1 y.2).norm * (Q.cp.K (coefs d) y.1 y.2).norm / R.norm ^ 2 := by field_simp
      _ ≤ _ := by gcongr
  rw [sum_map_div] at key
  have hc : (0 : ℝ) ≤ 1e-7 / Q.wPhis.length / Q.wThetas.length := by positivity
  rw [abs_of_nonneg hc]
  refine (mul_le_mul_of_nonneg_left key hc).trans (le_of_eq ?_)
  ring

/-- **C183 (the current a plasma field needs).** Whatever the potential, the largest given normal field is at most
`f_max_Bnormal + 1e-7 f_huber_K / r^2`, where `r` bounds the distance between the two grids from below. A small error therefore needs a current. -/
theorem C183_current_needed (others : List String) (Q : FieldProblem) (d : Dofs) (hn : Q.cp.surf.nfp ≠ 0) (k l : ℕ) (hk : 2 ≤ k)
    (hl : 2 ≤ l) (hw : Q.wPhis = linspace0 1 (Q.cp.surf.nfp * k)) (hwt : Q.wThetas = linspace0 1 l)
    (he : Q.ePhis = defaultEvalPhi Q.cp.surf.nfp Q.wPhis) (ht : Q.eThetas = Q.wThetas) (r : ℝ) (hr : 0 < r)
    (hd : ∀ q ∈ Q.plasmaGrid, ∀ y ∈ gridPoints Q.wPhis Q.wThetas,
      r ≤ (Q.plasma.shape.gamma Q.plasma.dofs q.1 q.2 - Q.cp.surf.gamma Q.cp.wdofs y.1 y.2).norm)
    (hb : Q.bPlasma.length = Q.plasmaGrid.length) :
    ∀ b ∈ Q.bPlasma, |b| ≤ quantityNumber others Q d "f_max_Bnormal" + 1e-7 * quantityNumber others Q d "f_huber_K" / r ^ 2 := by
  intro b hbm
  obtain ⟨i, hi, rfl⟩ := List.mem_iff_getElem.1 hbm
  have hi' : i < Q.plasmaGrid.length := hb ▸ hi
  have hf := C183_field others Q d hn k l hk hl hw hwt he ht r hr _ (hd _ (List.getElem_mem hi'))
  have hm : |Q.bnWinding (coefs d) Q.plasmaGrid[i] + Q.bPlasma[i]| ≤ quantityNumber others Q d "f_max_Bnormal" := by
    refine le_maxAbs (.array (Q.bnormal (coefs d))) (List.mem_map.2 ⟨(Q.plasmaGrid[i], Q.bPlasma[i]), ?_, rfl⟩)
    refine List.mem_iff_getElem.2 ⟨i, ?_, ?_⟩
    · rw [List.length_zip]
      exact lt_min hi' hi
    · exact List.getElem_zip
  have e : Q.bPlasma[i] = (Q.bnWinding (coefs d) Q.plasmaGrid[i] + Q.bPlasma[i]) - Q.bnWinding (coefs d) Q.plasmaGrid[i] := by ring
  rw [e]
  exact (abs_sub _ _).trans (add_le_add hm hf)

/-- **C183 (the `f_K` a plasma field needs).** If the error is smaller than the given field at some point, `f_K` is at least
`(1e7 r^2 (|b| - f_max_Bnormal))^2 / (2 A)`. -/
theorem C183_f_K_needed (others : List String) (Q : FieldProblem) (d : Dofs) (hn : Q.cp.surf.nfp ≠ 0) (k l : ℕ) (hk : 2 ≤ k)
    (hl : 2 ≤ l) (hw : Q.wPhis = linspace0 1 (Q.cp.surf.nfp * k)) (hwt : Q.wThetas = linspace0 1 l)
    (he : Q.ePhis = defaultEvalPhi Q.cp.surf.nfp Q.wPhis) (ht : Q.eThetas = Q.wThetas)
    (hs : 0 ≤ gridStep Q.ePhis * gridStep Q.eThetas) (r : ℝ) (hr : 0 < r)
    (hd : ∀ q ∈ Q.plasmaGrid, ∀ y ∈ gridPoints Q.wPhis Q.wThetas,
      r ≤ (Q.plasma.shape.gamma Q.plasma.dofs q.1 q.2 - Q.cp.surf.gamma Q.cp.wdofs y.1 y.2).norm)
    (hb : Q.bPlasma.length = Q.plasmaGrid.length) :
    ∀ b ∈ Q.bPlasma, quantityNumber others Q d "f_max_Bnormal" ≤ |b| →
      (1e7 * r ^ 2 * (|b| - quantityNumber others Q d "f_max_Bnormal")) ^ 2 ≤
        2 * (Q.cp.nfp * Q.evalSurface.area) * quantityNumber others Q d "f_K" := by
  intro b hbm hle
  have h := C183_current_needed others Q d hn k l hk hl hw hwt he ht r hr hd hb b hbm
  have hK := (C183_K others Q d hs).2.1
  refine le_trans (pow_le_pow_left₀ (mul_nonneg (by positivity) (sub_nonneg.2 hle)) ?_ 2) hK
  have h1 : |b| - quantityNumber others Q d "f_max_Bnormal" ≤ 1e-7 * quantityNumber others Q d "f_huber_K" / r ^ 2 := by linarith
  calc 1e7 * r ^ 2 * (|b| - quantityNumber others Q d "f_max_Bnormal")
      ≤ 1e7 * r ^ 2 * (1e-7 * quantityNumber others Q d "f_huber_K" / r ^ 2) := mul_le_mul_of_nonneg_left h1 (by positivity)
    _ = quantityNumber others Q d "f_huber_K" := by field_simp; norm_num

theorem scalar_le {reg : Registry FieldProblem} {rs : List Request} {Q : FieldProblem} {d : Dofs} {n : String} {u : UnitArg} {x y : ℝ}
    (h : UserFeasible reg rs Q d) (hr : ⟨n, "<=", u, x⟩ ∈ rs) (hy : rawOf reg n Q d = Val.scalar y) : y ≤ x := by
  have := h _ hr
  rw [hy] at this
  simpa [FieldConstraint, Val.entries] using this

/-- **C183 (limits that exclude each other).** A limit `e` for `f_max_Bnormal` and a limit `h` for `f_huber_K`, for `f_K` or for `f_max_K2` cannot
be met together by any potential if `e + 1e-7 H / r^2` is smaller than the given field at some point, where `H` is `h`, `sqrt(2 A h)` or `A sqrt(h)`. -/
theorem C183_infeasible (others : List String) (Q : FieldProblem) (hn : Q.cp.surf.nfp ≠ 0) (k l : ℕ) (hk : 2 ≤ k)
    (hl : 2 ≤ l) (hw : Q.wPhis = linspace0 1 (Q.cp.surf.nfp * k)) (hwt : Q.wThetas = linspace0 1 l)
    (he : Q.ePhis = defaultEvalPhi Q.cp.surf.nfp Q.wPhis) (ht : Q.eThetas = Q.wThetas)
    (hs : 0 ≤ gridStep Q.ePhis * gridStep Q.eThetas) (r : ℝ) (hr : 0 < r)
    (hd : ∀ q ∈ Q.plasmaGrid, ∀ y ∈ gridPoints Q.wPhis Q.wThetas,
      r ≤ (Q.plasma.shape.gamma Q.plasma.dofs q.1 q.2 - Q.cp.surf.gamma Q.cp.wdofs y.1 y.2).norm)
    (hb : Q.bPlasma.length = Q.plasmaGrid.length) (b : ℝ) (hbm : b ∈ Q.bPlasma) (rs : List Request) (u u' : UnitArg) (e h : ℝ)
    (h1 : ⟨"f_max_Bnormal", "<=", u, e⟩ ∈ rs)
    (h2 : (⟨"f_huber_K", "<=", u', h⟩ ∈ rs ∧ e + 1e-7 * h / r ^ 2 < |b|) ∨
      (⟨"f_K", "<=", u', h⟩ ∈ rs ∧ e + 1e-7 * √(2 * (Q.cp.nfp * Q.evalSurface.area) * h) / r ^ 2 < |b|) ∨
      (⟨"f_max_K2", "<=", u', h⟩ ∈ rs ∧ e + 1e-7 * (Q.cp.nfp * Q.evalSurface.area * √h) / r ^ 2 < |b|)) (d : Dofs) :
    ¬UserFeasible (shippedRegistry FieldProblem.fns others) rs Q d := by
  intro hf
  have hB : quantityNumber others Q d "f_max_Bnormal" ≤ e := scalar_le hf h1 rfl
  have hc := C183_current_needed others Q d hn k l hk hl hw hwt he ht r hr hd hb b hbm
  have hA : 0 ≤ Q.cp.nfp * Q.evalSurface.area :=
    mul_nonneg (Nat.cast_nonneg _) (List.sum_nonneg (Q.evalSurface.da_nonneg hs))
  obtain ⟨-, k2, -, k4⟩ := C183_K others Q d hs
  have key : ∀ H, quantityNumber others Q d "f_huber_K" ≤ H → |b| ≤ e + 1e-7 * H / r ^ 2 := by
    intro H hH
    refine hc.trans (add_le_add hB ?_)
    gcongr
  rcases h2 with ⟨m, h2⟩ | ⟨m, h2⟩ | ⟨m, h2⟩
  · exact absurd (key h (scalar_le hf m rfl)) (not_le.2 h2)
  · have hK : quantityNumber others Q d "f_K" ≤ h := scalar_le hf m rfl
    exact absurd (key _ (Real.le_sqrt_of_sq_le (k2.trans (mul_le_mul_of_nonneg_left hK (by positivity))))) (not_le.2 h2)
  · have hK : quantityNumber others Q d "f_max_K2" ≤ h := scalar_le hf m rfl
    exact absurd (key _ (k4.trans (mul_le_mul_of_nonneg_left (Real.sqrt_le_sqrt hK) hA))) (not_le.2 h2)

/-- Two tori with the same axis and radii `a` and `b` have at least the distance `|a - b|`. -/
theorem torus_distance (R a b p t p' t' : ℝ) (ha : 0 ≤ a) (hb : 0 ≤ b) (haR : a ≤ R) (hbR : b ≤ R) :
    |a - b| ≤ (circularTorus.surf.gamma [R, a, a] p t - circularTorus.surf.gamma [R, b, b] p' t').norm := by
  refine Real.le_sqrt_of_sq_le ?_
  rw [sq_abs, torus_gamma, torus_gamma]
  simp only [V3.normSq, V3.sub_x, V3.sub_y, V3.sub_z]
  generalize 2 * π * p = x
  generalize 2 * π * p' = x'
  generalize 2 * π * t = y
  generalize 2 * π * t' = y'
  have h1 := Real.sin_sq_add_cos_sq x
  have h2 := Real.sin_sq_add_cos_sq x'
  have h3 := Real.sin_sq_add_cos_sq y
  have h4 := Real.sin_sq_add_cos_sq y'
  have c1 : Real.cos (x - x') ≤ 1 := Real.cos_le_one _
  have c2 : Real.cos (y - y') ≤ 1 := Real.cos_le_one _
  rw [Real.cos_sub] at c1 c2
  have hu : 0 ≤ R + a * Real.cos y := by nlinarith [Real.neg_one_le_cos y]
  have hv : 0 ≤ R + b * Real.cos y' := by nlinarith [Real.neg_one_le_cos y']
  have m1 := mul_le_mul_of_nonneg_left c1 (mul_nonneg hu hv)
  have m2 := mul_le_mul_of_nonneg_left c2 (mul_nonneg ha hb)
  generalize hU : R + a * Real.cos y = U at *
  generalize hV : R + b * Real.cos y' = V at *
  have e : (U * Real.cos x - V * Real.cos x') ^ 2 + (U * Real.sin x - V * Real.sin x') ^ 2 =
      U ^ 2 + V ^ 2 - 2 * (U * V * (Real.cos x * Real.cos x' + Real.sin x * Real.sin x')) := by
    linear_combination U ^ 2 * h1 + V ^ 2 * h2
  have e' : (U - V) ^ 2 + (a * Real.sin y - b * Real.sin y') ^ 2 =
      a ^ 2 + b ^ 2 - 2 * (a * b * (Real.cos y * Real.cos y' + Real.sin y * Real.sin y')) := by
    rw [← hU, ← hV]
    linear_combination a ^ 2 * h3 + b ^ 2 * h4
  nlinarith

theorem torusProblem_grids : torusProblem.cp.surf.nfp ≠ 0 ∧ torusProblem.wPhis = linspace0 1 (torusProblem.cp.surf.nfp * 2) ∧
    torusProblem.ePhis = defaultEvalPhi torusProblem.cp.surf.nfp torusProblem.wPhis := by
  refine ⟨by simp [torusProblem, circularTorus], by simp [torusProblem, circularTorus], ?_⟩
  simp only [torusProblem, circularTorus, defaultEvalPhi, Nat.div_one, List.take_length]

/-- A torus of radius 1 around a plasma of radius 1/2, where the given normal field is 1 at one point: whatever the potential,
`1 ≤ f_max_Bnormal + 4e-7 f_huber_K`. -/
example (d : Dofs) : 1 ≤ quantityNumber [] torusProblem d "f_max_Bnormal" + 4e-7 * quantityNumber [] torusProblem d "f_huber_K" := by
  have h := C183_current_needed [] torusProblem d torusProblem_grids.1 2 2 (le_refl 2) (le_refl 2) torusProblem_grids.2.1 rfl
    torusProblem_grids.2.2 rfl (1 / 2) (by norm_num) (by
      intro q _ y _
      have := torus_distance 2 (1 / 2) 1 q.1 q.2 y.1 y.2 (by norm_num) (by norm_num) (by norm_num) (by norm_num)
      refine le_trans ?_ this
      norm_num [abs_of_neg]) rfl 1 (by simp [torusProblem])
  rw [abs_one] at h
  norm_num at h ⊢
  linarith

theorem torusProblem_steps : 0 ≤ gridStep torusProblem.ePhis * gridStep torusProblem.eThetas ∧
    0 ≤ gridStep torusProblem.plasma.phis * gridStep torusProblem.plasma.thetas := by
  constructor <;>
  · simp only [torusProblem, gridStep_linspace0 _ _ (le_refl 2)]
    norm_num

/-- On this torus no potential has an error of at most 1/2 and `f_huber_K` of at most one million. -/
example (d : Dofs) : ¬UserFeasible (shippedRegistry FieldProblem.fns []) [⟨"f_max_Bnormal", "<=", .none, 1 / 2⟩,
    ⟨"f_huber_K", "<=", .none, 1000000⟩] torusProblem d :=
  C183_infeasible [] torusProblem torusProblem_grids.1 2 2 (le_refl 2) (le_refl 2) torusProblem_grids.2.1 rfl
    torusProblem_grids.2.2 rfl torusProblem_steps.1 (1 / 2) (by norm_num) (by
      intro q _ y _
      have := torus_distance 2 (1 / 2) 1 q.1 q.2 y.1 y.2 (by norm_num) (by norm_num) (by norm_num) (by norm_num)
      refine le_trans ?_ this
      norm_num [abs_of_neg]) rfl 1 (by simp [torusProblem]) _ .none .none (1 / 2) 1000000 (by simp) (Or.inl ⟨by simp, by norm_num⟩) d

/-- The net flux of the given field, 1 at one of four points, bounds `f_B` from below. -/
example (c : List ℝ) : torusProblem.cp.nfp * torusProblem.plasma.integrate (torusProblem.bnormal c) ^ 2 ≤
    2 * torusProblem.fB c * torusProblem.plasma.area := C178_flux_bound torusProblem c torusProblem_steps.2

example (d : Dofs) : 2 * quantityNumber [] torusProblem d "f_K" ≤
    quantityNumber [] torusProblem d "f_huber_K" * √(quantityNumber [] torusProblem d "f_max_K2") :=
  (C183_K [] torusProblem d torusProblem_steps.1).2.2.1

example (d : Dofs) : quantityNumber [] torusProblem d "f_l1_Phi" ^ 2 ≤
    2 * (torusProblem.cp.nfp * torusProblem.evalSurface.area) * quantityNumber [] torusProblem d "f_Phi" :=
  (C183_Phi [] torusProblem d torusProblem_steps.1).2.1

example (d : Dofs) : 2 * quantityNumber [] torusProblem d "f_B" ≤
    torusProblem.cp.nfp * torusProblem.plasma.area * quantityNumber [] torusProblem d "f_max_Bnormal2" :=
  (C183_B [] torusProblem d torusProblem_steps.2).1

end Verif
