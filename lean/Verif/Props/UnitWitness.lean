import Verif.Props.CallUnits
import Verif.Props.ConvexRest
import Verif.Lemmas.LseConvex

/-!
# C152: every exception is one
-/

namespace Verif

open Real

variable {l mu : ℝ} {others : List String}

/-! ## Smooth maxima grow with their entries -/

theorem linfLse_eq (xs : List ℝ) {eps : ℝ} (he : 0 < eps) : linfLse xs eps = eps * log ((xs.map fun x => 2 * cosh (x / eps)).sum) := by
  rw [linfLse, maxLse, List.map_map]
  congr 3
  refine List.map_congr_left fun x _ => ?_
  rw [Function.comp_apply, absLse_eq, mul_div_cancel_left₀ _ he.ne', exp_log (by positivity)]

theorem linfLse_grows {xs : List ℝ} {eps t : ℝ} (he : 0 < eps) (ht : 1 < t) (hx : ∃ x ∈ xs, x ≠ 0) :
    linfLse xs eps < linfLse (xs.map (t * ·)) eps := by
  rw [linfLse_eq _ he, linfLse_eq _ he]
  obtain ⟨x, hx, h0⟩ := hx
  have habs : ∀ y : ℝ, |y / eps| ≤ |t * y / eps| := by
    intro y
    rw [abs_div, abs_div, abs_mul, abs_of_pos (by linarith : 0 < t)]
    gcongr
    nlinarith [abs_nonneg y]
  have hpos : 0 < (xs.map fun x => 2 * cosh (x / eps)).sum := by
    refine List.sum_pos _ (fun y hy => ?_) (by simpa using List.ne_nil_of_mem hx)
    obtain ⟨z, -, rfl⟩ := List.mem_map.1 hy
    positivity
  refine mul_lt_mul_of_pos_left (log_lt_log hpos ?_) he
  rw [List.map_map]
  refine List.sum_lt_sum _ _ (fun y _ => ?_) ⟨x, hx, ?_⟩
  · simp only [Function.comp_apply]
    have := cosh_le_cosh.2 (habs y)
    linarith
  · simp only [Function.comp_apply]
    have : cosh (x / eps) < cosh (t * x / eps) := by
      refine cosh_lt_cosh.2 ?_
      rw [abs_div, abs_div, abs_mul, abs_of_pos (by linarith : 0 < t)]
      gcongr
      nlinarith [abs_pos.2 h0]
    linarith

theorem linfLse_changes {xs : List ℝ} {eps t : ℝ} (he : 0 < eps) (ht : 0 < t) (h1 : t ≠ 1) (hx : ∃ x ∈ xs, x ≠ 0) :
    linfLse (xs.map (t * ·)) eps ^ 2 ≠ linfLse xs eps ^ 2 := by
  have key : linfLse (xs.map (t * ·)) eps ≠ linfLse xs eps := by
    rcases lt_or_gt_of_ne h1 with h | h
    · have := linfLse_grows (xs := xs.map (t * ·)) (t := t⁻¹) he (one_lt_inv_iff₀.2 ⟨ht, h⟩) (by
        obtain ⟨x, hx, h0⟩ := hx
        exact ⟨t * x, List.mem_map.2 ⟨x, hx, rfl⟩, mul_ne_zero ht.ne' h0⟩)
      have e : (xs.map (t * ·)).map (t⁻¹ * ·) = xs := by
        rw [List.map_map]
        exact (List.map_congr_left fun x _ => by simp [ht.ne']).trans (List.map_id xs)
      rw [e] at this
      exact this.ne
    · exact (linfLse_grows he h hx).ne'
  intro h
  exact key ((pow_left_inj₀ (linfLse_nonneg he) (linfLse_nonneg he) two_ne_zero).1 h)

/-! ## Three problems -/

/-- The torus of C124 without currents. -/
noncomputable def stillTorus : FieldProblem := wholeToroidal.rescale 1 0

theorem stillTorus_K (d : Dofs) : ∃ n, FieldProblem.fns.K stillTorus (rescaleDofs 0 d) = List.replicate n [0, 0, 0] ∧ n = 4 := by
  have h : FieldProblem.fns.K stillTorus (rescaleDofs 0 d) = (FieldProblem.fns.K wholeToroidal d).map fun v => v.map (0 / 1 * ·) :=
    fns_K wholeToroidal d 1 0 one_pos
  refine ⟨4, ?_, rfl⟩
  rw [h]
  simp [FieldProblem.fns, FieldProblem.evalGrid, gridPoints, wholeToroidal, linspace0, V3.toList, List.range_succ, List.replicate_succ]

theorem stillTorus_force (d : Dofs) : FieldProblem.fns.forceCyl stillTorus (rescaleDofs 0 d) = List.replicate 4 [0, 0, 0] := by
  have h : FieldProblem.fns.forceCyl stillTorus (rescaleDofs 0 d) = (FieldProblem.fns.forceCyl wholeToroidal d).map fun v =>
    v.map ((0 / 1) ^ 2 * ·) := fns_force wholeToroidal d 1 0 one_pos
  rw [h]
  simp [FieldProblem.fns, wholeToroidal, linspace0, V3.toList, List.range_succ, List.replicate_succ]

theorem stillTorus_integral (a : ℝ) : Quantity.l1Integral stillTorus (List.replicate 4 a) = 8 * π ^ 2 * a := by
  have h := l1Integral_scale wholeToroidal 1 0 one_pos (List.replicate 4 a) 1
  simp only [one_mul, List.map_id', one_pow] at h
  rw [stillTorus, h, Quantity.l1Integral, wholeToroidal_da, show HasQp.nfp wholeToroidal = 1 from Nat.cast_one]
  simp only [List.replicate_succ, List.replicate_zero, List.zipWith_cons_cons, List.zipWith_nil_left, List.sum_cons, List.sum_nil]
  ring

theorem resolved_Phi : ∃ x ∈ FieldProblem.fns.Phi resolvedTorus (phiOnly (.array [1])), x ≠ 0 := by
  refine ⟨_, List.mem_map.2 ⟨(0, 1 / 3), ?_, rfl⟩, ?_⟩
  · simp [FieldProblem.evalGrid, resolvedTorus, gridPoints, linspace0, List.range_succ]
  · have hr : resolvedTorus.cp.rows = [(1, 0, 1)] := by decide
    rw [coefs_phiOnly, CpParams.Phi, CpParams.trig, hr]
    simp [CpParams.angle, sinOrCos]
    refine ?_
    simp only [CpParams.app, List.zipWith_cons_cons, List.zipWith_nil_left, List.sum_cons, List.sum_nil, add_zero, mul_one]
    refine (sin_pos_of_pos_of_lt_pi (by positivity) ?_).ne'
    nlinarith [pi_pos]

theorem toroidal_nonzero_force : ∃ x ∈ (FieldProblem.fns.forceCyl toroidalProblem (phiOnly (.array [0]))).flatten, x ≠ 0 := by
  have h := toroidal_forceCyl 0
  have hk : (0 : ℝ) < 1e-7 * π ^ 2 / 48 := by positivity
  have hm : 1e-7 * π ^ 2 / 48 * |(1 + (0 : ℝ)) * (47 * 0 - 7)| ∈
      ((FieldProblem.fns.forceCyl toroidalProblem (phiOnly (.array [0]))).flatten).map (fun y => |y|) := by
    rw [h]
    simp
  obtain ⟨x, hx, e⟩ := List.mem_map.1 hm
  refine ⟨x, hx, fun h0 => ?_⟩
  rw [h0, abs_zero] at e
  norm_num at e

/-! ## The exceptions -/

/-- In other units the smoothed form has another value for some problem. -/
def SmoothedDiffers (l mu : ℝ) (name : String) (q : Quantity FieldProblem) (eps : ℝ) : Prop :=
  ∃ (Q : FieldProblem) (d : Dofs) (u : ℝ), 0 < u ∧
    q.approxF (Q.rescale l mu) (rescaleDofs mu d) (.scalar (factorOf l mu name * u)) ⟨eps⟩ ≠ q.approxF Q d (.scalar u) ⟨eps⟩

/-- In other units the form with auxiliary variables has another value for some problem, or the auxiliary variables have another start. -/
def SlackDiffers (l mu : ℝ) (name : String) (q : Quantity FieldProblem) : Prop :=
  ∃ (Q : FieldProblem) (d : Dofs) (u : ℝ), 0 < u ∧
    (q.slackF (Q.rescale l mu) (rescaleDofs mu d) (.scalar (factorOf l mu name * u)) ≠ q.slackF Q d (.scalar u) ∨
      ∃ s k f, q.slackInit = some s ∧ (k, f) ∈ s ∧
        f (Q.rescale l mu) (rescaleDofs mu d) (.scalar (factorOf l mu name * u)) ≠ f Q d (.scalar u))

theorem max_square_differs {f : FieldProblem → Dofs → List ℝ} {aux name : String} {pd : Bool} {Q : FieldProblem} {d : Dofs} {s : ℝ} (hs : 0 < s)
    (h1 : s ≠ 1) (hf : f (Q.rescale l mu) (rescaleDofs mu d) = (f Q d).map (s * ·)) (hx : ∃ x ∈ f Q d, x ≠ 0)
    (hn : factorOf l mu name = s ^ 2) :
    (∀ eps, 0 < eps → SmoothedDiffers l mu name (Quantity.generateLinf (arr f) aux pd true) eps) ∧
      SlackDiffers l mu name (Quantity.generateLinf (arr f) aux pd true) := by
  refine ⟨fun eps he => ⟨Q, d, 1, one_pos, ?_⟩, ⟨Q, d, 1, one_pos, .inr ⟨_, _, _, rfl, List.mem_singleton.2 rfl, ?_⟩⟩⟩
  · simp only [Quantity.generateLinf, if_true, arr, hf, hn, Val.map2, Val.entries, mul_one, div_one, List.map_map, ne_eq, Val.scalar.injEq,
      List.map_id']
    have e : (f Q d).map ((fun x => x / s ^ 2) ∘ fun x => s * x) = (f Q d).map (s⁻¹ * ·) := by
      refine List.map_congr_left fun x _ => ?_
      simp only [Function.comp_apply]
      field_simp
    rw [e]
    exact linfLse_changes he (inv_pos.2 hs) (by simpa using h1) hx
  · simp only [if_true, arr, hf, hn, Val.map, Val.map2, maxAbs_scale _ _ hs.le, ne_eq, Val.scalar.injEq, mul_one, sqrt_sq hs.le, sqrt_one,
      div_one]
    obtain ⟨x, hx, h0⟩ := hx
    have hpos : 0 < Quantity.maxAbs (Val.array (f Q d)) :=
      (abs_pos.2 h0).trans_le (le_jmax (List.mem_map.2 ⟨x, hx, rfl⟩))
    intro e
    have e2 : s * Quantity.maxAbs (Val.array (f Q d)) ^ 2 = 1 * Quantity.maxAbs (Val.array (f Q d)) ^ 2 := by
      rw [one_mul]
      rw [div_eq_iff hs.ne'] at e
      refine mul_left_cancel₀ hs.ne' ?_
      linarith [e]
    exact h1 (mul_right_cancel₀ (by positivity) e2)

theorem huber_differs (hl : 0 < l) (hmu : 0 < mu) (h1 : l ≠ 1) {eps : ℝ} (he : 0 < eps) (h3 : √3 * eps ≠ 1) :
    Quantity.generateHuber.huberSmooth (stillTorus.rescale l mu) (FieldProblem.fns.K (stillTorus.rescale l mu) (rescaleDofs mu
      (rescaleDofs 0 (phiOnly (.array [0]))))) (factorOf l mu "f_huber_K" * 1) eps ≠
    Quantity.generateHuber.huberSmooth stillTorus (FieldProblem.fns.K stillTorus (rescaleDofs 0 (phiOnly (.array [0])))) 1 eps := by
  have hf : factorOf l mu "f_huber_K" = mu / l * l ^ 2 := by simp [factorOf, valueFactor, List.lookup]
  have hK : FieldProblem.fns.K (stillTorus.rescale l mu) (rescaleDofs mu (rescaleDofs 0 (phiOnly (.array [0])))) =
      (FieldProblem.fns.K stillTorus (rescaleDofs 0 (phiOnly (.array [0])))).map fun v => v.map (mu / l * ·) :=
    fns_K stillTorus _ l mu hl
  obtain ⟨n, h0, rfl⟩ := stillTorus_K (phiOnly (.array [0]))
  have hv : ∀ u : ℝ, Quantity.generateHuber.huberSmooth stillTorus (List.replicate 4 [0, 0, 0]) u eps = 8 * π ^ 2 * (√3 * eps ^ 2 - eps) := by
    intro u
    rw [Quantity.generateHuber.huberSmooth, List.map_replicate, stillTorus_integral]
    congr 2
    simp only [List.map_cons, List.map_nil, zero_div, zero_add, Quantity.vecNorm, List.sum_cons, List.sum_nil, add_zero]
    rw [show (eps ^ 2) ^ 2 + ((eps ^ 2) ^ 2 + (eps ^ 2) ^ 2) = 3 * (eps ^ 2) ^ 2 by ring, sqrt_mul (by norm_num), sqrt_sq (by positivity)]
  rw [hf, huberSmooth_scale hl hK hmu.ne', h0, hv, hv]
  intro e
  have hne : 8 * π ^ 2 * (√3 * eps ^ 2 - eps) ≠ 0 := by
    have : √3 * eps ^ 2 - eps = eps * (√3 * eps - 1) := by ring
    rw [this]
    have := sub_ne_zero.2 h3
    positivity
  have h2 : l ^ 2 = 1 := mul_right_cancel₀ hne (by rw [e, one_mul])
  exact h1 (by nlinarith)

theorem l1Force_differs (hl : 0 < l) (hmu : 0 < mu) (h1 : mu ≠ l) {eps : ℝ} (he : 0 < eps) :
    SmoothedDiffers l mu "f_l1_force_cyl" (Quantity.generateL1Vec FieldProblem.fns.forceCyl "l1_force_cyl" false) eps := by
  have hf : factorOf l mu "f_l1_force_cyl" = (mu / l) ^ 2 * l ^ 2 := by simp [factorOf, valueFactor, List.lookup]
  refine ⟨stillTorus, rescaleDofs 0 (phiOnly (.array [0])), 1, one_pos, ?_⟩
  have hF : FieldProblem.fns.forceCyl (stillTorus.rescale l mu) (rescaleDofs mu (rescaleDofs 0 (phiOnly (.array [0])))) =
      (FieldProblem.fns.forceCyl stillTorus (rescaleDofs 0 (phiOnly (.array [0])))).map fun v => v.map ((mu / l) ^ 2 * ·) :=
    fns_force stillTorus _ l mu hl
  have hi : ∀ v, Quantity.l1Integral (stillTorus.rescale l mu) v = l ^ 2 * Quantity.l1Integral stillTorus v := by
    intro v
    have := l1Integral_scale stillTorus l mu hl v 1
    simpa using this
  have ha : absLse 0 eps = eps * log 2 := by rw [absLse_eq, zero_div, cosh_zero, mul_one]
  simp only [Quantity.generateL1Vec, hF, stillTorus_force, List.map_replicate, List.map_cons, List.map_nil, mul_zero, ha, hi,
    stillTorus_integral, Val.map2, ne_eq, Val.scalar.injEq, hf, mul_one, div_one, List.sum_cons, List.sum_nil]
  intro e
  have hlog := log_pos (by norm_num : (1 : ℝ) < 2)
  have hne : (8 * π ^ 2 * (eps * log 2 + (eps * log 2 + (eps * log 2 + 0)))) ≠ 0 := by positivity
  rw [div_pow, div_mul_cancel₀ _ (by positivity), div_eq_iff (by positivity)] at e
  have h2 : l ^ 2 = mu ^ 2 := mul_right_cancel₀ hne (by linarith)
  exact h1 ((pow_left_inj₀ hmu.le hl.le two_ne_zero).1 h2.symm)

theorem maxPhi4_differs (hmu : 0 < mu) (h1 : mu ≠ 1) {eps : ℝ} (he : 0 < eps) :
    SmoothedDiffers l mu "f_max_Phi4" (Quantity.generateLinf4 (arr FieldProblem.fns.Phi) "scaled_max_Phi2_f_max_Phi4") eps := by
  have hf : factorOf l mu "f_max_Phi4" = mu ^ 4 := by simp [factorOf, valueFactor, List.lookup]
  refine ⟨resolvedTorus, phiOnly (.array [1]), 1, one_pos, ?_⟩
  have hp := fns_Phi_scale resolvedTorus l mu (phiOnly (.array [1]))
  simp only [Quantity.generateLinf4, arr, hp, hf, Val.map, Val.map2, Val.entries, mul_one, div_one, List.map_map, ne_eq, Val.scalar.injEq,
    one_pow]
  set v := FieldProblem.fns.Phi resolvedTorus (phiOnly (.array [1])) with hv
  have e : v.map ((fun x => x / (mu ^ 4) ^ 2) ∘ (fun x => x ^ 2) ∘ fun x => mu * x) = (v.map fun x => x ^ 2).map ((mu ^ 6)⁻¹ * ·) := by
    rw [List.map_map]
    refine List.map_congr_left fun x _ => ?_
    simp only [Function.comp_apply]
    field_simp
  rw [e]
  refine linfLse_changes he (by positivity) ?_ ?_
  · intro h
    rw [inv_eq_one] at h
    exact h1 ((pow_eq_one_iff_of_nonneg hmu.le (by norm_num)).1 h)
  · obtain ⟨x, hx, h0⟩ := resolved_Phi
    exact ⟨x ^ 2, List.mem_map.2 ⟨x, hx, rfl⟩, pow_ne_zero 2 h0⟩

/-- **C152.** Every exception is one: each quantity that `UnitBound` excludes has, for some problem on a torus, another smoothed value or
another start of its auxiliary variables in the other units. (For `f_huber_K` not with the one smoothing parameter `1 / √3` at which its
value without current is zero. The form of `f_l1_force_cyl` with auxiliary variables is the subject of C74.) -/
theorem C152_exceptions_partial (hl : 0 < l) (hmu : 0 < mu) {name : String} {q : Quantity FieldProblem}
    (hq : shippedRegistry FieldProblem.fns others name = some (.quantity q)) :
    (UnitBound l mu (some "approx") name → ∀ eps, 0 < eps → (name = "f_huber_K" → √3 * eps ≠ 1) → SmoothedDiffers l mu name q eps) ∧
    (UnitBound l mu (some "slack") name → name ≠ "f_l1_force_cyl" → SlackDiffers l mu name q) := by
  have hreg : ∀ {n : String} {r : Quantity FieldProblem}, shippedRegistry FieldProblem.fns others n = some (.quantity r) → name = n → q = r := by
    rintro n r hr rfl
    have := hq.symm.trans hr
    simpa using this
  have force2 : mu ≠ l → name = "f_max_force2_cyl" → (∀ eps, 0 < eps → SmoothedDiffers l mu name q eps) ∧ SlackDiffers l mu name q := by
    rintro h1 hn
    obtain rfl := hreg (r := Quantity.generateLinf (arr fun qp d => (FieldProblem.fns.forceCyl qp d).flatten) "max_force2_cyl" false true) rfl hn
    subst hn
    refine max_square_differs (Q := toroidalProblem) (d := phiOnly (.array [0])) (s := (mu / l) ^ 2) (by positivity) ?_ ?_
      toroidal_nonzero_force (by simp [factorOf, valueFactor, List.lookup])
    · intro h
      refine h1 ?_
      have := (pow_eq_one_iff_of_nonneg (by positivity : 0 ≤ mu / l) two_ne_zero).1 h
      exact (div_eq_one_iff_eq hl.ne').1 this
    · rw [← flatten_map_scale]
      exact congrArg List.flatten (fns_force toroidalProblem (phiOnly (.array [0])) l mu hl)
  have phi2 : mu ≠ 1 → name = "f_max_Phi2" → (∀ eps, 0 < eps → SmoothedDiffers l mu name q eps) ∧ SlackDiffers l mu name q := by
    rintro h1 hn
    obtain rfl := hreg (r := Quantity.generateLinf (arr FieldProblem.fns.Phi) "scaled_max_Phi_f_max_Phi2" false true) rfl hn
    subst hn
    exact max_square_differs (Q := resolvedTorus) (d := phiOnly (.array [1])) hmu h1 (fns_Phi_scale _ _ _ _) resolved_Phi
      (by simp [factorOf, valueFactor, List.lookup])
  refine ⟨?_, ?_⟩
  · rintro (⟨h, -⟩ | ⟨-, ⟨h1, rfl⟩ | ⟨h1, rfl | rfl⟩ | ⟨h1, rfl | rfl | rfl⟩⟩) eps he h3
    · simp at h
    · obtain rfl := hreg (r := Quantity.generateHuber FieldProblem.fns.K) rfl rfl
      refine ⟨stillTorus, rescaleDofs 0 (phiOnly (.array [0])), 1, one_pos, fun e => ?_⟩
      exact huber_differs hl hmu h1 he (h3 rfl) (Val.scalar.inj e)
    · obtain rfl := hreg (r := Quantity.generateL1Vec FieldProblem.fns.forceCyl "l1_force_cyl" false) rfl rfl
      exact l1Force_differs hl hmu h1 he
    · exact (force2 h1 rfl).1 eps he
    · exact (phi2 h1 rfl).1 eps he
    · obtain rfl := hreg (r := Quantity.generateLinf4 (arr FieldProblem.fns.Phi) "scaled_max_Phi2_f_max_Phi4") rfl rfl
      exact maxPhi4_differs hmu h1 he
    · exact ⟨resolvedTorus, phiOnly (.array [0]), 1, one_pos, C152_smoothed_l1_witness_partial hl hmu h1 he one_pos hq⟩
  · rintro (⟨-, rfl | ⟨h1, rfl | rfl⟩ | ⟨h1, rfl⟩ | ⟨h1, rfl⟩⟩ | ⟨h, -⟩) hne
    · exact (hne rfl).elim
    · obtain rfl := hreg (r := Quantity.generateHuber FieldProblem.fns.K) rfl rfl
      refine ⟨stillTorus, rescaleDofs 0 (phiOnly (.array [0])), 1, one_pos, .inl fun e => ?_⟩
      refine huber_differs hl hmu h1 (eps := 1 / 1000) (by norm_num) ?_ (Val.scalar.inj e)
      intro h
      have h2 := sq_sqrt (by norm_num : (0 : ℝ) ≤ 3)
      have : √3 = 1000 := by linarith
      rw [this] at h2
      norm_num at h2
    · obtain ⟨s, hs, e⟩ := C152_l1_start_partial (l := l) hmu hq resolvedTorus (phiOnly (.array [1])) 1
      refine ⟨resolvedTorus, phiOnly (.array [1]), 1, one_pos, .inr ⟨_, _, s, hs, List.mem_singleton.2 rfl, ?_⟩⟩
      rw [e]
      obtain rfl := hreg (r := Quantity.generateL1 (arr FieldProblem.fns.Phi) "scaled_abs_Phi" false) rfl rfl
      have hs' := (List.cons.inj (Option.some.inj hs)).1
      have hs2 : s = fun qp dofs unit => Val.map2 (· / ·) (Val.map (fun x => |x|) (Val.array (FieldProblem.fns.Phi qp dofs))) unit :=
        (Prod.mk.inj hs').2.symm
      subst hs2
      intro h2
      obtain ⟨x, hx, h0⟩ := resolved_Phi
      simp only [Val.map, Val.map2, Val.array.injEq, List.map_map, div_one] at h2
      have h3 := (List.map_inj_left.1 h2) x hx
      simp only [Function.comp_apply] at h3
      have h4 : (l ^ 2)⁻¹ = 1 := mul_right_cancel₀ (abs_ne_zero.2 h0) (by rw [one_mul]; simpa using h3)
      rw [inv_eq_one] at h4
      exact h1 ((pow_eq_one_iff_of_nonneg hl.le two_ne_zero).1 h4)
    · exact (force2 h1 rfl).2
    · exact (phi2 h1 rfl).2
    · simp at h

-- twice as long a unit of length: the huberised current density is an exception, and with the default parameter it does differ
example : SmoothedDiffers 2 1 "f_huber_K" (Quantity.generateHuber FieldProblem.fns.K) (1 / 1000) := by
  refine (C152_exceptions_partial (others := []) (l := 2) (mu := 1) two_pos one_pos (name := "f_huber_K") rfl).1 ?_ _ (by norm_num) ?_
  · exact .inr ⟨rfl, .inl ⟨by norm_num, rfl⟩⟩
  · intro _ h
    have h2 := sq_sqrt (by norm_num : (0 : ℝ) ≤ 3)
    have : √3 = 1000 := by linarith
    rw [this] at h2
    norm_num at h2

-- another unit of current alone is no exception for it
example : ¬ UnitBound 1 2 (some "approx") "f_huber_K" := by
  rintro (⟨h, -⟩ | ⟨-, ⟨h, -⟩ | ⟨-, h | h⟩ | ⟨-, h | h | h⟩⟩) <;> simp at h

end Verif
