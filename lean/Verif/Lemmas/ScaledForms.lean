import Verif.Props.Units

/-!
# The forms of the quantities in other units
-/

namespace Verif

/-- The value is multiplied by `e`. -/
def RawScales (q : Quantity FieldProblem) (Q : FieldProblem) (l mu e : ℝ) : Prop :=
  ∀ d, q.rawF (Q.rescale l mu) (rescaleDofs mu d) = (q.rawF Q d).map (e * ·)

/-- The smoothed form in a unit multiplied by `e` is unchanged. -/
def ApproxScales (q : Quantity FieldProblem) (Q : FieldProblem) (l mu e : ℝ) : Prop :=
  ∀ d U sp, q.approxF (Q.rescale l mu) (rescaleDofs mu d) (U.map (e * ·)) sp = q.approxF Q d U sp

/-- The slack form in a unit multiplied by `e` is unchanged. -/
structure SlackScales (q : Quantity FieldProblem) (Q : FieldProblem) (l mu e : ℝ) : Prop where
  f : ∀ d U, q.slackF (Q.rescale l mu) (rescaleDofs mu d) (U.map (e * ·)) = q.slackF Q d U
  g : ∀ g, q.slackG = some g → ∀ d U, g (Q.rescale l mu) (rescaleDofs mu d) (U.map (e * ·)) = g Q d U
  h : ∀ h, q.slackH = some h → ∀ d U, h (Q.rescale l mu) (rescaleDofs mu d) (U.map (e * ·)) = h Q d U
  init : ∀ s, q.slackInit = some s → ∀ kv ∈ s, ∀ d U, kv.2 (Q.rescale l mu) (rescaleDofs mu d) (U.map (e * ·)) = kv.2 Q d U

theorem map2_div_scale (V U : Val) {e : ℝ} (he : e ≠ 0) :
    Val.map2 (· / ·) (V.map (e * ·)) (U.map (e * ·)) = Val.map2 (· / ·) V U := by
  cases V <;> cases U <;> simp [Val.map, Val.map2, List.zipWith_map, mul_div_mul_left _ _ he]

theorem rescaleDofs_other {mu : ℝ} {d : Dofs} {k : String} (hk : k ≠ "phi") : rescaleDofs mu d k = d k := if_neg hk

theorem rescaleDofs_phiOnly (mu : ℝ) (v : Val) : rescaleDofs mu (phiOnly v) = phiOnly (.array (v.entries.map (mu * ·))) := by
  funext k
  by_cases hk : k = "phi"
  · subst hk
    simp [rescaleDofs, phiOnly]
  · simp [rescaleDofs, phiOnly, hk]

theorem coefs_rescaleDofs (mu : ℝ) (d : Dofs) : coefs (rescaleDofs mu d) = (coefs d).map (mu * ·) := by
  simp [coefs, rescaleDofs, Val.entries]

theorem RawScales.call {q : Quantity FieldProblem} {Q : FieldProblem} {l mu e : ℝ} (h : RawScales q Q l mu e) (d : Dofs) :
    q.call (Q.rescale l mu) (rescaleDofs mu d) = (q.call Q d).map (e * ·) := by
  have := h (phiOnly (d "phi"))
  rw [rescaleDofs_phiOnly] at this
  exact this

variable {Q : FieldProblem} {l mu e : ℝ}

theorem val_map_one (U : Val) : U.map ((1 : ℝ) * ·) = U := by
  cases U <;> simp [Val.map]

theorem val_map_array (v : List ℝ) (f : ℝ → ℝ) : Val.array (v.map f) = (Val.array v).map f := rfl

theorem c2_scales {f : FieldProblem → Dofs → Val} {comp : List String} (he : e ≠ 0)
    (h : ∀ d, f (Q.rescale l mu) (rescaleDofs mu d) = (f Q d).map (e * ·)) :
    ApproxScales (Quantity.generateC2 f comp) Q l mu e ∧ SlackScales (Quantity.generateC2 f comp) Q l mu e := by
  refine ⟨fun d U sp => ?_, ⟨fun d U => ?_, fun g hg => ?_, fun g hg => ?_, fun g hg => ?_⟩⟩
  · simp only [Quantity.generateC2, h, map2_div_scale _ _ he]
  · simp only [Quantity.generateC2, h, map2_div_scale _ _ he]
  · cases hg
  · cases hg
  · cases hg

theorem slackIneq_scale (v : List ℝ) (U p : Val) (pd : Bool) (he : e ≠ 0) :
    Quantity.slackIneq (.array (v.map (e * ·))) (U.map (e * ·)) p pd = Quantity.slackIneq (.array v) U p pd := by
  have h1 : Val.map2 (· / ·) (Val.array (v.map (e * ·))) (U.map (e * ·)) = Val.map2 (· / ·) (Val.array v) U := map2_div_scale (.array v) U he
  have h2 : Val.map2 (· / ·) (Val.map (fun x => -x) (Val.array (v.map (e * ·)))) (U.map (e * ·)) =
      Val.map2 (· / ·) (Val.map (fun x => -x) (Val.array v)) U := by
    rw [← map2_div_scale _ U he]
    congr 1
    simp [Val.map]
  simp only [Quantity.slackIneq, Val.entries, h1, h2]

theorem linf_scales {f : FieldProblem → Dofs → List ℝ} {aux : String} {pd : Bool} (haux : aux ≠ "phi") (he : 0 < e)
    (h : ∀ d, f (Q.rescale l mu) (rescaleDofs mu d) = (f Q d).map (e * ·)) :
    ApproxScales (Quantity.generateLinf (arr f) aux pd false) Q l mu e ∧
      SlackScales (Quantity.generateLinf (arr f) aux pd false) Q l mu e := by
  refine ⟨fun d U sp => ?_, ⟨fun d U => ?_, fun g hg => ?_, fun g hg => ?_, fun g hg => ?_⟩⟩
  · simp only [Quantity.generateLinf, arr, h, Bool.false_eq_true, if_false, val_map_array, map2_div_scale _ _ he.ne']
  · simp only [Quantity.generateLinf, rescaleDofs_other haux]
  · cases hg
    intro d U
    simp only [arr, h, Bool.false_eq_true, if_false, slackIneq_scale _ _ _ _ he.ne', rescaleDofs_other haux]
  · cases hg
  · cases hg
    intro kv hkv d U
    rw [List.mem_singleton] at hkv
    subst hkv
    simp only [arr, h, Bool.false_eq_true, if_false, maxAbs_scale _ _ he.le]
    exact map2_div_scale (.scalar _) U he.ne'

theorem map_sqrt_scale (U : Val) (he : 0 ≤ e) : Val.map Real.sqrt (U.map (e * ·)) = (Val.map Real.sqrt U).map (Real.sqrt e * ·) := by
  cases U <;> simp [Val.map, Real.sqrt_mul he]

theorem linf4_slack_scales {f : FieldProblem → Dofs → List ℝ} {aux : String} (haux : aux ≠ "phi") (he : 0 < e)
    (h : ∀ d, f (Q.rescale l mu) (rescaleDofs mu d) = (f Q d).map (e * ·)) :
    SlackScales (Quantity.generateLinf4 (arr f) aux) Q l mu (e ^ 4) := by
  have hs : Real.sqrt (e ^ 4) = e ^ 2 := by
    rw [show e ^ 4 = (e ^ 2) ^ 2 by ring, Real.sqrt_sq (by positivity)]
  have he2 : e ^ 2 ≠ 0 := by positivity
  have hsq : ∀ d, Val.map (· ^ 2) (Val.array ((f Q d).map (e * ·))) = (Val.map (· ^ 2) (Val.array (f Q d))).map (e ^ 2 * ·) := by
    intro d
    simp [Val.map, mul_pow]
  refine ⟨fun d U => ?_, fun g hg => ?_, fun g hg => ?_, fun g hg => ?_⟩
  · simp only [Quantity.generateLinf4, rescaleDofs_other haux]
  · cases hg
    intro d U
    simp only [arr, h, hsq, map_sqrt_scale U (show (0 : ℝ) ≤ e ^ 4 by positivity), hs, map2_div_scale _ _ he2, rescaleDofs_other haux]
  · cases hg
  · cases hg
    intro kv hkv d U
    rw [List.mem_singleton] at hkv
    subst hkv
    have hm : ((f Q d).map (e * ·)).map (fun x => x ^ 2) = ((f Q d).map fun x => x ^ 2).map (e ^ 2 * ·) := by
      simp [mul_pow]
    simp only [arr, h, Val.entries, hm, map_sqrt_scale U (show (0 : ℝ) ≤ e ^ 4 by positivity), hs, jmax_scale _ _ (sq_nonneg e)]
    exact map2_div_scale (.scalar _) (Val.map Real.sqrt U) he2

/-- A maximum of a field that is the same in other units. -/
theorem linf_same {f : FieldProblem → Dofs → List ℝ} {aux : String} {pd square : Bool} (haux : aux ≠ "phi")
    (h : ∀ d, f (Q.rescale l mu) (rescaleDofs mu d) = f Q d) :
    ApproxScales (Quantity.generateLinf (arr f) aux pd square) Q l mu 1 ∧
      SlackScales (Quantity.generateLinf (arr f) aux pd square) Q l mu 1 := by
  refine ⟨fun d U sp => ?_, ⟨fun d U => ?_, fun g hg => ?_, fun g hg => ?_, fun g hg => ?_⟩⟩
  · simp only [Quantity.generateLinf, arr, h, val_map_one]
  · simp only [Quantity.generateLinf, rescaleDofs_other haux]
  · cases hg
    intro d U
    simp only [arr, h, val_map_one, rescaleDofs_other haux]
  · cases hg
  · cases hg
    intro kv hkv d U
    rw [List.mem_singleton] at hkv
    subst hkv
    simp only [arr, h, val_map_one]

theorem headD_scale (U : Val) (e : ℝ) : (U.map (e * ·)).entries.headD 0 = e * U.entries.headD 0 := by
  cases U with
  | scalar x => rfl
  | array v => cases v <;> simp [Val.map, Val.entries]

/-- The smoothed Huber loss depends on the unit of length only. -/
theorem huberSmooth_scale {v' v : List (List ℝ)} (hl : 0 < l) (hv : v' = v.map fun x => x.map (mu / l * ·)) (hmu : mu ≠ 0) (u eps : ℝ) :
    Quantity.generateHuber.huberSmooth (Q.rescale l mu) v' (mu / l * l ^ 2 * u) eps =
      l ^ 2 * Quantity.generateHuber.huberSmooth Q v (l ^ 2 * u) eps := by
  have e : v'.map (fun x => Quantity.vecNorm (x.map fun y => y / (mu / l * l ^ 2 * u) + eps ^ 2) - eps) =
      (v.map fun x => Quantity.vecNorm (x.map fun y => y / (l ^ 2 * u) + eps ^ 2) - eps).map ((1 : ℝ) * ·) := by
    rw [hv, List.map_map, List.map_map]
    refine List.map_congr_left fun x _ => ?_
    simp only [Function.comp_apply, List.map_map, one_mul]
    congr 3
    funext y
    simp only [Function.comp_apply]
    rw [mul_assoc, mul_div_mul_left _ _ (div_ne_zero hmu hl.ne')]
  rw [Quantity.generateHuber.huberSmooth, e, l1Integral_scale Q l mu hl, one_mul, Quantity.generateHuber.huberSmooth]

/-- What a quantity satisfies in other units. -/
structure FormsScale (smoothing : Option String) (name : String) (q : Quantity FieldProblem) (Q : FieldProblem) (l mu e : ℝ) : Prop where
  raw : RawScales q Q l mu e
  approx : smoothing = some "approx" → ¬ UnitBound l mu smoothing name → ApproxScales q Q l mu e
  slack : smoothing = some "slack" → ¬ UnitBound l mu smoothing name → SlackScales q Q l mu e

theorem formsScale_of {sm : Option String} {name : String} {q : Quantity FieldProblem} (hr : RawScales q Q l mu e)
    (h : ApproxScales q Q l mu e ∧ SlackScales q Q l mu e) : FormsScale sm name q Q l mu e :=
  ⟨hr, fun _ _ => h.1, fun _ _ => h.2⟩

theorem huber_forms {sm : Option String} (hl : 0 < l) (hmu : 0 < mu)
    (hr : RawScales (Quantity.generateHuber FieldProblem.fns.K) Q l mu (mu / l * l ^ 2)) :
    FormsScale sm "f_huber_K" (Quantity.generateHuber FieldProblem.fns.K) Q l mu (mu / l * l ^ 2) := by
  have key : l = 1 → ∀ (d : Dofs) (U : Val) (eps : ℝ), Quantity.generateHuber.huberSmooth (Q.rescale l mu) (FieldProblem.fns.K (Q.rescale l mu) (rescaleDofs mu d))
      ((U.map (mu / l * l ^ 2 * ·)).entries.headD 0) eps =
      Quantity.generateHuber.huberSmooth Q (FieldProblem.fns.K Q d) (U.entries.headD 0) eps := by
    intro h1 d U eps
    have hK : FieldProblem.fns.K (Q.rescale l mu) (rescaleDofs mu d) = (FieldProblem.fns.K Q d).map fun v => v.map (mu / l * ·) :=
      fns_K Q d l mu hl
    rw [headD_scale, huberSmooth_scale hl hK hmu.ne', h1]
    simp only [one_pow, one_mul]
  refine ⟨hr, fun h hn d U sp => ?_, fun h hn => ⟨fun d U => ?_, fun g hg => ?_, fun g hg => ?_, fun g hg => ?_⟩⟩
  · have h1 : l = 1 := by
      by_contra h1
      exact hn (.inr ⟨h, .inl ⟨h1, rfl⟩⟩)
    simp only [Quantity.generateHuber, key h1]
  · have h1 : l = 1 := by
      by_contra h1
      exact hn (.inl ⟨h, .inr (.inl ⟨h1, .inl rfl⟩)⟩)
    simp only [Quantity.generateHuber, key h1]
  · cases hg
  · cases hg
  · cases hg

theorem l1Force_forms {sm : Option String} (hl : 0 < l)
    (hr : RawScales (Quantity.generateL1Vec FieldProblem.fns.forceCyl "l1_force_cyl" false) Q l mu ((mu / l) ^ 2 * l ^ 2)) :
    FormsScale sm "f_l1_force_cyl" (Quantity.generateL1Vec FieldProblem.fns.forceCyl "l1_force_cyl" false) Q l mu ((mu / l) ^ 2 * l ^ 2) := by
  refine ⟨hr, fun h hn d U sp => ?_, fun h hn => (hn (.inl ⟨h, .inl rfl⟩)).elim⟩
  have h1 : mu = l := by
    by_contra h1
    exact hn (.inr ⟨h, .inr (.inl ⟨h1, .inl rfl⟩)⟩)
  have hF : FieldProblem.fns.forceCyl (Q.rescale l mu) (rescaleDofs mu d) = FieldProblem.fns.forceCyl Q d := by
    have := fns_force Q d l mu hl
    rw [h1, div_self hl.ne', one_pow] at this
    simp only [one_mul, List.map_id'] at this
    rw [h1]
    exact this
  have hi : ∀ v, Quantity.l1Integral (Q.rescale l mu) v = l ^ 2 * Quantity.l1Integral Q v := by
    intro v
    have := l1Integral_scale Q l mu hl v 1
    simpa using this
  simp only [Quantity.generateL1Vec, hF, hi]
  rw [h1, div_self hl.ne', one_pow, one_mul]
  exact map2_div_scale (.scalar _) U (by positivity)

theorem maxForce2_forms {sm : Option String} (hl : 0 < l)
    (hr : RawScales (Quantity.generateLinf (arr fun qp d => (FieldProblem.fns.forceCyl qp d).flatten) "max_force2_cyl" false true) Q l mu
      (((mu / l) ^ 2) ^ 2))
    (hF : ∀ d, (FieldProblem.fns.forceCyl (Q.rescale l mu) (rescaleDofs mu d)).flatten =
      (FieldProblem.fns.forceCyl Q d).flatten.map ((mu / l) ^ 2 * ·)) :
    FormsScale sm "f_max_force2_cyl" (Quantity.generateLinf (arr fun qp d => (FieldProblem.fns.forceCyl qp d).flatten) "max_force2_cyl" false
      true) Q l mu (((mu / l) ^ 2) ^ 2) := by
  have key : mu = l → _ := fun h1 => linf_same (Q := Q) (l := l) (mu := mu) (f := fun qp d => (FieldProblem.fns.forceCyl qp d).flatten)
    (aux := "max_force2_cyl") (pd := false) (square := true) (by decide) fun d => by
      rw [hF, h1, div_self hl.ne']
      simp
  refine ⟨hr, fun h hn => ?_, fun h hn => ?_⟩
  · have h1 : mu = l := by
      by_contra h1
      exact hn (.inr ⟨h, .inr (.inl ⟨h1, .inr rfl⟩)⟩)
    have := (key h1).1
    rwa [show ((mu / l) ^ 2) ^ 2 = 1 by rw [h1, div_self hl.ne', one_pow, one_pow]]
  · have h1 : mu = l := by
      by_contra h1
      exact hn (.inl ⟨h, .inr (.inr (.inl ⟨h1, rfl⟩))⟩)
    have := (key h1).2
    rwa [show ((mu / l) ^ 2) ^ 2 = 1 by rw [h1, div_self hl.ne', one_pow, one_pow]]

section Potential

variable {sm : Option String}
  (hPhi : ∀ d, FieldProblem.fns.Phi (Q.rescale l mu) (rescaleDofs mu d) = (FieldProblem.fns.Phi Q d).map (mu * ·))
include hPhi

theorem maxPhi2_forms (hr : RawScales (Quantity.generateLinf (arr FieldProblem.fns.Phi) "scaled_max_Phi_f_max_Phi2" false true) Q l mu (mu ^ 2)) :
    FormsScale sm "f_max_Phi2" (Quantity.generateLinf (arr FieldProblem.fns.Phi) "scaled_max_Phi_f_max_Phi2" false true) Q l mu (mu ^ 2) := by
  have key : mu = 1 → _ := fun h1 => linf_same (Q := Q) (l := l) (mu := mu) (f := FieldProblem.fns.Phi)
    (aux := "scaled_max_Phi_f_max_Phi2") (pd := false) (square := true) (by decide) fun d => by
      rw [hPhi, h1]
      simp
  refine ⟨hr, fun h hn => ?_, fun h hn => ?_⟩
  · have h1 : mu = 1 := by
      by_contra h1
      exact hn (.inr ⟨h, .inr (.inr ⟨h1, .inl rfl⟩)⟩)
    have := (key h1).1
    rwa [show mu ^ 2 = 1 by rw [h1, one_pow]]
  · have h1 : mu = 1 := by
      by_contra h1
      exact hn (.inl ⟨h, .inr (.inr (.inr ⟨h1, rfl⟩))⟩)
    have := (key h1).2
    rwa [show mu ^ 2 = 1 by rw [h1, one_pow]]

theorem maxPhi4_forms (hmu : 0 < mu) (hr : RawScales (Quantity.generateLinf4 (arr FieldProblem.fns.Phi) "scaled_max_Phi2_f_max_Phi4") Q l mu (mu ^ 4)) :
    FormsScale sm "f_max_Phi4" (Quantity.generateLinf4 (arr FieldProblem.fns.Phi) "scaled_max_Phi2_f_max_Phi4") Q l mu (mu ^ 4) := by
  refine ⟨hr, fun h hn d U sp => ?_, fun _ _ => linf4_slack_scales (by decide) hmu hPhi⟩
  have h1 : mu = 1 := by
    by_contra h1
    exact hn (.inr ⟨h, .inr (.inr ⟨h1, .inr (.inl rfl)⟩)⟩)
  have h2 := hPhi d
  rw [show mu ^ 4 = 1 by rw [h1, one_pow], val_map_one]
  simp only [Quantity.generateLinf4, arr, h2]
  rw [h1]
  simp

theorem l1Phi_forms (hl : 0 < l) (hr : RawScales (Quantity.generateL1 (arr FieldProblem.fns.Phi) "scaled_abs_Phi" false) Q l mu (mu * l ^ 2))
    (hmu : 0 < mu) :
    FormsScale sm "f_l1_Phi" (Quantity.generateL1 (arr FieldProblem.fns.Phi) "scaled_abs_Phi" false) Q l mu (mu * l ^ 2) := by
  have hi : ∀ v, Quantity.l1Integral (Q.rescale l mu) v = l ^ 2 * Quantity.l1Integral Q v := by
    intro v
    have := l1Integral_scale Q l mu hl v 1
    simpa using this
  refine ⟨hr, fun h hn d U sp => ?_, fun h hn => ?_⟩
  · have h1 : mu = 1 := by
      by_contra h1
      exact hn (.inr ⟨h, .inr (.inr ⟨h1, .inr (.inr rfl)⟩)⟩)
    have h2 : FieldProblem.fns.Phi (Q.rescale l mu) (rescaleDofs mu d) = FieldProblem.fns.Phi Q d := by
      rw [hPhi, h1]
      simp
    simp only [Quantity.generateL1, arr, h2, hi]
    rw [h1, one_mul]
    exact map2_div_scale (.scalar _) U (by positivity)
  · have h1 : l = 1 := by
      by_contra h1
      exact hn (.inl ⟨h, .inr (.inl ⟨h1, .inr rfl⟩)⟩)
    have e : mu * l ^ 2 = mu := by rw [h1, one_pow, mul_one]
    rw [e]
    refine ⟨fun d U => ?_, fun g hg => ?_, fun g hg => ?_, fun g hg => ?_⟩
    · simp only [Quantity.generateL1, hi, rescaleDofs_other (by decide : "scaled_abs_Phi" ≠ "phi")]
      rw [h1, one_pow, one_mul]
    · cases hg
      intro d U
      simp only [arr, hPhi, slackIneq_scale _ _ _ _ hmu.ne', rescaleDofs_other (by decide : "scaled_abs_Phi" ≠ "phi")]
    · cases hg
    · cases hg
      intro kv hkv d U
      rw [List.mem_singleton] at hkv
      subst hkv
      have e2 : Val.map (fun x => |x|) (.array ((FieldProblem.fns.Phi Q d).map (mu * ·))) =
          (Val.map (fun x => |x|) (.array (FieldProblem.fns.Phi Q d))).map (mu * ·) := by
        simp [Val.map, abs_mul, abs_of_pos hmu]
      simp only [arr, hPhi, Val.entries, e2, map2_div_scale _ _ hmu.ne']

end Potential

theorem shipped_call (nq : String × Quantity FieldProblem) (h : nq ∈ shipped FieldProblem.fns) (Q : FieldProblem) (d : Dofs) :
    nq.2.rawF Q d = nq.2.call Q d := by
  simp only [shipped, List.mem_cons, List.not_mem_nil, or_false] at h
  rcases h with rfl | rfl | rfl | rfl | rfl | rfl | rfl | rfl | rfl | rfl | rfl | rfl | rfl | rfl | rfl | rfl | rfl | rfl | rfl | rfl |
    rfl | rfl | rfl | rfl | rfl | rfl | rfl <;> rfl

theorem raw_scale (Q : FieldProblem) (l mu : ℝ) (hl : 0 < l) (hmu : 0 < mu) :
    List.Forall₂ (fun nq nf => nq.1 = nf.1 ∧ RawScales nq.2 Q l mu nf.2) (shipped FieldProblem.fns) (valueFactor l mu) := by
  have hv := fun d => List.forall₂_iff_get.1 (values_scale Q d l mu hl hmu)
  rw [List.forall₂_iff_get]
  refine ⟨(hv (phiOnly (.scalar 0))).1, fun i h1 h2 => ⟨((hv (phiOnly (.scalar 0))).2 i h1 h2).1, fun d => ?_⟩⟩
  rw [shipped_call _ (List.get_mem _ _), shipped_call _ (List.get_mem _ _)]
  exact ((hv d).2 i h1 h2).2

/-- The forms of all quantities in other units. -/
theorem forms_scale (Q : FieldProblem) (l mu : ℝ) (hl : 0 < l) (hmu : 0 < mu) (sm : Option String) :
    List.Forall₂ (fun nq nf => nq.1 = nf.1 ∧ FormsScale sm nq.1 nq.2 Q l mu nf.2) (shipped FieldProblem.fns) (valueFactor l mu) := by
  have raw := raw_scale Q l mu hl hmu
  unfold shipped valueFactor at raw
  simp only [List.forall₂_cons] at raw
  obtain ⟨r1, r2, r3, r4, r5, r6, r7, r8, r9, r10, r11, r12, r13, r14, r15, r16, r17, r18, r19, r20, r21, r22, r23, r24, r25, r26, r27, -⟩ := raw
  have hK2 : ∀ d, FieldProblem.fns.K2 (Q.rescale l mu) (rescaleDofs mu d) = (FieldProblem.fns.K2 Q d).map ((mu / l) ^ 2 * ·) :=
    fun d => Val.array.inj (r2.2 d)
  have hKK : ∀ d, FieldProblem.fns.KdotGradKCyl (Q.rescale l mu) (rescaleDofs mu d) =
      (FieldProblem.fns.KdotGradKCyl Q d).map ((mu / l) ^ 2 / l * ·) := fun d => Val.array.inj (r8.2 d)
  have hB : ∀ d, FieldProblem.fns.Bnormal (Q.rescale l mu) (rescaleDofs mu d) = (FieldProblem.fns.Bnormal Q d).map (mu / l * ·) :=
    fun d => Val.array.inj (r11.2 d)
  have hB2 : ∀ d, FieldProblem.fns.Bnormal2 (Q.rescale l mu) (rescaleDofs mu d) = (FieldProblem.fns.Bnormal2 Q d).map ((mu / l) ^ 2 * ·) :=
    fun d => Val.array.inj (r12.2 d)
  have hPhi : ∀ d, FieldProblem.fns.Phi (Q.rescale l mu) (rescaleDofs mu d) = (FieldProblem.fns.Phi Q d).map (mu * ·) :=
    fun d => Val.array.inj (r20.2 d)
  have hF : ∀ d, (FieldProblem.fns.forceCyl (Q.rescale l mu) (rescaleDofs mu d)).flatten =
      (FieldProblem.fns.forceCyl Q d).flatten.map ((mu / l) ^ 2 * ·) := by
    intro d
    have h := fns_force Q d l mu hl
    rw [← flatten_map_scale]
    exact congrArg List.flatten h
  unfold shipped valueFactor
  exact .cons ⟨rfl, formsScale_of r1.2 (c2_scales (by positivity) r1.2)⟩ <|
    .cons ⟨rfl, formsScale_of r2.2 (c2_scales (by positivity) r2.2)⟩ <|
    .cons ⟨rfl, formsScale_of r3.2 (linf_scales (by decide) (by positivity) hK2)⟩ <|
    .cons ⟨rfl, huber_forms hl hmu r4.2⟩ <|
    .cons ⟨rfl, formsScale_of r5.2 (c2_scales (by positivity) r5.2)⟩ <|
    .cons ⟨rfl, formsScale_of r6.2 (c2_scales (by positivity) r6.2)⟩ <|
    .cons ⟨rfl, formsScale_of r7.2 (c2_scales (by positivity) r7.2)⟩ <|
    .cons ⟨rfl, formsScale_of r8.2 (c2_scales (by positivity) r8.2)⟩ <|
    .cons ⟨rfl, formsScale_of r9.2 (linf_scales (by decide) (by positivity) hKK)⟩ <|
    .cons ⟨rfl, formsScale_of r10.2 (c2_scales (by positivity) r10.2)⟩ <|
    .cons ⟨rfl, formsScale_of r11.2 (c2_scales (by positivity) r11.2)⟩ <|
    .cons ⟨rfl, formsScale_of r12.2 (c2_scales (by positivity) r12.2)⟩ <|
    .cons ⟨rfl, formsScale_of r13.2 (c2_scales (by positivity) r13.2)⟩ <|
    .cons ⟨rfl, formsScale_of r14.2 (c2_scales (by positivity) r14.2)⟩ <|
    .cons ⟨rfl, formsScale_of r15.2 (linf_scales (by decide) (by positivity) hB)⟩ <|
    .cons ⟨rfl, formsScale_of r16.2 (linf_scales (by decide) (by positivity) hB2)⟩ <|
    .cons ⟨rfl, formsScale_of r17.2 (linf_scales (by decide) (by positivity) hF)⟩ <|
    .cons ⟨rfl, l1Force_forms hl r18.2⟩ <|
    .cons ⟨rfl, maxForce2_forms hl r19.2 hF⟩ <|
    .cons ⟨rfl, formsScale_of r20.2 (c2_scales (by positivity) r20.2)⟩ <|
    .cons ⟨rfl, formsScale_of r21.2 (c2_scales (by positivity) r21.2)⟩ <|
    .cons ⟨rfl, formsScale_of r22.2 (c2_scales (by positivity) r22.2)⟩ <|
    .cons ⟨rfl, formsScale_of r23.2 (linf_scales (by decide) (by positivity) hPhi)⟩ <|
    .cons ⟨rfl, maxPhi2_forms hPhi r24.2⟩ <|
    .cons ⟨rfl, maxPhi4_forms hPhi hmu r25.2⟩ <|
    .cons ⟨rfl, l1Phi_forms hPhi hl r26.2 hmu⟩ <|
    .cons ⟨rfl, formsScale_of r27.2 (c2_scales (by positivity) r27.2)⟩ .nil

end Verif
