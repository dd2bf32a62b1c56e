import Verif.Lemmas.ScalingFields
import Verif.Spec.CallRescale
import Verif.Props.Shipped
import Verif.Props.Field
import Mathlib.Tactic.IntervalCases

/-!
# C95: quantities divided by their DESC units do not depend on the size of the problem

`desc_unit` is meant to make a quantity dimensionless. Then its normalised value must not change if all lengths are multiplied by one
factor and all currents by another.
-/

namespace Verif

/-- The power of the length by which the unit of a quantity is wrong: the normalised value of the enlarged problem is
`l ^ unitExcess name` times that of the original problem. -/
def unitExcess (name : String) : ℤ :=
  if name = "K_theta" then 1
  else if name = "f_max_force_cyl" then -2
  else if name = "f_l1_force_cyl" then -2
  else if name = "f_max_force2_cyl" then -4
  else 0

theorem val_map_map (v : Val) (f g : ℝ → ℝ) : (v.map f).map g = v.map fun x => g (f x) := by
  cases v <;> simp [Val.map, Function.comp_def]

theorem foldr_max_scale (l : List ℝ) (x e : ℝ) (he : 0 ≤ e) :
    (l.map (e * ·)).foldr max (e * x) = e * l.foldr max x := by
  induction l with
  | nil => rfl
  | cons y l ih => simp only [List.map_cons, List.foldr_cons, ih, mul_max_of_nonneg _ _ he]

theorem jmax_scale (l : List ℝ) (e : ℝ) (he : 0 ≤ e) : jmax (l.map (e * ·)) = e * jmax l := by
  cases l with
  | nil => simp [jmax]
  | cons x l => exact foldr_max_scale l x e he

theorem coefs_rescale (mu : ℝ) (d : Dofs) : coefs (phiOnly (rescaleDofs mu d "phi")) = (coefs (phiOnly (d "phi"))).map (mu * ·) := by
  simp [coefs, phiOnly, rescaleDofs, Val.entries]

/-- The value of `q` is multiplied by `e` if lengths are multiplied by `l` and currents by `mu`. -/
def ScalesBy (q : Quantity FieldProblem) (Q : FieldProblem) (d : Dofs) (l mu e : ℝ) : Prop :=
  q.call (Q.rescale l mu) (rescaleDofs mu d) = (q.call Q d).map (e * ·)

variable (Q : FieldProblem) (d : Dofs) (l mu : ℝ)

theorem scales_c2 (f : FieldProblem → Dofs → List ℝ) (comp : List String) (e : ℝ)
    (h : f (Q.rescale l mu) (phiOnly (rescaleDofs mu d "phi")) = (f Q (phiOnly (d "phi"))).map (e * ·)) :
    ScalesBy (Quantity.generateC2 (arr f) comp) Q d l mu e := by
  simp only [ScalesBy, Quantity.call, Quantity.generateC2, arr, h, Val.map]

theorem scales_num (f : FieldProblem → Dofs → ℝ) (comp : List String) (e : ℝ)
    (h : f (Q.rescale l mu) (phiOnly (rescaleDofs mu d "phi")) = e * f Q (phiOnly (d "phi"))) :
    ScalesBy (Quantity.generateC2 (num f) comp) Q d l mu e := by
  simp only [ScalesBy, Quantity.call, Quantity.generateC2, num, h, Val.map]

theorem maxAbs_scale (v : List ℝ) (e : ℝ) (he : 0 ≤ e) :
    Quantity.maxAbs (.array (v.map (e * ·))) = e * Quantity.maxAbs (.array v) := by
  simp only [Quantity.maxAbs, Val.entries]
  rw [← jmax_scale _ _ he, List.map_map, List.map_map]
  congr 1
  refine List.map_congr_left fun x _ => ?_
  simp [abs_mul, abs_of_nonneg he]

theorem scales_linf (f : FieldProblem → Dofs → List ℝ) (aux : String) (pd : Bool) (e : ℝ) (he : 0 ≤ e)
    (h : f (Q.rescale l mu) (phiOnly (rescaleDofs mu d "phi")) = (f Q (phiOnly (d "phi"))).map (e * ·)) :
    ScalesBy (Quantity.generateLinf (arr f) aux pd false) Q d l mu e := by
  simp only [ScalesBy, Quantity.call, Quantity.generateLinf, arr, h, Val.map, maxAbs_scale _ _ he, Bool.false_eq_true, if_false]

theorem scales_linf_sq (f : FieldProblem → Dofs → List ℝ) (aux : String) (pd : Bool) (e : ℝ) (he : 0 ≤ e)
    (h : f (Q.rescale l mu) (phiOnly (rescaleDofs mu d "phi")) = (f Q (phiOnly (d "phi"))).map (e * ·)) :
    ScalesBy (Quantity.generateLinf (arr f) aux pd true) Q d l mu (e ^ 2) := by
  simp only [ScalesBy, Quantity.call, Quantity.generateLinf, arr, h, Val.map, maxAbs_scale _ _ he, if_true, mul_pow]

theorem scales_linf4 (f : FieldProblem → Dofs → List ℝ) (aux : String) (e : ℝ)
    (h : f (Q.rescale l mu) (phiOnly (rescaleDofs mu d "phi")) = (f Q (phiOnly (d "phi"))).map (e * ·)) :
    ScalesBy (Quantity.generateLinf4 (arr f) aux) Q d l mu (e ^ 4) := by
  simp only [ScalesBy, Quantity.call, Quantity.generateLinf4, arr, h, Val.map, Val.entries]
  rw [← jmax_scale _ _ (by positivity), List.map_map, List.map_map]
  congr 2
  refine List.map_congr_left fun x _ => ?_
  simp [mul_pow]

theorem l1Integral_scale (hl : 0 < l) (v : List ℝ) (e : ℝ) :
    Quantity.l1Integral (Q.rescale l mu) (v.map (e * ·)) = e * l ^ 2 * Quantity.l1Integral Q v := by
  simp only [Quantity.l1Integral, HasQp.da, HasQp.nfp]
  rw [Q.rescale_evalDa l mu hl, zipWith_mul_scale, show (Q.rescale l mu).cp.nfp = Q.cp.nfp from rfl]
  ring

theorem scales_l1 (hl : 0 < l) (f : FieldProblem → Dofs → List ℝ) (aux : String) (pd : Bool) (e : ℝ) (he : 0 ≤ e)
    (h : f (Q.rescale l mu) (phiOnly (rescaleDofs mu d "phi")) = (f Q (phiOnly (d "phi"))).map (e * ·)) :
    ScalesBy (Quantity.generateL1 (arr f) aux pd) Q d l mu (e * l ^ 2) := by
  simp only [ScalesBy, Quantity.call, Quantity.generateL1, arr, h, Val.map, Val.entries]
  rw [← l1Integral_scale Q l mu hl, List.map_map, List.map_map]
  congr 2
  refine List.map_congr_left fun x _ => ?_
  simp [abs_mul, abs_of_nonneg he]

theorem scales_l1Vec (hl : 0 < l) (f : FieldProblem → Dofs → List (List ℝ)) (aux : String) (pd : Bool) (e : ℝ) (he : 0 ≤ e)
    (h : f (Q.rescale l mu) (phiOnly (rescaleDofs mu d "phi")) = (f Q (phiOnly (d "phi"))).map fun v => v.map (e * ·)) :
    ScalesBy (Quantity.generateL1Vec f aux pd) Q d l mu (e * l ^ 2) := by
  simp only [ScalesBy, Quantity.call, Quantity.generateL1Vec, h, Val.map]
  rw [← l1Integral_scale Q l mu hl, List.map_map, List.map_map]
  congr 2
  refine List.map_congr_left fun v _ => ?_
  simp only [Function.comp_apply, List.map_map]
  refine sum_map_scale v _ _ e fun x _ => ?_
  simp [abs_mul, abs_of_nonneg he]

theorem scales_huber (hl : 0 < l) (f : FieldProblem → Dofs → List (List ℝ)) (e : ℝ) (he : 0 ≤ e)
    (h : f (Q.rescale l mu) (phiOnly (rescaleDofs mu d "phi")) = (f Q (phiOnly (d "phi"))).map fun v => v.map (e * ·)) :
    ScalesBy (Quantity.generateHuber f) Q d l mu (e * l ^ 2) := by
  simp only [ScalesBy, Quantity.call, Quantity.generateHuber, h, Val.map]
  rw [← l1Integral_scale Q l mu hl, List.map_map, List.map_map]
  congr 2
  refine List.map_congr_left fun v _ => ?_
  simp only [Function.comp_apply, Quantity.vecNorm, List.map_map]
  have : (v.map ((fun x => x ^ 2) ∘ fun x => e * x)).sum = e ^ 2 * (v.map fun x => x ^ 2).sum :=
    sum_map_scale v _ _ _ fun x _ => by simp [mul_pow]
  rw [this, Real.sqrt_mul (sq_nonneg e), Real.sqrt_sq he]

/-! ## The fields -/

theorem toList_smul (a : ℝ) (v : V3) : (a • v).toList = v.toList.map (a * ·) := rfl

theorem flatMap_toList_scale {β : Type} (L : List β) (f g : β → V3) (a : ℝ) (h : ∀ x, f x = a • g x) :
    (L.flatMap fun x => (f x).toList) = (L.flatMap fun x => (g x).toList).map (a * ·) := by
  rw [List.map_flatMap]
  congr 1
  funext x
  rw [h, toList_smul]

theorem map_scale {β : Type} (L : List β) (f g : β → ℝ) (a : ℝ) (h : ∀ x, f x = a * g x) : L.map f = (L.map g).map (a * ·) := by
  rw [List.map_map]
  exact List.map_congr_left fun x _ => h x

theorem flatten_map_scale (L : List (List ℝ)) (e : ℝ) : (L.map fun v => v.map (e * ·)).flatten = L.flatten.map (e * ·) := by
  rw [List.map_flatten]

theorem fns_K (hl : 0 < l) : FieldProblem.fns.K (Q.rescale l mu) (phiOnly (rescaleDofs mu d "phi")) =
    (FieldProblem.fns.K Q (phiOnly (d "phi"))).map fun v => v.map (mu / l * ·) := by
  simp only [FieldProblem.fns, coefs_rescale, List.map_map]
  refine List.map_congr_left fun q _ => ?_
  simp only [Function.comp_apply, ← toList_smul]
  exact congrArg V3.toList (CpParams.rescale_K Q.cp l mu hl _ _ _)

theorem fns_force (hl : 0 < l) : FieldProblem.fns.forceCyl (Q.rescale l mu) (phiOnly (rescaleDofs mu d "phi")) =
    (FieldProblem.fns.forceCyl Q (phiOnly (d "phi"))).map fun v => v.map ((mu / l) ^ 2 * ·) := by
  simp only [FieldProblem.fns, coefs_rescale, List.map_flatMap, List.map_map]
  rw [show (Q.rescale l mu).ePhis = Q.ePhis from rfl, show (Q.rescale l mu).eThetas = Q.eThetas from rfl]
  congr 1
  funext i
  refine List.map_congr_left fun j _ => ?_
  simp only [Function.comp_apply, ← toList_smul]
  exact congrArg V3.toList (FieldProblem.rescale_forceAt Q l mu hl _ _ _)

theorem fns_KdotGradKCyl (hl : 0 < l) : FieldProblem.fns.KdotGradKCyl (Q.rescale l mu) (phiOnly (rescaleDofs mu d "phi")) =
    (FieldProblem.fns.KdotGradKCyl Q (phiOnly (d "phi"))).map ((mu / l) ^ 2 / l * ·) := by
  simp only [FieldProblem.fns, coefs_rescale]
  refine flatMap_toList_scale _ _ _ _ fun q => ?_
  have hg : (Q.rescale l mu).cp.surf.gamma (Q.rescale l mu).cp.wdofs q.1 q.2 = l • Q.cp.surf.gamma Q.cp.wdofs q.1 q.2 := gamma_scale ..
  have hk := CpParams.rescale_KdotGradK Q.cp l mu hl (coefs (phiOnly (d "phi"))) q.1 q.2
  rw [hg, show (Q.rescale l mu).cp = Q.cp.rescale l mu from rfl, hk, projectCylindrical_scale l hl]

theorem fns_KdotGradK (hl : 0 < l) : FieldProblem.fns.KdotGradK (Q.rescale l mu) (phiOnly (rescaleDofs mu d "phi")) =
    (FieldProblem.fns.KdotGradK Q (phiOnly (d "phi"))).map ((mu / l) ^ 2 / l * ·) := by
  simp only [FieldProblem.fns, coefs_rescale]
  exact flatMap_toList_scale _ _ _ _ fun q => CpParams.rescale_KdotGradK Q.cp l mu hl _ _ _

theorem fns_windingB (hl : 0 < l) : FieldProblem.fns.windingB (Q.rescale l mu) (phiOnly (rescaleDofs mu d "phi")) =
    (FieldProblem.fns.windingB Q (phiOnly (d "phi"))).map (mu / l * ·) := by
  simp only [FieldProblem.fns, coefs_rescale]
  refine flatMap_toList_scale _ _ _ _ fun q => ?_
  have hg : (Q.rescale l mu).plasma.shape.gamma (Q.rescale l mu).plasma.dofs q.1 q.2 =
      l • Q.plasma.shape.gamma Q.plasma.dofs q.1 q.2 := gamma_scale ..
  rw [hg, Q.rescale_windingB l mu hl]

theorem fns_fPhi (hl : 0 < l) : FieldProblem.fns.fPhi (Q.rescale l mu) (phiOnly (rescaleDofs mu d "phi")) =
    mu ^ 2 * l ^ 2 * FieldProblem.fns.fPhi Q (phiOnly (d "phi")) := by
  simp only [FieldProblem.fns, coefs_rescale]
  have : ((Q.rescale l mu).evalGrid.map fun q =>
      (Q.rescale l mu).cp.Phi ((coefs (phiOnly (d "phi"))).map (mu * ·)) q.1 q.2 ^ 2 / 2) =
      (Q.evalGrid.map fun q => Q.cp.Phi (coefs (phiOnly (d "phi"))) q.1 q.2 ^ 2 / 2).map (mu ^ 2 * ·) := by
    refine map_scale _ _ _ _ fun q => ?_
    have := CpParams.rescale_Phi Q.cp l mu (coefs (phiOnly (d "phi"))) q.1 q.2
    rw [show (Q.rescale l mu).cp = Q.cp.rescale l mu from rfl, this]
    ring
  rw [this, Q.rescale_evalIntegrate l mu hl, show (Q.rescale l mu).cp.nfp = Q.cp.nfp from rfl]
  ring

theorem values_scale (hl : 0 < l) (hmu : 0 < mu) :
    List.Forall₂ (fun nq nf => nq.1 = nf.1 ∧ ScalesBy nq.2 Q d l mu nf.2) (shipped FieldProblem.fns) (valueFactor l mu) := by
  have e1 : 0 ≤ mu / l := by positivity
  have hK2 : FieldProblem.fns.K2 (Q.rescale l mu) (phiOnly (rescaleDofs mu d "phi")) =
      (FieldProblem.fns.K2 Q (phiOnly (d "phi"))).map ((mu / l) ^ 2 * ·) := by
    simp only [FieldProblem.fns, coefs_rescale]
    exact map_scale _ _ _ _ fun q => CpParams.rescale_K2 Q.cp l mu hl _ _ _
  have hB : FieldProblem.fns.Bnormal (Q.rescale l mu) (phiOnly (rescaleDofs mu d "phi")) =
      (FieldProblem.fns.Bnormal Q (phiOnly (d "phi"))).map (mu / l * ·) := by
    simp only [FieldProblem.fns, coefs_rescale]
    exact Q.rescale_bnormal l mu hl _
  have hB2 : FieldProblem.fns.Bnormal2 (Q.rescale l mu) (phiOnly (rescaleDofs mu d "phi")) =
      (FieldProblem.fns.Bnormal2 Q (phiOnly (d "phi"))).map ((mu / l) ^ 2 * ·) := by
    simp only [FieldProblem.fns, coefs_rescale]
    rw [Q.rescale_bnormal l mu hl, List.map_map, List.map_map]
    exact List.map_congr_left fun x _ => by simp [mul_pow]
  have hPhi : FieldProblem.fns.Phi (Q.rescale l mu) (phiOnly (rescaleDofs mu d "phi")) =
      (FieldProblem.fns.Phi Q (phiOnly (d "phi"))).map (mu * ·) := by
    simp only [FieldProblem.fns, coefs_rescale]
    exact map_scale _ _ _ _ fun q => CpParams.rescale_Phi Q.cp l mu _ _ _
  have hKf := fns_K Q d l mu hl
  have hF := fns_force Q d l mu hl
  have hFf : (FieldProblem.fns.forceCyl (Q.rescale l mu) (phiOnly (rescaleDofs mu d "phi"))).flatten =
      (FieldProblem.fns.forceCyl Q (phiOnly (d "phi"))).flatten.map ((mu / l) ^ 2 * ·) := by
    rw [hF, flatten_map_scale]
  unfold shipped valueFactor
  refine .cons ⟨rfl, scales_c2 Q d l mu _ _ _ (by rw [hKf, flatten_map_scale])⟩ <|
    .cons ⟨rfl, scales_c2 Q d l mu _ _ _ hK2⟩ <|
    .cons ⟨rfl, scales_linf Q d l mu _ _ _ _ (by positivity) hK2⟩ <|
    .cons ⟨rfl, scales_huber Q d l mu hl _ _ e1 hKf⟩ <|
    .cons ⟨rfl, scales_c2 Q d l mu _ _ _ ?_⟩ <|
    .cons ⟨rfl, scales_num Q d l mu _ _ _ ?_⟩ <|
    .cons ⟨rfl, scales_c2 Q d l mu _ _ _ (fns_KdotGradK Q d l mu hl)⟩ <|
    .cons ⟨rfl, scales_c2 Q d l mu _ _ _ (fns_KdotGradKCyl Q d l mu hl)⟩ <|
    .cons ⟨rfl, scales_linf Q d l mu _ _ _ _ (by positivity) (fns_KdotGradKCyl Q d l mu hl)⟩ <|
    .cons ⟨rfl, scales_c2 Q d l mu _ _ _ (fns_windingB Q d l mu hl)⟩ <|
    .cons ⟨rfl, scales_c2 Q d l mu _ _ _ hB⟩ <|
    .cons ⟨rfl, scales_c2 Q d l mu _ _ _ hB2⟩ <|
    .cons ⟨rfl, scales_num Q d l mu _ _ _ ?_⟩ <|
    .cons ⟨rfl, scales_num Q d l mu _ _ _ ?_⟩ <|
    .cons ⟨rfl, scales_linf Q d l mu _ _ _ _ e1 hB⟩ <|
    .cons ⟨rfl, scales_linf Q d l mu _ _ _ _ (by positivity) hB2⟩ <|
    .cons ⟨rfl, scales_linf Q d l mu _ _ _ _ (by positivity) hFf⟩ <|
    .cons ⟨rfl, scales_l1Vec Q d l mu hl _ _ _ _ (by positivity) hF⟩ <|
    .cons ⟨rfl, scales_linf_sq Q d l mu _ _ _ _ (by positivity) hFf⟩ <|
    .cons ⟨rfl, scales_c2 Q d l mu _ _ _ hPhi⟩ <|
    .cons ⟨rfl, scales_c2 Q d l mu _ _ _ ?_⟩ <|
    .cons ⟨rfl, scales_c2 Q d l mu _ _ _ ?_⟩ <|
    .cons ⟨rfl, scales_linf Q d l mu _ _ _ _ hmu.le hPhi⟩ <|
    .cons ⟨rfl, scales_linf_sq Q d l mu _ _ _ _ hmu.le hPhi⟩ <|
    .cons ⟨rfl, scales_linf4 Q d l mu _ _ _ hPhi⟩ <|
    .cons ⟨rfl, scales_l1 Q d l mu hl _ _ _ _ hmu.le hPhi⟩ <|
    .cons ⟨rfl, scales_num Q d l mu _ _ _ (fns_fPhi Q d l mu hl)⟩ .nil
  · simp only [FieldProblem.fns, coefs_rescale]
    exact map_scale _ _ _ _ fun q => CpParams.rescale_KTheta Q.cp l mu _ _ _
  · simp only [FieldProblem.fns, coefs_rescale]
    exact Q.rescale_fK l mu hl _
  · simp only [FieldProblem.fns, coefs_rescale]
    exact Q.rescale_fB l mu hl _
  · simp only [FieldProblem.fns, coefs_rescale, one_mul]
    exact Q.rescale_fBnormalized l mu hl hmu _
  · simp only [FieldProblem.fns, coefs_rescale]
    exact map_scale _ _ _ _ fun q => CpParams.rescale_PhiNet Q.cp l mu _ _ _
  · simp only [FieldProblem.fns, coefs_rescale]
    refine map_scale _ _ _ _ fun q => ?_
    have := CpParams.rescale_Phi Q.cp l mu (coefs (phiOnly (d "phi"))) q.1 q.2
    rw [show (Q.rescale l mu).cp = Q.cp.rescale l mu from rfl, this]
    ring

/-- The units themselves: unit of the enlarged problem, times the excess, is the value factor times the unit. -/
theorem units_scale (mu0 : ℝ) (s : Scales) (hl : 0 < l) :
    ∀ i (h1 : i < (descUnit mu0 (s.rescale l mu)).length) (h2 : i < (descUnit mu0 s).length) (h3 : i < (valueFactor l mu).length),
      ((descUnit mu0 (s.rescale l mu))[i]'h1).1 = ((descUnit mu0 s)[i]'h2).1 ∧
      ((valueFactor l mu)[i]'h3).1 = ((descUnit mu0 s)[i]'h2).1 ∧
      ((valueFactor l mu)[i]'h3).2 * ((descUnit mu0 s)[i]'h2).2 =
        l ^ unitExcess ((descUnit mu0 s)[i]'h2).1 * ((descUnit mu0 (s.rescale l mu))[i]'h1).2 := by
  intro i h1 h2 h3
  have h : i < 27 := h1
  have hl0 := hl.ne'
  interval_cases i <;> refine ⟨rfl, rfl, ?_⟩ <;>
    simp only [valueFactor, descUnit, unitExcess, List.getElem_cons_zero, List.getElem_cons_succ, kUnit, phiDescUnit, forceUnit,
      Scales.rescale] <;> simp <;> field_simp

theorem valueFactor_pos (hl : 0 < l) (hmu : 0 < mu) : ∀ nf ∈ valueFactor l mu, 0 < nf.2 := by
  intro nf h
  simp only [valueFactor, List.mem_cons, List.not_mem_nil, or_false] at h
  rcases h with rfl | rfl | rfl | rfl | rfl | rfl | rfl | rfl | rfl | rfl | rfl | rfl | rfl | rfl | rfl | rfl | rfl | rfl | rfl | rfl |
    rfl | rfl | rfl | rfl | rfl | rfl | rfl <;> positivity

theorem descUnit_nodup (mu0 : ℝ) (s : Scales) : ((descUnit mu0 s).map Prod.fst).Nodup := by
  simp [descUnit]

/-- **C95 (law).** If all lengths are multiplied by `l` and all currents by `mu`, the normalised value of every quantity is multiplied by
`l ^ unitExcess name`. -/
theorem C95_law_partial (mu0 : ℝ) (s : Scales) (hl : 0 < l) (hmu : 0 < mu) (name : String) (q : Quantity FieldProblem) (U U' : ℝ)
    (hq : (name, q) ∈ shipped FieldProblem.fns) (hU : (name, U) ∈ descUnit mu0 s)
    (hU' : (name, U') ∈ descUnit mu0 (s.rescale l mu)) :
    (q.call (Q.rescale l mu) (rescaleDofs mu d)).map (· / U') = (q.call Q d).map fun x => l ^ unitExcess name * (x / U) := by
  have hV := values_scale Q d l mu hl hmu
  obtain ⟨i, hi, hqi⟩ := List.mem_iff_getElem.1 hq
  obtain ⟨j, hj, hUj⟩ := List.mem_iff_getElem.1 hU
  obtain ⟨k, hk, hUk⟩ := List.mem_iff_getElem.1 hU'
  have hlen : (shipped FieldProblem.fns).length = 27 := rfl
  have hvi : i < (valueFactor l mu).length := hi
  have hdi : i < (descUnit mu0 s).length := hi
  have hdi' : i < (descUnit mu0 (s.rescale l mu)).length := hi
  obtain ⟨hn, hs⟩ := hV.get hi hvi
  simp only [List.get_eq_getElem, hqi] at hn hs
  obtain ⟨u1, u2, u3⟩ := units_scale l mu mu0 s hl i hdi' hdi hvi
  have hname : ((descUnit mu0 s)[i]'hdi).1 = name := by rw [← u2, ← hn]
  have hname' : ((descUnit mu0 (s.rescale l mu))[i]'hdi').1 = name := by rw [u1, hname]
  have hij : i = j := by
    refine (descUnit_nodup mu0 s).getElem_inj_iff (hi := by simpa using hdi) (hj := by simpa using hj) |>.1 ?_
    simp only [List.getElem_map, hname, hUj]
  have hik : i = k := by
    refine (descUnit_nodup mu0 (s.rescale l mu)).getElem_inj_iff (hi := by simpa using hdi') (hj := by simpa using hk) |>.1 ?_
    simp only [List.getElem_map, hname', hUk]
  subst hij hik
  rw [hUj, hUk] at u3
  have hf := valueFactor_pos l mu hl hmu _ (List.getElem_mem hvi)
  rw [hs, val_map_map]
  congr 1
  funext x
  simp only at u3
  have hz : l ^ unitExcess name ≠ 0 := zpow_ne_zero _ hl.ne'
  generalize ((valueFactor l mu)[i]'hvi).2 = v at u3 hf
  have hU'' : U' = v * U / l ^ unitExcess name := by
    rw [eq_div_iff hz, u3, mul_comm]
  rw [hU'', div_div_eq_mul_div, mul_assoc, mul_div_mul_left _ _ hf.ne']
  ring

/-- **C95.** Of the 27 quantities all but four have a unit that makes the normalised value independent of the size of the problem. -/
theorem C95_units_partial (mu0 : ℝ) (s : Scales) (hl : 0 < l) (hmu : 0 < mu) (name : String) (q : Quantity FieldProblem) (U U' : ℝ)
    (hq : (name, q) ∈ shipped FieldProblem.fns) (hU : (name, U) ∈ descUnit mu0 s)
    (hU' : (name, U') ∈ descUnit mu0 (s.rescale l mu))
    (hname : name ≠ "K_theta" ∧ name ≠ "f_max_force_cyl" ∧ name ≠ "f_l1_force_cyl" ∧ name ≠ "f_max_force2_cyl") :
    (q.call (Q.rescale l mu) (rescaleDofs mu d)).map (· / U') = (q.call Q d).map (· / U) := by
  rw [C95_law_partial Q d l mu mu0 s hl hmu name q U U' hq hU hU']
  simp [unitExcess, hname.1, hname.2.1, hname.2.2.1, hname.2.2.2]

/-- The hypotheses of C95 hold, for instance, for `f_B` and the torus problem, with a torus three times as large. -/
example : ∃ q U U', ("f_B", q) ∈ shipped FieldProblem.fns ∧ ("f_B", U) ∈ descUnit 1 ⟨1, 2, 1⟩ ∧
    ("f_B", U') ∈ descUnit 1 ((⟨1, 2, 1⟩ : Scales).rescale 3 1) ∧ 0 < U ∧ 0 < U' ∧
    (torusProblem.rescale 3 1).cp.wdofs = [6, 3, 3] := by
  refine ⟨Quantity.generateC2 (num FieldProblem.fns.fB) ["f", "<="], 2, 2, ?_, ?_, ?_, ?_, ?_, ?_⟩
  · simp [shipped]
  · simp [descUnit]
  · norm_num [descUnit, Scales.rescale]
  · norm_num
  · norm_num
  · simp only [FieldProblem.rescale, CpParams.rescale, torusProblem, circularTorus, List.map_cons, List.map_nil]
    norm_num

/-- The quantity `K_theta` of the package. -/
noncomputable def kThetaQuantity : Quantity FieldProblem := Quantity.generateC2 (arr FieldProblem.fns.KTheta) ["<=", ">="]

/-- **C95 fails (K_theta).** The value is a current per radian of the angle, but the unit is that of a current density. On the circular
torus with poloidal current 5 the normalised value doubles if the torus is made twice as large. -/
theorem C95_K_theta_violated_partial :
    ∃ q U U', ("K_theta", q) ∈ shipped FieldProblem.fns ∧ ("K_theta", U) ∈ descUnit 1 ⟨1, 2, 1⟩ ∧
      ("K_theta", U') ∈ descUnit 1 ((⟨1, 2, 1⟩ : Scales).rescale 2 1) ∧
      (q.call torusProblem (phiOnly (.array [0]))).map (· / U) = .array [5, 5, 5, 5] ∧
      (q.call (torusProblem.rescale 2 1) (rescaleDofs 1 (phiOnly (.array [0])))).map (· / U') = .array [10, 10, 10, 10] := by
  have hU : ("K_theta", kUnit 1 ⟨1, 2, 1⟩) ∈ descUnit 1 ⟨1, 2, 1⟩ := by simp [descUnit]
  have hU' : ("K_theta", kUnit 1 ((⟨1, 2, 1⟩ : Scales).rescale 2 1)) ∈ descUnit 1 ((⟨1, 2, 1⟩ : Scales).rescale 2 1) := by
    simp [descUnit]
  have hq : ("K_theta", kThetaQuantity) ∈ shipped FieldProblem.fns := by simp [shipped, kThetaQuantity]
  have happ : ∀ row : List ℝ, CpParams.app row [0] = 0 := by
    intro row
    cases row with
    | nil => simp [CpParams.app]
    | cons a row => simp [CpParams.app]
  have hval : (kThetaQuantity.call torusProblem (phiOnly (.array [0]))) = .array [5, 5, 5, 5] := by
    simp [kThetaQuantity, Quantity.call, Quantity.generateC2, arr, FieldProblem.fns, FieldProblem.evalGrid, gridPoints, torusProblem,
      linspace0, List.range_succ, coefs, phiOnly, Val.entries, CpParams.KTheta, okOr0, happ, circularTorus]
  refine ⟨_, _, _, hq, hU, hU', ?_, ?_⟩
  · rw [hval]
    simp [Val.map, kUnit]
  · rw [C95_law_partial torusProblem (phiOnly (.array [0])) 2 1 1 ⟨1, 2, 1⟩ (by norm_num) (by norm_num) "K_theta" _ _ _ hq hU hU', hval]
    simp [Val.map, kUnit, unitExcess]
    norm_num

/-- **C95 fails (force).** The values are forces per area but the units are forces: wherever the largest force does not vanish, the
normalised value of the enlarged problem differs from that of the original one. -/
theorem C95_force_violated_partial (mu0 : ℝ) (s : Scales) (hl : 1 < l) (hmu : 0 < mu) (name : String) (q : Quantity FieldProblem)
    (U U' : ℝ) (hq : (name, q) ∈ shipped FieldProblem.fns) (hU : (name, U) ∈ descUnit mu0 s)
    (hU' : (name, U') ∈ descUnit mu0 (s.rescale l mu))
    (hname : name = "f_max_force_cyl" ∨ name = "f_l1_force_cyl" ∨ name = "f_max_force2_cyl") (v : ℝ) (hv : q.call Q d = .scalar v)
    (hne : v / U ≠ 0) :
    (q.call (Q.rescale l mu) (rescaleDofs mu d)).map (· / U') ≠ (q.call Q d).map (· / U) := by
  rw [C95_law_partial Q d l mu mu0 s (by linarith) hmu name q U U' hq hU hU', hv]
  simp only [Val.map, ne_eq, Val.scalar.injEq]
  have hlt : l ^ unitExcess name < 1 := by
    refine zpow_lt_one_of_neg₀ hl ?_
    rcases hname with rfl | rfl | rfl <;> simp [unitExcess]
  intro h
  exact hlt.ne (mul_right_cancel₀ hne (h.trans (one_mul _).symm))

end Verif
