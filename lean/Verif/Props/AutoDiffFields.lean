import Verif.Props.AutoDiff
import Verif.Props.CallReturned
import Verif.Props.Exact
import Verif.Props.Reversal
import Verif.Props.Current

/-!
# C177: gradients of norms
-/

namespace Verif

/-! ## Sums -/

theorem Ex.sum_real (l : List Ex) (x : ℝ) : (Ex.sum l).real x = (l.map fun e => e.real x).sum := by
  induction l with
  | nil => rfl
  | cons e l ih => simp [Ex.sum, Ex.real, ih]

theorem Ex.sum_regular {L : ℝ} {l : List Ex} {x : ℝ} (h : ∀ e ∈ l, e.Regular L x) : (Ex.sum l).Regular L x := by
  induction l with
  | nil => trivial
  | cons e l ih => exact ⟨h e (by simp), ih fun e he => h e (by simp [he])⟩

theorem Ex.sum_bwd_nan {L : ℝ} {l : List Ex} {x ct : XR} {e : Ex} (he : e ∈ l) (h : e.bwd L x ct = .nan) : (Ex.sum l).bwd L x ct = .nan := by
  induction l with
  | nil => cases he
  | cons a l ih =>
    rcases List.mem_cons.1 he with rfl | he
    · simp only [Ex.sum, Ex.bwd, h, XR.nan_add]
    · simp only [Ex.sum, Ex.bwd, ih he, XR.add_nan]

theorem Ex.sum_eval_zero {L : ℝ} {l : List Ex} {x : XR} (h : ∀ e ∈ l, e.eval L x = .fin 0) : (Ex.sum l).eval L x = .fin 0 := by
  induction l with
  | nil => rfl
  | cons e l ih => simp [Ex.sum, Ex.eval, h e (by simp), ih fun e he => h e (by simp [he]), XR.add]

theorem affineEx_regular (L : ℝ) (ab : ℝ × ℝ) (x : ℝ) : (affineEx ab).Regular L x := ⟨trivial, trivial, trivial⟩

theorem affineEx_real (ab : ℝ × ℝ) (x : ℝ) : (affineEx ab).real x = ab.1 + ab.2 * x := rfl

theorem affineEx_eval (L : ℝ) (ab : ℝ × ℝ) (x : ℝ) : (affineEx ab).eval L (.fin x) = .fin (ab.1 + ab.2 * x) := by
  simp [affineEx, Ex.eval, XR.mul, XR.add]

theorem affineEx_bwd_nan (L : ℝ) (ab : ℝ × ℝ) (x : ℝ) : (affineEx ab).bwd L (.fin x) .nan = .nan := by
  simp [affineEx, Ex.bwd, Ex.eval, XR.mul_nan, XR.add_nan]

/-- The square of an entry that vanishes, below a root that vanishes. -/
theorem square_bwd_nan {L : ℝ} {ab : ℝ × ℝ} {x : ℝ} (h : ab.1 + ab.2 * x = 0) {ct : XR} (hct : ct = .nan ∨ ct = .pinf ∨ ct = .ninf) :
    (Ex.mul (affineEx ab) (affineEx ab)).bwd L (.fin x) ct = .nan := by
  have : XR.mul ct (.fin 0) = .nan := by
    rcases hct with rfl | rfl | rfl <;> simp [XR.mul, XR.signed, XR.neg]
  rw [Ex.bwd, affineEx_eval, h, this, affineEx_bwd_nan, XR.nan_add]

/-- The norm of a vector that vanishes has the gradient NaN, whatever it is multiplied by. -/
theorem normEx_bwd_nan {L : ℝ} {v : List (ℝ × ℝ)} {x : ℝ} (hv : v ≠ []) (h : ∀ ab ∈ v, ab.1 + ab.2 * x = 0) (ct : ℝ) :
    (normEx v).bwd L (.fin x) (.fin ct) = .nan := by
  have h0 : (Ex.sum (v.map fun ab => .mul (affineEx ab) (affineEx ab))).eval L (.fin x) = .fin 0 := by
    refine Ex.sum_eval_zero fun e he => ?_
    obtain ⟨ab, hab, rfl⟩ := List.mem_map.1 he
    simp [Ex.eval, affineEx_eval, h ab hab, XR.mul]
  obtain ⟨ab, hab⟩ := List.exists_mem_of_ne_nil v hv
  rw [normEx, Ex.bwd, h0, XR.sqrt_fin le_rfl, Real.sqrt_zero]
  refine Ex.sum_bwd_nan (List.mem_map.2 ⟨ab, hab, rfl⟩) (square_bwd_nan (h ab hab) ?_)
  have : XR.div (.fin (1 / 2)) (.fin 0) = .pinf := by simp [XR.div, XR.signed]
  rw [this]
  simp only [XR.mul, XR.signed]
  split
  · exact .inl rfl
  · split
    · exact .inr (.inl rfl)
    · exact .inr (.inr rfl)

theorem normEx_real (v : List (ℝ × ℝ)) (x : ℝ) : (normEx v).real x = Quantity.vecNorm (v.map fun ab => ab.1 + ab.2 * x) := by
  rw [normEx, Ex.real, Ex.sum_real, Quantity.vecNorm, List.map_map, List.map_map]
  congr 2
  exact List.map_congr_left fun ab _ => by simp [Ex.real, affineEx_real, sq]

theorem normEx_regular {L : ℝ} {v : List (ℝ × ℝ)} {x : ℝ} (h : ∃ ab ∈ v, ab.1 + ab.2 * x ≠ 0) : (normEx v).Regular L x := by
  refine ⟨Ex.sum_regular fun e he => ?_, ?_⟩
  · obtain ⟨ab, -, rfl⟩ := List.mem_map.1 he
    exact ⟨affineEx_regular _ _ _, affineEx_regular _ _ _⟩
  · obtain ⟨ab, hab, hne⟩ := h
    rw [Ex.sum_real]
    refine lt_of_lt_of_le (sq_pos_of_ne_zero hne) ?_
    refine List.single_le_sum (fun t ht => ?_) _ ?_
    · simp only [List.map_map, List.mem_map] at ht
      obtain ⟨ab', -, rfl⟩ := ht
      simp only [Function.comp_apply, Ex.real, affineEx_real]
      exact mul_self_nonneg _
    · simp only [List.map_map, List.mem_map]
      exact ⟨ab, hab, by simp [Ex.real, affineEx_real, sq]⟩

/-! ## The Huber loss without smoothing -/

theorem huberEx_real (nfp : ℝ) (pts : List (ℝ × List (ℝ × ℝ))) (x : ℝ) : (huberEx nfp pts).real x =
    (pts.map fun p => p.1 * Quantity.vecNorm (p.2.map fun ab => ab.1 + ab.2 * x)).sum * nfp := by
  rw [huberEx, Ex.real, Ex.sum_real, List.map_map]
  congr 2
  exact List.map_congr_left fun p _ => by simp [Ex.real, normEx_real]

/-- The unknown: a point `t` on the line through two potentials. -/
def onLine (c e : List ℝ) (t : ℝ) : List ℝ := List.zipWith (fun x y => (1 - t) * x + t * y) c e

/-- Area element and current at the points of the evaluation grid, as functions on this line. -/
noncomputable def huberPoints (Q : FieldProblem) (c e : List ℝ) : List (ℝ × List (ℝ × ℝ)) :=
  Q.evalGrid.map fun q => (gridStep Q.ePhis * gridStep Q.eThetas * (Q.cp.surf.normal Q.cp.wdofs q.1 q.2).norm,
    [((Q.cp.K c q.1 q.2).x, (Q.cp.K e q.1 q.2).x - (Q.cp.K c q.1 q.2).x),
      ((Q.cp.K c q.1 q.2).y, (Q.cp.K e q.1 q.2).y - (Q.cp.K c q.1 q.2).y),
      ((Q.cp.K c q.1 q.2).z, (Q.cp.K e q.1 q.2).z - (Q.cp.K c q.1 q.2).z)])

theorem K_onLine (P : CpParams) {c e : List ℝ} (h : c.length = e.length) (t phi theta : ℝ) :
    P.K (onLine c e t) phi theta = (1 - t) • P.K c phi theta + t • P.K e phi theta := by
  have := P.K_linear c e h (1 - t) t P.G P.G P.I P.I phi theta
  rwa [show (1 - t) * P.G + t * P.G = P.G by ring, show (1 - t) * P.I + t * P.I = P.I by ring] at this

/-- The expression is the raw value of `f_huber_K` along the line. -/
theorem huberPoints_real (Q : FieldProblem) {c e : List ℝ} (h : c.length = e.length) (t : ℝ) :
    (Quantity.generateHuber FieldProblem.fns.K).rawF Q (phiOnly (.array (onLine c e t))) =
      .scalar ((huberEx Q.cp.nfp (huberPoints Q c e)).real t) := by
  rw [huberEx_real]
  simp only [Quantity.generateHuber, Quantity.l1Integral, FieldProblem.fns, coefs_phiOnly, huberPoints, HasQp.da, HasQp.nfp, GridSurface.da,
    FieldProblem.evalSurface, FieldProblem.evalGrid, List.map_map]
  congr 2
  generalize gridPoints Q.ePhis Q.eThetas = l
  induction l with
  | nil => rfl
  | cons q l ih =>
    simp only [List.map_cons, List.zipWith_cons_cons, List.sum_cons, ih, Function.comp_apply]
    congr 3
    rw [K_onLine Q.cp h]
    simp only [V3.toList, List.map_cons, List.map_nil, V3.add_x, V3.add_y, V3.add_z, V3.smul_x, V3.smul_y, V3.smul_z]
    congr 1
    · ring
    · congr 1
      · ring
      · congr 1
        ring

/-- **C177 (`f_huber_K` without smoothing).** Where the current vanishes at no grid point, the gradient is the derivative. -/
theorem C177_huber_partial (L : ℝ) (Q : FieldProblem) {c e : List ℝ} (h : c.length = e.length)
    (hK : ∀ q ∈ Q.evalGrid, Q.cp.K c q.1 q.2 ≠ 0) :
    ∃ D, HasDerivAt (fun t => ((Quantity.generateHuber FieldProblem.fns.K).rawF Q (phiOnly (.array (onLine c e t)))).entries.headD 0) D 0 ∧
      (huberEx Q.cp.nfp (huberPoints Q c e)).grad L 0 = .fin D := by
  have hreg : (huberEx Q.cp.nfp (huberPoints Q c e)).Regular L 0 := by
    refine ⟨Ex.sum_regular fun x hx => ?_, trivial⟩
    obtain ⟨p, hp, rfl⟩ := List.mem_map.1 hx
    obtain ⟨q, hq, rfl⟩ := List.mem_map.1 hp
    refine ⟨trivial, normEx_regular ?_⟩
    by_contra hcon
    push Not at hcon
    simp only [List.mem_cons, List.not_mem_nil, or_false, forall_eq_or_imp, forall_eq, mul_zero, add_zero] at hcon
    exact hK q hq (V3.ext hcon.1 hcon.2.1 hcon.2.2)
  obtain ⟨-, D, h2, h3⟩ := C177_regular_partial L _ 0 hreg
  refine ⟨D, ?_, by rw [Ex.grad, h3, one_mul]⟩
  simp only [fun t => huberPoints_real Q h t, Val.entries, List.headD_cons]
  exact h2

/-- On the circular torus with `c = 0` the current does not vanish, as in `Current.lean`. -/
theorem circularTorus_K_ne : circularTorus.K [0] 0 0 ≠ 0 := by
  intro h
  rw [CpParams.K_eq, circularTorus_dg1, circularTorus_dg2] at h
  have hz := congrArg V3.z h
  have hn := (V3.norm_pos_iff _).2 circularTorus_N_ne
  have h0 : CpParams.app (circularTorus.opPhi 0 0) [0] = 0 := by
    rw [CpParams.opPhi_eq]
    have : circularTorus.rows = [(1, 0, 1)] := rfl
    simp [this, CpParams.app]
  have hG : circularTorus.G = 5 := rfl
  simp [h0, hG, CpParams.invN, hn.ne', Real.pi_ne_zero] at hz

/-- At one point of the torus, the potential being zero. -/
example (L : ℝ) (e : List ℝ) (he : e.length = 1) :
    ∃ D, (huberEx circularTorus.nfp (huberPoints { torusProblem with cp := circularTorus, ePhis := [0], eThetas := [0] } [0] e)).grad L 0 =
      .fin D := by
  obtain ⟨D, -, h⟩ := C177_huber_partial L { torusProblem with cp := circularTorus, ePhis := [0], eThetas := [0] } (c := [0]) (e := e)
    (by simp [he]) (fun q hq => by
      simp only [FieldProblem.evalGrid, gridPoints, List.flatMap_cons, List.flatMap_nil, List.map_cons, List.map_nil, List.append_nil,
        List.mem_singleton] at hq
      subst hq
      exact circularTorus_K_ne)
  exact ⟨D, h⟩

/-- **C177, false of `f_huber_K` without smoothing.** If the current vanishes at one point of the evaluation grid, the gradient is NaN. -/
theorem C177_huber_violated_partial (L : ℝ) (Q : FieldProblem) (c e : List ℝ) {q : ℝ × ℝ} (hq : q ∈ Q.evalGrid)
    (hK : Q.cp.K c q.1 q.2 = 0) : (huberEx Q.cp.nfp (huberPoints Q c e)).grad L 0 = .nan := by
  simp only [Ex.grad, huberEx, Ex.bwd, Ex.eval, XR.mul]
  rw [huberPoints, Ex.sum_bwd_nan (List.mem_map.2 ⟨_, List.mem_map.2 ⟨q, hq, rfl⟩, rfl⟩), XR.nan_add]
  simp only [Ex.bwd, Ex.eval, XR.mul]
  rw [normEx_bwd_nan (by simp) (by simp [hK]), XR.add_nan]

/-- In particular at the default start, zero, of a problem without net currents, such as one for magnets. -/
theorem C177_start_violated_partial (L : ℝ) (Q : FieldProblem) (hG : Q.cp.G = 0) (hI : Q.cp.I = 0) (hE : Q.evalGrid ≠ []) (e : List ℝ) :
    (huberEx Q.cp.nfp (huberPoints Q (List.replicate (HasQp.ndofs Q) 0) e)).grad L 0 = .nan := by
  obtain ⟨q, hq⟩ := List.exists_mem_of_ne_nil _ hE
  refine C177_huber_violated_partial L Q _ e hq ?_
  rw [CpParams.K, appV_zeros, CpParams.cK, hG, hI]
  ext <;> simp

/-- A device without currents. -/
example (L : ℝ) (e : List ℝ) :
    (huberEx plasmaOnly.cp.nfp (huberPoints plasmaOnly (List.replicate (HasQp.ndofs plasmaOnly) 0) e)).grad L 0 = .nan :=
  C177_start_violated_partial L plasmaOnly rfl rfl (by simp [FieldProblem.evalGrid, plasmaOnly, gridPoints]) e

/-! ## The distance in the force -/

/-- **C177 (`_force_cyl`).** The weight of the point itself is 0 and its gradient is 0, and those of the other points are the true
ones: the small number below the root keeps the masked entry regular. -/
theorem C177_force_partial (L da : ℝ) (m : Bool) (diff : List (ℝ × ℝ)) (x : ℝ)
    (h : m = false → ∃ ab ∈ diff, ab.1 + ab.2 * x ≠ 0) :
    ∃ D, HasDerivAt (singleKernelEx m da (diff.map affineEx)).real D x ∧ (singleKernelEx m da (diff.map affineEx)).grad L x = .fin D ∧
      (singleKernelEx m da (diff.map affineEx)).eval L (.fin x) =
        .fin (if m then 0 else da / Quantity.vecNorm (diff.map fun ab => ab.1 + ab.2 * x)) ∧ (m = true → D = 0) := by
  have hsum : (Ex.sum ((diff.map affineEx).map fun d => .mul d d)).real x = (diff.map fun ab => (ab.1 + ab.2 * x) ^ 2).sum := by
    rw [Ex.sum_real, List.map_map, List.map_map]
    congr 1
    exact List.map_congr_left fun ab _ => by simp [Ex.real, affineEx_real, sq]
  have hpos : 0 < (diff.map fun ab => (ab.1 + ab.2 * x) ^ 2).sum + if m then (1 / 10 ^ 10 : ℝ) else 0 := by
    have h0 : 0 ≤ (diff.map fun ab => (ab.1 + ab.2 * x) ^ 2).sum :=
      List.sum_nonneg fun t ht => by
        obtain ⟨ab, -, rfl⟩ := List.mem_map.1 ht
        positivity
    cases m
    · obtain ⟨ab, hab, hne⟩ := h rfl
      have : (ab.1 + ab.2 * x) ^ 2 ≤ (diff.map fun ab => (ab.1 + ab.2 * x) ^ 2).sum :=
        List.single_le_sum (fun t ht => by
          obtain ⟨ab, -, rfl⟩ := List.mem_map.1 ht
          positivity) _ (List.mem_map.2 ⟨ab, hab, rfl⟩)
      have := sq_pos_of_ne_zero hne
      simp only [Bool.false_eq_true, if_false, add_zero]
      linarith
    · simp only [if_true]
      positivity
  have hdist : (distEx m (diff.map affineEx)).Regular L x := by
    refine ⟨⟨Ex.sum_regular fun e he => ?_, trivial⟩, ?_⟩
    · simp only [List.map_map, List.mem_map] at he
      obtain ⟨ab, -, rfl⟩ := he
      exact ⟨affineEx_regular _ _ _, affineEx_regular _ _ _⟩
    · simp only [Ex.real, hsum]
      exact hpos
  have hreg : (singleKernelEx m da (diff.map affineEx)).Regular L x := by
    refine ⟨trivial, trivial, hdist, ?_⟩
    simp only [distEx, Ex.real, hsum]
    exact (Real.sqrt_pos.2 hpos).ne'
  obtain ⟨h1, D, h2, h3⟩ := C177_regular_partial L _ x hreg
  refine ⟨D, h2, by rw [Ex.grad, h3, one_mul], ?_, ?_⟩
  · rw [h1]
    cases m
    · simp only [singleKernelEx, distEx, Ex.real, hsum, Bool.false_eq_true, if_false, add_zero]
      rw [Quantity.vecNorm, List.map_map]
      rfl
    · simp [singleKernelEx, Ex.real]
  · rintro rfl
    have : (singleKernelEx true da (diff.map affineEx)).real = fun _ => 0 := by
      funext t
      simp [singleKernelEx, Ex.real]
    rw [this] at h2
    exact h2.unique (hasDerivAt_const x 0)

/-- Two points at the distance `(3, 4)`, and the point itself. -/
example (L da : ℝ) : (∃ D, (singleKernelEx false da ([(3, 1), (4, 0)].map affineEx)).grad L 0 = .fin D) ∧
    (singleKernelEx true da ([(0, 0), (0, 0)].map affineEx)).grad L 0 = .fin 0 := by
  obtain ⟨D, -, h, -⟩ := C177_force_partial L da false [(3, 1), (4, 0)] 0 (fun _ => ⟨(3, 1), by simp, by norm_num⟩)
  obtain ⟨D', -, h', -, h0⟩ := C177_force_partial L da true [(0, 0), (0, 0)] 0 (by simp)
  exact ⟨⟨D, h⟩, by rw [h', h0 rfl]⟩

/-- The earlier routine: the gradient of the weight of the point itself is NaN. -/
theorem C177_legacy_violated_partial (L x : ℝ) (diff : List (ℝ × ℝ)) (hd : diff ≠ []) (h : ∀ ab ∈ diff, ab.1 + ab.2 * x = 0) :
    (legacyKernelEx (diff.map affineEx)).eval L (.fin x) = .fin 0 ∧ (legacyKernelEx (diff.map affineEx)).grad L x = .nan := by
  have h0 : (Ex.sum ((diff.map affineEx).map fun d => .mul d d)).eval L (.fin x) = .fin 0 := by
    refine Ex.sum_eval_zero fun e he => ?_
    simp only [List.map_map, List.mem_map] at he
    obtain ⟨ab, hab, rfl⟩ := he
    simp [Ex.eval, affineEx_eval, h ab hab, XR.mul]
  obtain ⟨ab, hab⟩ := List.exists_mem_of_ne_nil diff hd
  have hn : (Ex.sum ((diff.map affineEx).map fun d => .mul d d)).bwd L (.fin x) .nan = .nan :=
    Ex.sum_bwd_nan (e := .mul (affineEx ab) (affineEx ab)) (by simp only [List.map_map, List.mem_map]; exact ⟨ab, hab, rfl⟩)
      (square_bwd_nan (h ab hab) (.inl rfl))
  unfold legacyKernelEx
  generalize Ex.sum ((diff.map affineEx).map fun d => .mul d d) = S at h0 hn ⊢
  have hs : (S.eval L (.fin x)).sqrt = .fin 0 := by rw [h0, XR.sqrt_fin le_rfl, Real.sqrt_zero]
  have hi : (XR.fin 1).div (.fin 0) = .pinf := by simp [XR.div, XR.signed]
  have hi2 : (XR.fin (1 / 2)).div (.fin 0) = .pinf := by simp [XR.div, XR.signed]
  constructor
  · simp [Ex.eval, hs]
  · have hc : (Ex.sqrt S).eval L (.fin x) = (Ex.const 0).eval L (.fin x) ∧ (Ex.sqrt S).eval L (.fin x) ≠ .nan := by
      simp only [Ex.eval, hs]
      simp
    have hm : (((XR.fin 0).neg.mul (.fin 1)).mul ((XR.fin 1).div ((XR.fin 0).mul (.fin 0)))).mul ((XR.fin (1 / 2)).div (.fin 0)) = .nan := by
      simp only [XR.neg, XR.mul, mul_zero, hi, neg_zero, zero_mul]
      simp [XR.signed]
    rw [Ex.grad, Ex.bwd, if_pos hc, if_pos hc, Ex.bwd, Ex.bwd]
    have hb : (Ex.sqrt S).eval L (.fin x) = .fin 0 := hs
    rw [hb, Ex.bwd.eq_9, hs, Ex.eval, hm, hn, XR.add_nan, XR.nan_add]

example (L : ℝ) : (legacyKernelEx ([(0, 0), (0, 0), (0, 0)].map affineEx)).grad L 0 = .nan :=
  (C177_legacy_violated_partial L 0 [(0, 0), (0, 0), (0, 0)] (by simp) (by simp)).2

end Verif
