import Verif.Spec.SheetCurrent
import Verif.Props.BiotSavart
import Verif.Props.WellPosed
import Verif.Props.Shipped
import Verif.Props.Call

/-!
# C167: the quantities of a problem are those of its current sheet, point by point
-/

namespace Verif

/-! ## Arrays on a grid -/

theorem gridPoints_getElem? {phis thetas : List ℝ} {i j : ℕ} (hi : i < phis.length) (hj : j < thetas.length) :
    (gridPoints phis thetas)[i * thetas.length + j]? = some (phis[i], thetas[j]) := by
  induction phis generalizing i with
  | nil => simp at hi
  | cons p phis ih =>
    have e : gridPoints (p :: phis) thetas = (thetas.map fun t => (p, t)) ++ gridPoints phis thetas := by simp [gridPoints]
    rw [e]
    cases i with
    | zero =>
      rw [List.getElem?_append_left (by simpa using hj)]
      simp [hj]
    | succ i =>
      rw [List.getElem?_append_right (by simp; nlinarith)]
      have : (i + 1) * thetas.length + j - (thetas.map fun t => (p, t)).length = i * thetas.length + j := by
        simp only [List.length_map]
        have : (i + 1) * thetas.length = i * thetas.length + thetas.length := by ring
        omega
      rw [this, ih (by simpa using hi)]
      simp

theorem flatMap_getElem? {α : Type} {k : ℕ} (l : List α) (f : α → List ℝ) (hf : ∀ a, (f a).length = k) {n m : ℕ} (hm : m < k) :
    (l.flatMap f)[n * k + m]? = l[n]?.bind fun a => (f a)[m]? := by
  induction l generalizing n with
  | nil => simp
  | cons a l ih =>
    rw [List.flatMap_cons]
    cases n with
    | zero =>
      rw [List.getElem?_append_left (by rw [hf]; omega)]
      simp
    | succ n =>
      have e : (n + 1) * k + m = n * k + m + k := by ring
      rw [List.getElem?_append_right (by rw [hf, e]; omega), hf, e, Nat.add_sub_cancel, ih]
      simp

/-- A vector field computed point by point. -/
theorem gridValues_vector (phis thetas : List ℝ) (f : ℝ → ℝ → V3) :
    GridValues phis thetas 3 ((gridPoints phis thetas).flatMap fun q => (f q.1 q.2).toList) fun p t => (f p t).comp := by
  refine ⟨?_, fun i j m => ?_⟩
  · simp [List.length_flatMap, V3.toList, gridPoints_length]
  · rw [flatMap_getElem? _ _ (fun q => by simp [V3.toList]) m.2, gridPoints_getElem? i.2 j.2]
    match m with
    | 0 => rfl
    | 1 => rfl
    | 2 => rfl

/-- A scalar field computed point by point. -/
theorem gridValues_scalar (phis thetas : List ℝ) (f : ℝ → ℝ → ℝ) :
    GridValues phis thetas 1 ((gridPoints phis thetas).map fun q => f q.1 q.2) fun p t _ => f p t := by
  refine ⟨by simp [gridPoints_length], fun i j m => ?_⟩
  have : (m : ℕ) = 0 := by omega
  rw [this, mul_one, add_zero, List.getElem?_map, gridPoints_getElem? i.2 j.2]
  rfl

/-! ## The current sheet of a problem -/

theorem tangentPhi_gamma (S : SurfaceShape) (dofs : List ℝ) : tangentPhi (S.gamma dofs) = S.gammadash dofs 1 0 := by
  funext p t
  have h := C38_gammadash_phi S dofs 0 0 p t
  ext
  · exact h.1.deriv
  · exact h.2.1.deriv
  · exact h.2.2.deriv

theorem tangentTheta_gamma (S : SurfaceShape) (dofs : List ℝ) : tangentTheta (S.gamma dofs) = S.gammadash dofs 0 1 := by
  funext p t
  have h := C38_gammadash_theta S dofs 0 0 p t
  ext
  · exact h.1.deriv
  · exact h.2.1.deriv
  · exact h.2.2.deriv

theorem areaVector_gamma (S : SurfaceShape) (dofs : List ℝ) : areaVector (S.gamma dofs) = S.normal dofs := by
  funext p t
  rw [areaVector, tangentPhi_gamma, tangentTheta_gamma, SurfaceShape.normal]

/-- The stream function of a problem: the Fourier series with the given coefficients, and the net currents. -/
noncomputable def FieldProblem.stream (Q : FieldProblem) (c : List ℝ) (p t : ℝ) : ℝ :=
  potentialSeries Q.cp.stellsym Q.cp.surf.nfp (modePairs (makeMn Q.cp.mpol Q.cp.ntor true)) c p t + p * Q.cp.G + t * Q.cp.I

theorem Phi_series (P : CpParams) {c : List ℝ} (hc : c.length = (cpNdofs P.stellsym P.mpol P.ntor).1) (p t : ℝ) :
    P.Phi c p t = potentialSeries P.stellsym P.surf.nfp (modePairs (makeMn P.mpol P.ntor true)) c p t := by
  cases h : P.stellsym with
  | true =>
    rw [C40_potential_stellsym P h, potentialSeries, if_pos rfl]
  | false =>
    have hn := C36_ndofs_eq_table_length P.mpol P.ntor
    rw [h] at hc
    have hl : (modePairs (makeMn P.mpol P.ntor true)).length < c.length := by
      rw [modePairs, List.length_zip, hn.1, hn.2.1, hc, hn.2.2.2.2.2]
      omega
    have e : c = c.take (modePairs (makeMn P.mpol P.ntor true)).length ++ c.getD (modePairs (makeMn P.mpol P.ntor true)).length 0 ::
        c.drop ((modePairs (makeMn P.mpol P.ntor true)).length + 1) := by
      rw [List.getD_eq_getElem _ _ hl, ← List.drop_eq_getElem_cons hl, List.take_append_drop]
    conv_lhs => rw [e]
    rw [C40_potential_general P h _ _ _ (by simp [hl.le]), potentialSeries]
    simp

variable (Q : FieldProblem) (others : List String)

theorem stream_eq {c : List ℝ} (hc : c.length = (cpNdofs Q.cp.stellsym Q.cp.mpol Q.cp.ntor).1) : Q.stream c = Q.cp.PhiNet c := by
  funext p t
  rw [FieldProblem.stream, ← Phi_series Q.cp hc, CpParams.PhiNet]

/-- There is only one current with the given stream function, the one of the program. -/
theorem sheetCurrent_eq {c : List ℝ} (hc : c.length = (cpNdofs Q.cp.stellsym Q.cp.mpol Q.cp.ntor).1) {K : ℝ → ℝ → V3}
    (hK : IsSheetCurrent (Q.cp.surf.gamma Q.cp.wdofs) (Q.stream c) K) : K = Q.cp.K c := by
  funext p t
  obtain ⟨g, hg, h⟩ := hK p t
  rw [stream_eq Q hc, tangentPhi_gamma, tangentTheta_gamma] at hg
  rw [h, C41_current_is_normal_cross_gradient Q.cp c p t g hg, areaVector_gamma]
  rfl

/-- **C167 (existence).** A regular winding surface has a current with the stream function of the problem. -/
theorem C167_sheet_current {c : List ℝ} (hc : c.length = (cpNdofs Q.cp.stellsym Q.cp.mpol Q.cp.ntor).1)
    (hreg : ∀ p t, areaVector (Q.cp.surf.gamma Q.cp.wdofs) p t ≠ 0) :
    IsSheetCurrent (Q.cp.surf.gamma Q.cp.wdofs) (Q.stream c) (Q.cp.K c) := by
  intro p t
  rw [stream_eq Q hc, tangentPhi_gamma, tangentTheta_gamma, areaVector_gamma]
  have hN : Q.cp.N p t ≠ 0 := by
    have := hreg p t
    rwa [areaVector_gamma] at this
  exact ⟨_, C41_gradient_exists Q.cp c p t hN, C41_current_is_normal_cross_gradient Q.cp c p t _ (C41_gradient_exists Q.cp c p t hN)⟩

/-- The values of a quantity that takes only the potential. -/
theorem raw_entries {name : String} {q : Quantity FieldProblem} (h : (shipped FieldProblem.fns).lookup name = some q) (d : Dofs) :
    rawOf (shippedRegistry FieldProblem.fns others) name Q d = q.rawF Q d := by simp [rawOf, shippedRegistry, h]

/-- **C167 (current).** The arrays reported for the current and the potential contain the current, its squared length and the potential at
the points of the grid, in the order of the grid. -/
theorem C167_current_values {c : List ℝ} (hc : c.length = (cpNdofs Q.cp.stellsym Q.cp.mpol Q.cp.ntor).1) {K : ℝ → ℝ → V3}
    (hK : IsSheetCurrent (Q.cp.surf.gamma Q.cp.wdofs) (Q.stream c) K) {d : Dofs} (hd : d "phi" = .array c) :
    GridValues Q.ePhis Q.eThetas 3 (rawOf (shippedRegistry FieldProblem.fns others) "K" Q d).entries (fun p t => (K p t).comp) ∧
    GridValues Q.ePhis Q.eThetas 1 (rawOf (shippedRegistry FieldProblem.fns others) "K2" Q d).entries (fun p t _ => (K p t).normSq) ∧
    GridValues Q.ePhis Q.eThetas 1 (rawOf (shippedRegistry FieldProblem.fns others) "Phi" Q d).entries
      (fun p t _ => Q.stream c p t - p * Q.cp.G - t * Q.cp.I) ∧
    GridValues Q.ePhis Q.eThetas 1 (rawOf (shippedRegistry FieldProblem.fns others) "Phi_with_net_current" Q d).entries
      (fun p t _ => Q.stream c p t) ∧
    GridValues Q.ePhis Q.eThetas 1 (rawOf (shippedRegistry FieldProblem.fns others) "Phi2" Q d).entries
      (fun p t _ => (Q.stream c p t - p * Q.cp.G - t * Q.cp.I) ^ 2) := by
  have hcd : coefs d = c := by simp [coefs, hd, Val.entries]
  have hPhi : ∀ p t, Q.stream c p t - p * Q.cp.G - t * Q.cp.I = Q.cp.Phi c p t := fun p t => by
    rw [stream_eq Q hc, CpParams.PhiNet]
    ring
  rw [sheetCurrent_eq Q hc hK]
  simp only [hPhi]
  simp only [stream_eq Q hc]
  refine ⟨?_, ?_, ?_, ?_, ?_⟩
  · rw [raw_entries Q others (name := "K") rfl]
    have e : (FieldProblem.fns.K Q d).flatten = (gridPoints Q.ePhis Q.eThetas).flatMap fun q => (Q.cp.K c q.1 q.2).toList := by
      rw [← hcd]
      simp [FieldProblem.fns, FieldProblem.evalGrid, List.flatMap_def]
    have := gridValues_vector Q.ePhis Q.eThetas (Q.cp.K c)
    rw [← e] at this
    exact this
  · rw [raw_entries Q others (name := "K2") rfl]
    have := gridValues_scalar Q.ePhis Q.eThetas (Q.cp.K2 c)
    rw [← hcd] at this ⊢
    exact this
  · rw [raw_entries Q others (name := "Phi") rfl]
    have := gridValues_scalar Q.ePhis Q.eThetas (Q.cp.Phi c)
    rw [← hcd] at this ⊢
    exact this
  · rw [raw_entries Q others (name := "Phi_with_net_current") rfl]
    have := gridValues_scalar Q.ePhis Q.eThetas (Q.cp.PhiNet c)
    rw [← hcd] at this ⊢
    exact this
  · rw [raw_entries Q others (name := "Phi2") rfl]
    have := gridValues_scalar Q.ePhis Q.eThetas (fun p t => Q.cp.Phi c p t ^ 2)
    rw [← hcd] at this ⊢
    exact this

/-- **C167 (derivative of the current).** The array reported for `K_dot_grad_K` contains the rate of change of the current along itself. -/
theorem C167_convective {c : List ℝ} (hc : c.length = (cpNdofs Q.cp.stellsym Q.cp.mpol Q.cp.ntor).1) {K D : ℝ → ℝ → V3}
    (hreg : ∀ p t, areaVector (Q.cp.surf.gamma Q.cp.wdofs) p t ≠ 0)
    (hK : IsSheetCurrent (Q.cp.surf.gamma Q.cp.wdofs) (Q.stream c) K) (hD : IsConvective (Q.cp.surf.gamma Q.cp.wdofs) K D)
    {d : Dofs} (hd : d "phi" = .array c) :
    GridValues Q.ePhis Q.eThetas 3 (rawOf (shippedRegistry FieldProblem.fns others) "K_dot_grad_K" Q d).entries (fun p t => (D p t).comp) := by
  have hcd : coefs d = c := by simp [coefs, hd, Val.entries]
  have e : D = Q.cp.KdotGradK c := by
    funext p t
    obtain ⟨a, b, a', b', rfl, rfl, ha, hb, hv, h⟩ := hD p t
    have hN : Q.cp.N (a 0) (b 0) ≠ 0 := by
      have := hreg (a 0) (b 0)
      rwa [areaVector_gamma] at this
    rw [sheetCurrent_eq Q hc hK] at hv h
    have h2 := C43_K_dot_grad_K Q.cp c a b a' b' 0 hN ha hb hv
    ext
    · exact h.1.unique h2.1
    · exact h.2.1.unique h2.2.1
    · exact h.2.2.unique h2.2.2
  rw [raw_entries Q others (name := "K_dot_grad_K") rfl, e]
  have := gridValues_vector Q.ePhis Q.eThetas (Q.cp.KdotGradK c)
  rw [← hcd] at this ⊢
  exact this

/-- The rate of change of the current along itself exists. -/
theorem C167_convective_exists {c : List ℝ} (hreg : ∀ p t, areaVector (Q.cp.surf.gamma Q.cp.wdofs) p t ≠ 0) :
    IsConvective (Q.cp.surf.gamma Q.cp.wdofs) (Q.cp.K c) (Q.cp.KdotGradK c) := by
  intro p t
  obtain ⟨a, b, a', b', rfl, rfl, ha, hb, hv⟩ := C43_curve_exists Q.cp c p t
  have hN : Q.cp.N (a 0) (b 0) ≠ 0 := by
    have := hreg (a 0) (b 0)
    rwa [areaVector_gamma] at this
  exact ⟨a, b, a', b', rfl, rfl, ha, hb, hv, C43_K_dot_grad_K Q.cp c a b a' b' 0 hN ha hb hv⟩

/-- **C167 (poloidal component).** With stellarator symmetry the array reported for `K_theta` contains the toroidal derivative of the
potential with net currents. -/
theorem C167_K_theta {c : List ℝ} (hc : c.length = (cpNdofs Q.cp.stellsym Q.cp.mpol Q.cp.ntor).1) (hs : Q.cp.stellsym = true)
    {d : Dofs} (hd : d "phi" = .array c) :
    GridValues Q.ePhis Q.eThetas 1 (rawOf (shippedRegistry FieldProblem.fns others) "K_theta" Q d).entries
      (fun p t _ => deriv (fun s => Q.stream c s t) p) := by
  have hcd : coefs d = c := by simp [coefs, hd, Val.entries]
  rw [raw_entries Q others (name := "K_theta") rfl]
  have := gridValues_scalar Q.ePhis Q.eThetas (fun p t => okOr0 (Q.cp.KTheta c p t))
  have e : (fun p t (_ : Fin 1) => deriv (fun s => Q.stream c s t) p) = fun p t _ => okOr0 (Q.cp.KTheta c p t) := by
    funext p t _
    obtain ⟨v, h1, h2⟩ := C44_K_theta Q.cp hs c p t
    rw [stream_eq Q hc, h1, h2.deriv]
    rfl
  rw [e]
  rw [← hcd] at this ⊢
  exact this

/-- **C167 (integrals).** The integrals over the winding surface are the sums over the grid of the values there times the area which belongs
to a grid point, for all field periods. -/
theorem C167_surface_integrals {c : List ℝ} (hc : c.length = (cpNdofs Q.cp.stellsym Q.cp.mpol Q.cp.ntor).1) {K : ℝ → ℝ → V3}
    (hK : IsSheetCurrent (Q.cp.surf.gamma Q.cp.wdofs) (Q.stream c) K) {p0 p1 t0 t1 : ℝ} (hp0 : Q.ePhis[0]? = some p0)
    (hp1 : Q.ePhis[1]? = some p1) (ht0 : Q.eThetas[0]? = some t0) (ht1 : Q.eThetas[1]? = some t1) {d : Dofs} (hd : d "phi" = .array c) :
    let area := fun p t => (p1 - p0) * (t1 - t0) * (areaVector (Q.cp.surf.gamma Q.cp.wdofs) p t).norm
    let total := fun f : ℝ → ℝ → ℝ => Q.cp.nfp * (Q.ePhis.map fun p => (Q.eThetas.map fun t => area p t * f p t).sum).sum
    rawOf (shippedRegistry FieldProblem.fns others) "f_K" Q d = .scalar (total fun p t => (K p t).normSq / 2) ∧
    rawOf (shippedRegistry FieldProblem.fns others) "f_Phi" Q d =
      .scalar (total fun p t => (Q.stream c p t - p * Q.cp.G - t * Q.cp.I) ^ 2 / 2) ∧
    rawOf (shippedRegistry FieldProblem.fns others) "f_huber_K" Q d = .scalar (total fun p t => (K p t).norm) ∧
    rawOf (shippedRegistry FieldProblem.fns others) "f_l1_Phi" Q d =
      .scalar (total fun p t => |Q.stream c p t - p * Q.cp.G - t * Q.cp.I|) := by
  intro area total
  have hcd : coefs d = c := by simp [coefs, hd, Val.entries]
  have hPhi : ∀ p t, Q.stream c p t - p * Q.cp.G - t * Q.cp.I = Q.cp.Phi c p t := fun p t => by
    rw [stream_eq Q hc, CpParams.PhiNet]
    ring
  have hstep : ∀ {l : List ℝ} {a b : ℝ}, l[0]? = some a → l[1]? = some b → gridStep l = b - a := by
    intro l a b h0 h1
    simp [gridStep, h0, h1]
  have key : ∀ f : ℝ → ℝ → ℝ, Q.evalSurface.integrate ((gridPoints Q.ePhis Q.eThetas).map fun q => f q.1 q.2) * Q.cp.nfp = total f := by
    intro f
    simp only [GridSurface.integrate, GridSurface.da, FieldProblem.evalSurface, List.zipWith_map, List.zipWith_self]
    rw [gridPoints_sum, mul_comm, hstep hp0 hp1, hstep ht0 ht1]
    simp only [total, area, areaVector_gamma, mul_comm]
  have key' : ∀ f : ℝ → ℝ → ℝ, Quantity.l1Integral Q ((gridPoints Q.ePhis Q.eThetas).map fun q => f q.1 q.2) = total f := by
    intro f
    rw [← key f]
    show (List.zipWith (· * ·) Q.evalSurface.da _).sum * _ = _
    rw [List.zipWith_comm_of_comm (fun x y => mul_comm x y)]
    rfl
  rw [sheetCurrent_eq Q hc hK]
  simp only [hPhi]
  refine ⟨?_, ?_, ?_, ?_⟩
  · rw [raw_entries Q others (name := "f_K") rfl, ← key, ← hcd]
    rfl
  · rw [raw_entries Q others (name := "f_Phi") rfl, ← key, ← hcd]
    rfl
  · rw [raw_entries Q others (name := "f_huber_K") rfl, ← key']
    show Val.scalar (Quantity.l1Integral Q ((FieldProblem.fns.K Q d).map Quantity.vecNorm)) = _
    congr 2
    rw [← hcd]
    simp only [FieldProblem.fns, FieldProblem.evalGrid, List.map_map]
    refine List.map_congr_left fun q _ => ?_
    simp [Quantity.vecNorm, V3.toList, V3.norm, V3.normSq, add_assoc]
  · rw [raw_entries Q others (name := "f_l1_Phi") rfl, ← key', ← hcd]
    show Val.scalar (Quantity.l1Integral Q ((Val.array (FieldProblem.fns.Phi Q d)).entries.map fun x => |x|)) = _
    simp only [FieldProblem.fns, FieldProblem.evalGrid, Val.entries, List.map_map, Function.comp_def]

/-- The field at `y` of the current `K` on the surface `x`, summed over the points of a grid with the area that belongs to each. -/
noncomputable def sheetField (x K : ℝ → ℝ → V3) (phis thetas : List ℝ) (y : V3) : V3 :=
  vsum ((gridPoints phis thetas).map fun q => ((areaVector x q.1 q.2).norm * (1 / phis.length) * (1 / thetas.length)) •
    biotSavart y (x q.1 q.2) (K q.1 q.2))

/-- **C167 (field).** The arrays reported for the field on the plasma surface contain the field of the current sheet at the points of the
plasma grid, and its component along the outward normal with the field of the plasma added. -/
theorem C167_field_values {c : List ℝ} (hc : c.length = (cpNdofs Q.cp.stellsym Q.cp.mpol Q.cp.ntor).1) {K : ℝ → ℝ → V3}
    (hK : IsSheetCurrent (Q.cp.surf.gamma Q.cp.wdofs) (Q.stream c) K)
    (hb : Q.bPlasma.length = Q.plasma.phis.length * Q.plasma.thetas.length) {d : Dofs} (hd : d "phi" = .array c) :
    let x := Q.plasma.shape.gamma Q.plasma.dofs
    let B := fun p t => sheetField (Q.cp.surf.gamma Q.cp.wdofs) K Q.wPhis Q.wThetas (x p t)
    let normal := fun p t => (1 / (areaVector x p t).norm) • areaVector x p t
    GridValues Q.plasma.phis Q.plasma.thetas 3 (rawOf (shippedRegistry FieldProblem.fns others) "winding_surface_B" Q d).entries
      (fun p t => (B p t).comp) ∧
    (rawOf (shippedRegistry FieldProblem.fns others) "Bnormal" Q d).entries.length = Q.plasma.phis.length * Q.plasma.thetas.length ∧
    (∀ (i : Fin Q.plasma.phis.length) (j : Fin Q.plasma.thetas.length) (b : ℝ), Q.bPlasma[i * Q.plasma.thetas.length + j]? = some b →
      (rawOf (shippedRegistry FieldProblem.fns others) "Bnormal" Q d).entries[i * Q.plasma.thetas.length + j]? =
        some (V3.dot (normal Q.plasma.phis[i] Q.plasma.thetas[j]) (B Q.plasma.phis[i] Q.plasma.thetas[j]) + b) ∧
      (rawOf (shippedRegistry FieldProblem.fns others) "Bnormal2" Q d).entries[i * Q.plasma.thetas.length + j]? =
        some ((V3.dot (normal Q.plasma.phis[i] Q.plasma.thetas[j]) (B Q.plasma.phis[i] Q.plasma.thetas[j]) + b) ^ 2)) := by
  intro x B normal
  have hcd : coefs d = c := by simp [coefs, hd, Val.entries]
  have hB : ∀ y, sheetField (Q.cp.surf.gamma Q.cp.wdofs) K Q.wPhis Q.wThetas y = Q.windingB c y := by
    intro y
    rw [C109_biot_savart_sum, sheetField, sheetCurrent_eq Q hc hK, areaVector_gamma]
    rfl
  have hbn : ∀ (i : Fin Q.plasma.phis.length) (j : Fin Q.plasma.thetas.length) (b : ℝ), Q.bPlasma[i * Q.plasma.thetas.length + j]? = some b →
      (Q.bnormal c)[i * Q.plasma.thetas.length + j]? =
        some (V3.dot (normal Q.plasma.phis[i] Q.plasma.thetas[j]) (B Q.plasma.phis[i] Q.plasma.thetas[j]) + b) := by
    intro i j b hbi
    have hz : ((gridPoints Q.plasma.phis Q.plasma.thetas).zip Q.bPlasma)[i * Q.plasma.thetas.length + j]? =
        some ((Q.plasma.phis[i], Q.plasma.thetas[j]), b) := List.getElem?_zip_eq_some.2 ⟨gridPoints_getElem? i.2 j.2, hbi⟩
    rw [FieldProblem.bnormal, List.getElem?_map, hz]
    simp only [Option.map_some, FieldProblem.bnWinding, B, normal, x, hB, areaVector_gamma]
    rfl
  refine ⟨?_, ?_, fun i j b hbi => ⟨?_, ?_⟩⟩
  · rw [raw_entries Q others (name := "winding_surface_B") rfl]
    have := gridValues_vector Q.plasma.phis Q.plasma.thetas (fun p t => Q.windingB c (Q.plasma.shape.gamma Q.plasma.dofs p t))
    simp only [B, x, hB]
    rw [← hcd] at this ⊢
    exact this
  · rw [raw_entries Q others (name := "Bnormal") rfl]
    show (Q.bnormal (coefs d)).length = _
    simp [FieldProblem.bnormal, gridPoints_length, hb]
  · rw [raw_entries Q others (name := "Bnormal") rfl, ← hbn i j b hbi, ← hcd]
    rfl
  · rw [raw_entries Q others (name := "Bnormal2") rfl]
    have := hbn i j b hbi
    show ((Q.bnormal (coefs d)).map fun b => b ^ 2)[_]? = _
    rw [hcd, List.getElem?_map, this]
    rfl

/-- **C167 (largest values).** The quantities with `max` in their name are the largest absolute values of these arrays, or the square or
fourth power of it. -/
theorem C167_largest (d : Dofs) {m : ℝ} :
    (IsMaxAbs m (rawOf (shippedRegistry FieldProblem.fns others) "K2" Q d).entries →
      rawOf (shippedRegistry FieldProblem.fns others) "f_max_K2" Q d = .scalar m) ∧
    (IsMaxAbs m (rawOf (shippedRegistry FieldProblem.fns others) "K_dot_grad_K_cyl" Q d).entries →
      rawOf (shippedRegistry FieldProblem.fns others) "f_max_K_dot_grad_K_cyl" Q d = .scalar m) ∧
    (IsMaxAbs m (rawOf (shippedRegistry FieldProblem.fns others) "Bnormal" Q d).entries →
      rawOf (shippedRegistry FieldProblem.fns others) "f_max_Bnormal" Q d = .scalar m) ∧
    (IsMaxAbs m (rawOf (shippedRegistry FieldProblem.fns others) "Bnormal2" Q d).entries →
      rawOf (shippedRegistry FieldProblem.fns others) "f_max_Bnormal2" Q d = .scalar m) ∧
    (IsMaxAbs m (rawOf (shippedRegistry FieldProblem.fns others) "Phi" Q d).entries →
      rawOf (shippedRegistry FieldProblem.fns others) "f_max_Phi" Q d = .scalar m ∧
      rawOf (shippedRegistry FieldProblem.fns others) "f_max_Phi2" Q d = .scalar (m ^ 2) ∧
      rawOf (shippedRegistry FieldProblem.fns others) "f_max_Phi4" Q d = .scalar (m ^ 4)) := by
  refine ⟨fun h => ?_, fun h => ?_, fun h => ?_, fun h => ?_, fun h => ⟨?_, ?_, ?_⟩⟩
  · rw [raw_entries Q others (name := "K2") rfl] at h
    rw [raw_entries Q others (name := "f_max_K2") rfl]
    exact congrArg Val.scalar (maxAbs_eq h)
  · rw [raw_entries Q others (name := "K_dot_grad_K_cyl") rfl] at h
    rw [raw_entries Q others (name := "f_max_K_dot_grad_K_cyl") rfl]
    exact congrArg Val.scalar (maxAbs_eq h)
  · rw [raw_entries Q others (name := "Bnormal") rfl] at h
    rw [raw_entries Q others (name := "f_max_Bnormal") rfl]
    exact congrArg Val.scalar (maxAbs_eq h)
  · rw [raw_entries Q others (name := "Bnormal2") rfl] at h
    rw [raw_entries Q others (name := "f_max_Bnormal2") rfl]
    exact congrArg Val.scalar (maxAbs_eq h)
  · rw [raw_entries Q others (name := "Phi") rfl] at h
    rw [raw_entries Q others (name := "f_max_Phi") rfl]
    exact congrArg Val.scalar (maxAbs_eq h)
  · rw [raw_entries Q others (name := "Phi") rfl] at h
    rw [raw_entries Q others (name := "f_max_Phi2") rfl]
    exact congrArg (fun x => Val.scalar (x ^ 2)) (maxAbs_eq h)
  · rw [raw_entries Q others (name := "Phi") rfl] at h
    rw [raw_entries Q others (name := "f_max_Phi4") rfl]
    exact congrArg Val.scalar (jmax_pow h 4 (by decide))

/-- **C167 (field error).** The field error is half the sum of the squared normal field times the area that belongs to a point of the plasma
grid, for all field periods. -/
theorem C167_field_error {p0 p1 t0 t1 : ℝ} (hp0 : Q.plasma.phis[0]? = some p0) (hp1 : Q.plasma.phis[1]? = some p1)
    (ht0 : Q.plasma.thetas[0]? = some t0) (ht1 : Q.plasma.thetas[1]? = some t1) (d : Dofs) :
    rawOf (shippedRegistry FieldProblem.fns others) "f_B" Q d = .scalar (Q.cp.nfp *
      (List.zipWith (fun q b => (p1 - p0) * (t1 - t0) * (areaVector (Q.plasma.shape.gamma Q.plasma.dofs) q.1 q.2).norm * (b ^ 2 / 2))
        (gridPoints Q.plasma.phis Q.plasma.thetas) (rawOf (shippedRegistry FieldProblem.fns others) "Bnormal" Q d).entries).sum) := by
  have hstep : ∀ {l : List ℝ} {a b : ℝ}, l[0]? = some a → l[1]? = some b → gridStep l = b - a := by
    intro l a b h0 h1
    simp [gridStep, h0, h1]
  rw [raw_entries Q others (name := "f_B") rfl, raw_entries Q others (name := "Bnormal") rfl, ← hstep hp0 hp1, ← hstep ht0 ht1,
    areaVector_gamma]
  show Val.scalar (Q.plasma.integrate ((Q.bnormal (coefs d)).map fun b => b ^ 2 / 2) * Q.cp.nfp) = _
  rw [mul_comm, GridSurface.integrate, List.zipWith_comm_of_comm (fun x y => mul_comm x y), GridSurface.da, List.zipWith_map]
  rfl

/-- **C167 (normalised field error).** -/
theorem C167_normalised_field_error (d : Dofs) {e e0 : ℝ} (h : rawOf (shippedRegistry FieldProblem.fns others) "f_B" Q d = .scalar e)
    (h0 : rawOf (shippedRegistry FieldProblem.fns others) "f_B" Q
      (phiOnly (.array (List.replicate (cpNdofs Q.cp.stellsym Q.cp.mpol Q.cp.ntor).1 0))) = .scalar e0) :
    rawOf (shippedRegistry FieldProblem.fns others) "f_B_normalized_by_Bnormal_IG" Q d = .scalar (e / e0) := by
  rw [raw_entries Q others (name := "f_B") rfl] at h h0
  rw [raw_entries Q others (name := "f_B_normalized_by_Bnormal_IG") rfl]
  have h1 : Q.fB (coefs d) = e := Val.scalar.inj h
  have h2 : Q.fB (List.replicate (cpNdofs Q.cp.stellsym Q.cp.mpol Q.cp.ntor).1 0) = e0 := Val.scalar.inj h0
  show Val.scalar (Q.fB (coefs d) / Q.fB (List.replicate _ 0)) = _
  rw [h1, h2]

/-- **C167 (call).** The values that a call reports are the values of these quantities for the problem that its arguments describe and the
potential that it returns. -/
theorem C167_call {a : CallArgs} {opt : Optimizer ℝ} {gradOp : (List ℝ → ℝ) → List ℝ → List ℝ} {R : CallOut}
    (h : quadcoilCall opt gradOp (shippedRegistry FieldProblem.fns others) a = .ok (some R)) {n : String} (hn : n ∈ a.metrics)
    (hf : n ≠ "f_obj") :
    ∃ v, R.out.lookup n = some v ∧ v.value = rawOf (shippedRegistry FieldProblem.fns others) n a.described R.dofs := by
  obtain ⟨-, S, -, -, -, hm, -⟩ := C140_returned h
  obtain ⟨q, v, hq, hv, hval⟩ := hm n hn hf
  refine ⟨v, hv, ?_⟩
  have hl : (shipped FieldProblem.fns).lookup n = some q := by
    cases hl : (shipped FieldProblem.fns).lookup n with
    | none =>
      simp only [shippedRegistry, hl] at hq
      split at hq <;> cases hq
    | some q' => simpa [shippedRegistry, hl] using hq
  rw [hval, raw_entries _ others hl, Quantity.call]
  exact shipped_phiOnly _ (mem_of_lookup hl) a.described (phiOnly (R.dofs "phi")) R.dofs (by simp [phiOnly])

/-! ## Example -/

/-- The circular torus with net currents 5 and 7: the current at the grid point `(1, 2)` is the sixth entry of the array, and the statements
about the field hold for it. -/
example (x : ℝ) :
    let K := resolvedTorus.cp.K [x]
    IsSheetCurrent (circularTorus.surf.gamma circularTorus.wdofs) (resolvedTorus.stream [x]) K ∧
    (rawOf (shippedRegistry FieldProblem.fns []) "K" resolvedTorus (phiOnly (.array [x]))).entries[(1 * 3 + 2) * 3 + 1]? =
      some (K (1 / 2) (2 / 3)).y ∧
    (∃ D, IsConvective (circularTorus.surf.gamma circularTorus.wdofs) K D ∧
      (rawOf (shippedRegistry FieldProblem.fns []) "K_dot_grad_K" resolvedTorus (phiOnly (.array [x]))).entries[(1 * 3 + 2) * 3 + 1]? =
        some (D (1 / 2) (2 / 3)).y) := by
  intro K
  have hreg : ∀ p t, areaVector (resolvedTorus.cp.surf.gamma resolvedTorus.cp.wdofs) p t ≠ 0 := fun p t => by
    rw [areaVector_gamma]
    exact (circularTorus_regular p t).1
  have hK := C167_sheet_current resolvedTorus (c := [x]) rfl hreg
  have hD := C167_convective_exists resolvedTorus (c := [x]) hreg
  have h1 := (C167_current_values resolvedTorus [] (c := [x]) rfl hK (d := phiOnly (.array [x])) (by simp [phiOnly])).1.2
    ⟨1, by simp [resolvedTorus, linspace0]⟩ ⟨2, by simp [resolvedTorus, linspace0]⟩ 1
  have h2 := (C167_convective resolvedTorus [] (c := [x]) rfl hreg hK hD (d := phiOnly (.array [x])) (by simp [phiOnly])).2
    ⟨1, by simp [resolvedTorus, linspace0]⟩ ⟨2, by simp [resolvedTorus, linspace0]⟩ 1
  have el : resolvedTorus.eThetas.length = 3 := by simp [resolvedTorus, linspace0]
  have ep : resolvedTorus.ePhis[1]'(by simp [resolvedTorus, linspace0]) = 1 / 2 := by simp [resolvedTorus, linspace0]
  have et : resolvedTorus.eThetas[2]'(by simp [resolvedTorus, linspace0]) = 2 / 3 := by
    simp [resolvedTorus, linspace0]
    norm_num
  simp only [Fin.getElem_fin, el, ep, et] at h1 h2
  exact ⟨hK, h1, _, hD, h2⟩

/-- The integrals and the normal field of the same torus. The plasma field at the last grid point is 1. -/
example (x : ℝ) :
    let K := resolvedTorus.cp.K [x]
    (∃ s, rawOf (shippedRegistry FieldProblem.fns []) "f_K" resolvedTorus (phiOnly (.array [x])) = .scalar s ∧
      s = 1 * ((resolvedTorus.ePhis.map fun p => (resolvedTorus.eThetas.map fun t => (1 / 2 - 0) * (1 / 3 - 0) *
        (areaVector (circularTorus.surf.gamma circularTorus.wdofs) p t).norm * ((K p t).normSq / 2)).sum).sum)) ∧
    ∃ b, (rawOf (shippedRegistry FieldProblem.fns []) "Bnormal" resolvedTorus (phiOnly (.array [x]))).entries[1 * 2 + 1]? = some (b + 1) := by
  intro K
  have hreg : ∀ p t, areaVector (resolvedTorus.cp.surf.gamma resolvedTorus.cp.wdofs) p t ≠ 0 := fun p t => by
    rw [areaVector_gamma]
    exact (circularTorus_regular p t).1
  have hK := C167_sheet_current resolvedTorus (c := [x]) rfl hreg
  have h1 := (C167_surface_integrals resolvedTorus [] (c := [x]) rfl hK (p0 := 0) (p1 := 1 / 2) (t0 := 0) (t1 := 1 / 3)
    (by simp [resolvedTorus, linspace0]) (by simp [resolvedTorus, linspace0]) (by simp [resolvedTorus, linspace0])
    (by simp [resolvedTorus, linspace0]) (d := phiOnly (.array [x])) (by simp [phiOnly])).1
  have el : resolvedTorus.plasma.thetas.length = 2 := by simp [resolvedTorus, torusProblem, linspace0]
  have h2 := (C167_field_values resolvedTorus [] (c := [x]) rfl hK (by simp [resolvedTorus, torusProblem, linspace0])
    (d := phiOnly (.array [x])) (by simp [phiOnly])).2.2 ⟨1, by simp [resolvedTorus, torusProblem, linspace0]⟩
    ⟨1, by simp [resolvedTorus, torusProblem, linspace0]⟩ 1 (by simp only [el]; rfl)
  simp only [el] at h2
  refine ⟨⟨_, h1, ?_⟩, _, h2.1⟩
  have hn : ((resolvedTorus.cp.nfp : ℕ) : ℝ) = 1 := by
    show ((1 : ℕ) : ℝ) = 1
    norm_num
  simp only [hn]
  rfl

end Verif
