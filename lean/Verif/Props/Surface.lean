import Verif.Lemmas.Surface
import Verif.Spec.Fourier
import Verif.Props.Modes

/-!
# Properties C37 (number of coefficients), C38, C39, C42: Fourier surfaces
-/

namespace Verif

open Real

namespace SurfaceShape

variable (S : SurfaceShape)

theorem gammadash_eq (dofs : List ℝ) (a b : ℕ) (phi theta : ℝ) :
    S.gammadash dofs a b phi theta =
      ⟨leibniz (fun k => S.rDash dofs k b phi theta) (fun j => (π * 2) ^ j * cosD j (phi * π * 2)) a,
       leibniz (fun k => S.rDash dofs k b phi theta) (fun j => (π * 2) ^ j * sinD j (phi * π * 2)) a,
       S.zDash dofs a b phi theta⟩ := by
  rw [gammadash, xTerm_sum, yTerm_sum]

theorem cRows_length : S.cRows.length = 1 + S.ntor + S.mpol * (2 * S.ntor + 1) := by
  have h := C37_mode_counts S.mpol S.ntor
  rw [cRows, List.length_zipWith, h.1, h.2.1]
  simp

theorem sRows_length : S.sRows.length = S.ntor + S.mpol * (2 * S.ntor + 1) := by
  have h := C37_mode_counts S.mpol S.ntor
  rw [sRows, List.length_zipWith, h.2.2.1, h.2.2.2]
  simp

end SurfaceShape

/-- **C37.** The number of coefficients expected by the evaluation operators: one more than twice the number of sine modes
with stellarator symmetry, twice that without. -/
theorem C37_dof_count (S : SurfaceShape) (a b : ℕ) (phi theta : ℝ) :
    (S.rOperatorPadded a b phi theta).length = (S.zOperatorPadded a b phi theta).length ∧
    (S.rOperatorPadded a b phi theta).length =
      (if S.stellsym then 1 + 2 * (S.ntor + S.mpol * (2 * S.ntor + 1))
        else 2 * (1 + 2 * (S.ntor + S.mpol * (2 * S.ntor + 1)))) := by
  rw [S.rOperatorPadded_eq, S.zOperatorPadded_eq]
  simp only [List.length_map, SurfaceShape.rRowsP, SurfaceShape.zRowsP, List.length_append, SurfaceShape.rRows,
    SurfaceShape.zRows]
  refine ⟨trivial, ?_⟩
  split_ifs <;> simp only [List.length_append, S.cRows_length, S.sRows_length] <;> ring

/-! ## C38 -/

theorem applyRow_append (r1 r2 d1 d2 : List ℝ) (h : r1.length = d1.length) :
    SurfaceShape.applyRow (r1 ++ r2) (d1 ++ d2) = SurfaceShape.applyRow r1 d1 + SurfaceShape.applyRow r2 d2 := by
  simp only [SurfaceShape.applyRow]
  rw [List.zipWith_append h, List.sum_append]

theorem applyRow_zero {β : Type} (r : List β) (d : List ℝ) : SurfaceShape.applyRow (r.map fun _ => (0 : ℝ)) d = 0 := by
  induction r generalizing d with
  | nil => simp [SurfaceShape.applyRow]
  | cons a r ih =>
    cases d with
    | nil => simp [SurfaceShape.applyRow]
    | cons b d => simpa [SurfaceShape.applyRow] using ih d

theorem applyRow_cmn (S : SurfaceShape) (phi theta : ℝ) (c : List ℝ) :
    SurfaceShape.applyRow (S.cmn 0 0 phi theta) c =
      cosSeries S.nfp (modePairs (surfMc S.mpol S.ntor, surfNc S.mpol S.ntor)) c phi theta := by
  simp only [SurfaceShape.applyRow, SurfaceShape.cmn, cosSeries, modePairs]
  generalize surfMc S.mpol S.ntor = ms
  generalize surfNc S.mpol S.ntor = ns
  induction ms generalizing ns c with
  | nil => simp
  | cons m ms ih =>
    cases ns with
    | nil => simp
    | cons n ns =>
      cases c with
      | nil => simp
      | cons c cs =>
        simp only [List.zipWith_cons_cons, List.sum_cons, List.zip_cons_cons, List.map_cons, ih]
        congr 1
        simp only [cEntry_eq, cosD, modeAngle, pow_zero, add_zero, Nat.zero_mod, Nat.zero_div, if_true, one_mul]
        rw [mul_comm]
        congr 2
        ring

theorem applyRow_smn (S : SurfaceShape) (phi theta : ℝ) (c : List ℝ) :
    SurfaceShape.applyRow (S.smn 0 0 phi theta) c =
      sinSeries S.nfp (modePairs (surfMs S.mpol S.ntor, surfNs S.mpol S.ntor)) c phi theta := by
  simp only [SurfaceShape.applyRow, SurfaceShape.smn, sinSeries, modePairs]
  generalize surfMs S.mpol S.ntor = ms
  generalize surfNs S.mpol S.ntor = ns
  induction ms generalizing ns c with
  | nil => simp
  | cons m ms ih =>
    cases ns with
    | nil => simp
    | cons n ns =>
      cases c with
      | nil => simp
      | cons c cs =>
        simp only [List.zipWith_cons_cons, List.sum_cons, List.zip_cons_cons, List.map_cons, ih]
        congr 1
        simp only [sEntry_eq, sinD, modeAngle, pow_zero, add_zero, Nat.zero_mod, Nat.zero_div, if_true, one_mul]
        rw [mul_comm]
        congr 2
        ring

theorem gamma_rz (S : SurfaceShape) (dofs : List ℝ) (phi theta : ℝ) :
    S.gamma dofs phi theta = ⟨S.rDash dofs 0 0 phi theta * cos (2 * π * phi), S.rDash dofs 0 0 phi theta * sin (2 * π * phi),
      S.zDash dofs 0 0 phi theta⟩ := by
  rw [SurfaceShape.gamma, S.gammadash_eq]
  simp only [SurfaceShape.leibniz, Finset.Nat.antidiagonal_zero, Finset.sum_singleton, Nat.choose_self, Nat.cast_one, one_mul,
    pow_zero, cosD, sinD, Nat.zero_mod, Nat.zero_div, if_true]
  rw [show phi * π * 2 = 2 * π * phi by ring]

/-- **C38 (order 0, symmetric).** With coefficients `[rc, zs]` the position is `(R cos, R sin, Z)` where `R` and `Z` are the
cosine and sine series. -/
theorem C38_position_stellsym (S : SurfaceShape) (hs : S.stellsym = true) (rc zs : List ℝ)
    (hrc : rc.length = (surfMc S.mpol S.ntor).length) (phi theta : ℝ) :
    S.gamma (rc ++ zs) phi theta =
      let R := cosSeries S.nfp (modePairs (surfMc S.mpol S.ntor, surfNc S.mpol S.ntor)) rc phi theta
      ⟨R * cos (2 * π * phi), R * sin (2 * π * phi),
        sinSeries S.nfp (modePairs (surfMs S.mpol S.ntor, surfNs S.mpol S.ntor)) zs phi theta⟩ := by
  have hc := C37_mode_counts S.mpol S.ntor
  have hlen : (S.cmn 0 0 phi theta).length = rc.length := by
    rw [S.cmn_eq, List.length_map, S.cRows_length, hrc, hc.1]
  have hR : S.rDash (rc ++ zs) 0 0 phi theta =
      cosSeries S.nfp (modePairs (surfMc S.mpol S.ntor, surfNc S.mpol S.ntor)) rc phi theta := by
    simp only [SurfaceShape.rDash, SurfaceShape.rOperatorPadded, SurfaceShape.rOperator, SurfaceShape.zOperator, hs, if_true]
    rw [applyRow_append _ _ _ _ hlen, applyRow_zero, add_zero, applyRow_cmn]
  have hZ : S.zDash (rc ++ zs) 0 0 phi theta =
      sinSeries S.nfp (modePairs (surfMs S.mpol S.ntor, surfNs S.mpol S.ntor)) zs phi theta := by
    simp only [SurfaceShape.zDash, SurfaceShape.zOperatorPadded, SurfaceShape.rOperator, SurfaceShape.zOperator, hs, if_true]
    rw [applyRow_append _ _ _ _ (by simpa using hlen), applyRow_zero, zero_add, applyRow_smn]
  rw [gamma_rz, hR, hZ]

/-- **C38 (order 0, general).** With coefficients `[rc, rs, zc, zs]` the position is `(R cos, R sin, Z)` where `R` and `Z`
are sums of a cosine and a sine series. -/
theorem C38_position_general (S : SurfaceShape) (hs : S.stellsym = false) (rc rs zc zs : List ℝ)
    (hrc : rc.length = (surfMc S.mpol S.ntor).length) (hrs : rs.length = (surfMs S.mpol S.ntor).length)
    (hzc : zc.length = (surfMc S.mpol S.ntor).length) (phi theta : ℝ) :
    S.gamma (rc ++ rs ++ (zc ++ zs)) phi theta =
      let cM := modePairs (surfMc S.mpol S.ntor, surfNc S.mpol S.ntor)
      let sM := modePairs (surfMs S.mpol S.ntor, surfNs S.mpol S.ntor)
      let R := cosSeries S.nfp cM rc phi theta + sinSeries S.nfp sM rs phi theta
      ⟨R * cos (2 * π * phi), R * sin (2 * π * phi),
        cosSeries S.nfp cM zc phi theta + sinSeries S.nfp sM zs phi theta⟩ := by
  have hc := C37_mode_counts S.mpol S.ntor
  have hlc : (S.cmn 0 0 phi theta).length = rc.length := by
    rw [S.cmn_eq, List.length_map, S.cRows_length, hrc, hc.1]
  have hlc2 : (S.cmn 0 0 phi theta).length = zc.length := by
    rw [hlc, hrc, hzc]
  have hls : (S.smn 0 0 phi theta).length = rs.length := by
    rw [S.smn_eq, List.length_map, S.sRows_length, hrs, hc.2.2.1]
  have hR : S.rDash (rc ++ rs ++ (zc ++ zs)) 0 0 phi theta =
      cosSeries S.nfp (modePairs (surfMc S.mpol S.ntor, surfNc S.mpol S.ntor)) rc phi theta +
      sinSeries S.nfp (modePairs (surfMs S.mpol S.ntor, surfNs S.mpol S.ntor)) rs phi theta := by
    simp only [SurfaceShape.rDash, SurfaceShape.rOperatorPadded, SurfaceShape.rOperator, SurfaceShape.zOperator, hs,
      Bool.false_eq_true, if_false]
    rw [applyRow_append _ _ _ _ (by simp [hlc, hls]), applyRow_zero, add_zero, applyRow_append _ _ _ _ hlc,
      applyRow_cmn, applyRow_smn]
  have hZ : S.zDash (rc ++ rs ++ (zc ++ zs)) 0 0 phi theta =
      cosSeries S.nfp (modePairs (surfMc S.mpol S.ntor, surfNc S.mpol S.ntor)) zc phi theta +
      sinSeries S.nfp (modePairs (surfMs S.mpol S.ntor, surfNs S.mpol S.ntor)) zs phi theta := by
    simp only [SurfaceShape.zDash, SurfaceShape.zOperatorPadded, SurfaceShape.rOperator, SurfaceShape.zOperator, hs,
      Bool.false_eq_true, if_false]
    rw [applyRow_append _ _ _ _ (by simp [hlc, hls]), applyRow_zero, zero_add, applyRow_append _ _ _ _ hlc2,
      applyRow_cmn, applyRow_smn]
  rw [gamma_rz, hR, hZ]

/-- **C38 (phi).** The derivative of the array of order `(a, b)` with respect to `phi` is the array of order
`(a + 1, b)`. -/
theorem C38_gammadash_phi (S : SurfaceShape) (dofs : List ℝ) (a b : ℕ) (phi theta : ℝ) :
    HasDerivV3 (fun p => S.gammadash dofs a b p theta) (S.gammadash dofs (a + 1) b phi theta) phi := by
  simp only [HasDerivV3, S.gammadash_eq]
  exact ⟨SurfaceShape.leibniz_hasDerivAt (fun k p => S.rDash dofs k b p theta)
      (fun j p => (π * 2) ^ j * cosD j (p * π * 2)) _ (fun k => S.rDash_phi ..)
      (fun j => SurfaceShape.cosD_scaled ..) a,
    SurfaceShape.leibniz_hasDerivAt (fun k p => S.rDash dofs k b p theta)
      (fun j p => (π * 2) ^ j * sinD j (p * π * 2)) _ (fun k => S.rDash_phi ..)
      (fun j => SurfaceShape.sinD_scaled ..) a,
    S.zDash_phi ..⟩

/-- **C38 (theta).** The derivative of the array of order `(a, b)` with respect to `theta` is the array of order
`(a, b + 1)`. -/
theorem C38_gammadash_theta (S : SurfaceShape) (dofs : List ℝ) (a b : ℕ) (phi theta : ℝ) :
    HasDerivV3 (fun t => S.gammadash dofs a b phi t) (S.gammadash dofs a (b + 1) phi theta) theta := by
  simp only [HasDerivV3, S.gammadash_eq]
  exact ⟨SurfaceShape.leibniz_hasDerivAt_left (fun k t => S.rDash dofs k b phi t) _ _ _ (fun k => S.rDash_theta ..) a,
    SurfaceShape.leibniz_hasDerivAt_left (fun k t => S.rDash dofs k b phi t) _ _ _ (fun k => S.rDash_theta ..) a,
    S.zDash_theta ..⟩

/-- **C38 (R and Z).** The same for the cylindrical coordinates. -/
theorem C38_rz_derivatives (S : SurfaceShape) (dofs : List ℝ) (a b : ℕ) (phi theta : ℝ) :
    HasDerivAt (fun p => S.rDash dofs a b p theta) (S.rDash dofs (a + 1) b phi theta) phi ∧
    HasDerivAt (fun t => S.rDash dofs a b phi t) (S.rDash dofs a (b + 1) phi theta) theta ∧
    HasDerivAt (fun p => S.zDash dofs a b p theta) (S.zDash dofs (a + 1) b phi theta) phi ∧
    HasDerivAt (fun t => S.zDash dofs a b phi t) (S.zDash dofs a (b + 1) phi theta) theta :=
  ⟨S.rDash_phi .., S.rDash_theta .., S.zDash_phi .., S.zDash_theta ..⟩

/-- A circular torus with major radius 3 and minor radius 1 (`mpol = 1`, `ntor = 0`): `dofs = [3, 1, 1]`. -/
example (phi theta : ℝ) : (SurfaceShape.mk 2 true 1 0).gamma [3, 1, 1] phi theta =
    ⟨(3 + cos (2 * π * theta)) * cos (2 * π * phi), (3 + cos (2 * π * theta)) * sin (2 * π * phi),
      sin (2 * π * theta)⟩ := by
  have := C38_position_stellsym (SurfaceShape.mk 2 true 1 0) rfl [3, 1] [1] rfl phi theta
  simp only [List.cons_append, List.nil_append] at this
  rw [this]
  have h1 : modePairs (surfMc 1 0, surfNc 1 0) = [(0, 0), (1, 0)] := rfl
  have h2 : modePairs (surfMs 1 0, surfNs 1 0) = [(1, 0)] := rfl
  simp [cosSeries, sinSeries, h1, h2]

/-! ## C39 -/

/-- **C39 (field periods).** Advancing `phi` by `j / nfp` rotates the surface, and all its derivative arrays, by the angle
`2 pi j / nfp` about the z axis. -/
theorem C39_field_period (S : SurfaceShape) (hn : S.nfp ≠ 0) (dofs : List ℝ) (a b : ℕ) (phi theta : ℝ) (j : ℤ) :
    S.gammadash dofs a b (phi + j / S.nfp) theta = rotZ (2 * π * j / S.nfp) (S.gammadash dofs a b phi theta) := by
  rw [S.gammadash_eq, S.gammadash_eq]
  have hang : (phi + j / S.nfp) * π * 2 = phi * π * 2 + 2 * π * j / S.nfp := by ring
  simp only [S.rDash_shift_phi hn, S.zDash_shift_phi hn, hang, cosD_add, sinD_add, rotZ]
  ext
  · simp only
    rw [sub_eq_add_neg, ← neg_mul, ← SurfaceShape.leibniz_lin]
    exact SurfaceShape.leibniz_congr _ _ _ _ (fun _ => rfl) (fun k => by ring) a
  · simp only
    rw [← SurfaceShape.leibniz_lin]
    exact SurfaceShape.leibniz_congr _ _ _ _ (fun _ => rfl) (fun k => by ring) a
  · rfl

/-- **C39 (poloidal period).** All arrays are periodic in `theta` with period 1. -/
theorem C39_theta_periodic (S : SurfaceShape) (dofs : List ℝ) (a b : ℕ) (phi theta : ℝ) (j : ℤ) :
    S.gammadash dofs a b phi (theta + j) = S.gammadash dofs a b phi theta := by
  rw [S.gammadash_eq, S.gammadash_eq]
  simp only [S.rDash_shift_theta, S.zDash_shift_theta]

/-- **C39 (stellarator symmetry).** `(x, y, z)(-phi, -theta) = (x, -y, -z)(phi, theta)`; derivatives of order `(a, b)` get
the additional sign `(-1)^(a+b)`. -/
theorem C39_stellarator_symmetry (S : SurfaceShape) (hs : S.stellsym = true) (dofs : List ℝ) (a b : ℕ)
    (phi theta : ℝ) :
    S.gammadash dofs a b (-phi) (-theta) =
      ⟨(-1) ^ (a + b) * (S.gammadash dofs a b phi theta).x, (-1) ^ (a + b) * -(S.gammadash dofs a b phi theta).y,
        (-1) ^ (a + b) * -(S.gammadash dofs a b phi theta).z⟩ := by
  rw [S.gammadash_eq, S.gammadash_eq]
  have hang : -phi * π * 2 = -(phi * π * 2) := by ring
  simp only [S.rDash_neg hs, S.zDash_neg hs, hang, cosD_neg, sinD_neg]
  ext
  · simp only
    rw [← SurfaceShape.leibniz_parity]
    exact SurfaceShape.leibniz_congr _ _ _ _ (fun _ => rfl) (fun k => by ring) a
  · simp only
    rw [mul_neg, ← SurfaceShape.leibniz_parity]
    have := SurfaceShape.leibniz_lin (fun k => (-1) ^ (k + b) * S.rDash dofs k b phi theta)
      (fun j => (-1) ^ j * ((π * 2) ^ j * sinD j (phi * π * 2))) (fun _ => 0) (-1) 0 a
    refine Eq.trans ?_ (this.trans (by ring))
    exact SurfaceShape.leibniz_congr _ _ _ _ (fun _ => rfl) (fun k => by ring) a
  · rfl

/-- The position itself. -/
theorem C39_position_symmetry (S : SurfaceShape) (hs : S.stellsym = true) (dofs : List ℝ) (phi theta : ℝ) :
    S.gamma dofs (-phi) (-theta) =
      ⟨(S.gamma dofs phi theta).x, -(S.gamma dofs phi theta).y, -(S.gamma dofs phi theta).z⟩ := by
  have := C39_stellarator_symmetry S hs dofs 0 0 phi theta
  simpa [SurfaceShape.gamma] using this

example : (SurfaceShape.mk 2 true 1 0).nfp ≠ 0 ∧ (SurfaceShape.mk 2 true 1 0).stellsym = true := by decide

end Verif
