import Verif.Model.Field
import Mathlib.Algebra.Order.Floor.Ring

/-!
# Coil cutting (`/repo/src/quadcoil/io/coil_cutting.py`)

The contour finder (`matplotlib.pyplot.contour`) and simsopt are external: a contour is any list of pairs `(zeta, theta)`.
-/

namespace Verif

open Real

/-! ## Normalised potential and levels -/

/-- `np.finfo(float).eps`. -/
noncomputable def floatEps : ℝ := 2 ^ (-52 : ℤ)

/-- `data_3` as a list of columns (one for each toroidal angle), coil_cutting.py 38-43. `phiData` is `current_potential`, `maxPhi`
is `np.max(current_potential)`. -/
noncomputable def data3 (G maxPhi : ℝ) (nfp : ℕ) (phiData : List (List ℝ)) : List (List ℝ) :=
  if floatEps < |G| then
    let data := phiData.map fun col => col.map fun v => v / G * nfp
    (data.map fun col => col.map fun v => v - 1) ++ data ++ (data.map fun col => col.map fun v => v + 1)
  else
    let data := phiData.map fun col => col.map fun v => v / maxPhi
    data ++ data ++ data

/-- `zeta_3`, coil_cutting.py 19, 30-33. -/
noncomputable def zeta3 (nfp : ℕ) (quadpointsPhi : List ℝ) : List ℝ :=
  let zeta := quadpointsPhi.map fun p => p * 2 * π
  let d := 2 * π / nfp
  (zeta.map fun z => z - d) ++ zeta ++ (zeta.map fun z => z + d)

/-- `levels`, coil_cutting.py 47-57. `theta_shift % 1` is the fractional part. -/
noncomputable def cutLevels (stellsym : Bool) (coilsPerHalfPeriod : ℕ) (thetaShift : ℝ) : List ℝ :=
  let d := 0.5 / (coilsPerHalfPeriod : ℝ)
  let levelShift := Int.fract thetaShift * d
  let levels := if stellsym then linspace0 0.5 coilsPerHalfPeriod
    else (linspace0 1 (coilsPerHalfPeriod * 2)).map fun v => v + levelShift
  levels.map fun v => v + d / 2

/-! ## Coil currents -/

/-- `coil_currents`, coil_cutting.py 153-155. -/
noncomputable def coilCurrent (G : ℝ) (numCoils nfp : ℕ) (stellsym : Bool) : ℝ :=
  let c := G / numCoils / nfp
  if stellsym then c / 2 else c

/-- `coils_via_symmetries(curves, currents, nfp, stellsym)` (simsopt, called at coil_cutting.py 255), as pairs (poloidal
direction of the curve, current): for every field period the curves and, with stellarator symmetry, their images under a
half turn, which run in the opposite poloidal direction and get the negative current. -/
def coilsViaSymmetries (directions currents : List ℝ) (nfp : ℕ) (stellsym : Bool) : List (ℝ × ℝ) :=
  (List.range nfp).flatMap fun _ =>
    directions.zip currents
      ++ if stellsym then (directions.zip currents).map fun p => (-p.1, -p.2) else []

/-- The coils of `simsopt_coil_from_qp`, coil_cutting.py 221-256, for contours with the given poloidal directions: all get the
same current. -/
noncomputable def cutCoils (G : ℝ) (directions : List ℝ) (nfp : ℕ) (stellsym : Bool) : List (ℝ × ℝ) :=
  coilsViaSymmetries directions (directions.map fun _ => coilCurrent G directions.length nfp stellsym) nfp stellsym

/-! ## Points of the coils -/

/-- The coefficient arrays of simsopt's surface after `set_dofs` (`surf.rc[m, i]`, `surf.get_rs(m, n)`, ...): the coefficient of
mode `(m, n)` in the order of the mode table, 0 for modes that have no coefficient. -/
noncomputable def simsoptCoef (modes : List (ℤ × ℤ)) (c : List ℝ) (m n : ℤ) : ℝ := ((modes.zip c).lookup (m, n)).getD 0

/-- `contour_R` (with cosine coefficients `crc` and sine coefficients `crs`) and `contour_Z` at one point of a contour,
coil_cutting.py 130-146. -/
noncomputable def contourCoord (mpol ntor nfp : ℕ) (cosC sinC : ℤ → ℤ → ℝ) (zeta theta : ℝ) : ℝ :=
  ((List.range (mpol + 1)).map fun m : ℕ =>
    ((List.range (2 * ntor + 1)).map fun i : ℕ =>
      let n : ℤ := (i : ℤ) - ntor
      let angle := (m : ℝ) * theta - (n : ℝ) * zeta * nfp
      cosC m n * cos angle + sinC m n * sin angle).sum).sum

namespace SurfaceShape

variable (S : SurfaceShape)

/-- The modes of the cosine coefficients. -/
def cModes : List (ℤ × ℤ) := (surfMc S.mpol S.ntor).zip (surfNc S.mpol S.ntor)
/-- The modes of the sine coefficients. -/
def sModes : List (ℤ × ℤ) := (surfMs S.mpol S.ntor).zip (surfNs S.mpol S.ntor)

/-- A point of a cut coil, coil_cutting.py 129-152. The coefficient vectors are the four blocks of simsopt's degrees of freedom
(`crs = czc = 0` with stellarator symmetry). -/
noncomputable def contourPoint (rc rs zc zs : List ℝ) (zeta theta : ℝ) : V3 :=
  let crs := if S.stellsym then fun _ _ => 0 else simsoptCoef S.sModes rs
  let czc := if S.stellsym then fun _ _ => 0 else simsoptCoef S.cModes zc
  let R := contourCoord S.mpol S.ntor S.nfp (simsoptCoef S.cModes rc) crs zeta theta
  let Z := contourCoord S.mpol S.ntor S.nfp czc (simsoptCoef S.sModes zs) zeta theta
  ⟨R * cos zeta, R * sin zeta, Z⟩

end SurfaceShape

/-! ## Fourier coefficients of a coil -/

/-- Real part of `rfft(x)[k]`. -/
noncomputable def rfftRe (x : List ℝ) (k : ℕ) : ℝ :=
  ((List.range x.length).map fun j : ℕ => x.getD j 0 * cos (2 * π * j * k / x.length)).sum

/-- Imaginary part of `rfft(x)[k]`. -/
noncomputable def rfftIm (x : List ℝ) (k : ℕ) : ℝ :=
  ((List.range x.length).map fun j : ℕ => -(x.getD j 0 * sin (2 * π * j * k / x.length))).sum

/-- `ifft_simsopt`, coil_cutting.py 83-95. (`rfft` of an empty array raises `ValueError`.) The sine coefficients are written to
the odd positions, the cosine coefficients to the even ones. -/
noncomputable def ifftSimsopt (x : List ℝ) (order : ℕ) : Except PyErr (List ℝ) :=
  if x.length < 2 * order then .error .assertionError
  else if x.length = 0 then .error .valueError
  else .ok (rfftRe x 0 / x.length ::
    (List.range order).flatMap fun k => [-2 * (rfftIm x (k + 1) / x.length), 2 * (rfftRe x (k + 1) / x.length)])

/-- The order used by `simsopt_curves_from_xyz` for a falsy `order` argument, coil_cutting.py 195-203: the smallest `len(x)//2` (for
at least one curve). -/
def defaultOrder (lengths : List ℕ) : ℕ := (lengths.map fun n => n / 2).foldr min (lengths.headD 0 / 2)

end Verif
