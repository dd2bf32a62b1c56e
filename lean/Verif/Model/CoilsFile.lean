import Verif.Model.Coils
import Verif.Model.Quantity

/-!
# The coils file (`/repo/src/quadcoil/io/coil_cutting.py`, lines 156-176) and the order of the curves (lines 196-219)

A line of the file is kept as its fields; the numbers are printed with 23 significant digits, which determine a float, so printing
is not modelled.
-/

namespace Verif

/-- A line of a coils file. -/
inductive CoilsLine
  /-- `periods nfp` -/
  | periods (nfp : ℕ)
  /-- `begin filament` -/
  | beginFilament
  /-- `mirror NIL` -/
  | mirrorNil
  /-- four numbers: a point and the current -/
  | point (p : V3) (current : ℝ)
  /-- four numbers, the number of the group and its name -/
  | last (p : V3) (current : ℝ) (group : ℕ) (name : String)
  /-- `end` -/
  | «end»

/-- The lines of one filament, coil_cutting.py 165-171. A contour without points has no element `contour_X[j][0]`. -/
noncomputable def filamentLines (current : ℝ) (curve : List V3) : Except PyErr (List CoilsLine) :=
  match curve[0]? with
  | none => .error .indexError
  | some p => .ok ((curve.map fun q => .point q current) ++ [.last p 0 1 "Modular"])

/-- The file written with `save=True`, coil_cutting.py 160-174. -/
noncomputable def coilsFile (nfp : ℕ) (current : ℝ) (curves : List (List V3)) : Except PyErr (List CoilsLine) := do
  let body ← curves.mapM (filamentLines current)
  .ok ([.periods nfp, .beginFilament, .mirrorNil] ++ body.flatten ++ [.end])

/-- The order of the Fourier series, coil_cutting.py 196-204, for the numbers of points of the contours (`x`, `y` and `z` of a
contour have the same length); `none` is infinity. `order=0` counts as not given. -/
def curveOrder (order : Option ℕ) (lengths : List ℕ) : Option ℕ :=
  match order with
  | some (o + 1) => some (o + 1)
  | _ => lengths.foldl (fun o l => match o with
    | none => some (l / 2)
    | some o => if l / 2 < o then some (l / 2) else some o) none

/-- The assertion of `ifft_simsopt`, coil_cutting.py 82, for every contour. -/
def orderAccepted (order : ℕ) (lengths : List ℕ) : Except PyErr Unit :=
  if ∀ l ∈ lengths, l ≥ 2 * order then .ok () else .error .assertionError

end Verif
