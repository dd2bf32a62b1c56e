import Verif.Model.Winding
import Verif.Model.Quantity

/-!
# Convex hulls and the two winding surface generators: `/repo/src/quadcoil/winding_surface.py` 200-457

A fixed size buffer with a fill count is modelled as the list of its filled entries.
-/

namespace Verif

open Real

/-! ## `graham_scan` -/

open Classical in
/-- `jnp.lexsort((sec, prim))` for arrays of length `n`, used in winding_surface.py 204 and 214: the indices sorted by `prim`,
ties by `sec` (the last key is the primary one). The sort is stable. -/
noncomputable def lexsort (n : ℕ) (sec prim : ℕ → ℝ) : List ℕ :=
  (List.range n).mergeSort fun i j => decide (prim i < prim j ∨ prim i = prim j ∧ sec i ≤ sec j)

/-- `P0`, winding_surface.py 204-205. -/
noncomputable def hullStart (n : ℕ) (P : ℕ → ℝ × ℝ) : ℝ × ℝ :=
  P ((lexsort n (fun i => (P i).1) (fun i => (P i).2)).headD 0)

/-- `angles[i]`, winding_surface.py 208-210: `jnp.arctan2(delta_z, delta_r)` is the argument of `delta_r + i delta_z`. -/
noncomputable def hullAngle (n : ℕ) (P : ℕ → ℝ × ℝ) (i : ℕ) : ℝ :=
  Complex.arg ⟨(P i).1 - (hullStart n P).1, (P i).2 - (hullStart n P).2⟩

/-- `dists[i]`, winding_surface.py 211. -/
noncomputable def hullDist (n : ℕ) (P : ℕ → ℝ × ℝ) (i : ℕ) : ℝ :=
  ((P i).1 - (hullStart n P).1) ^ 2 + ((P i).2 - (hullStart n P).2) ^ 2

/-- `sort_idx`, winding_surface.py 214. -/
noncomputable def hullSorted (n : ℕ) (P : ℕ → ℝ × ℝ) : List ℕ :=
  lexsort n (fun i => -hullDist n P i) (hullAngle n P)

open Classical in
/-- The loop of `keep_unique_angles`, winding_surface.py 223-239: an index is kept if its angle differs from the angle of the
index kept last. -/
noncomputable def keepNew (angle : ℕ → ℝ) : ℝ → List ℕ → List ℕ
  | _, [] => []
  | last, i :: l => if angle i ≠ last then i :: keepNew angle (angle i) l else keepNew angle last l

/-- `keep_unique_angles`, winding_surface.py 218-241. -/
noncomputable def keepUnique (angle : ℕ → ℝ) : List ℕ → List ℕ
  | [] => []
  | i :: l => i :: keepNew angle (angle i) l

/-- `kept_idx`, winding_surface.py 243. Its length is `M`. -/
noncomputable def hullKept (n : ℕ) (P : ℕ → ℝ × ℝ) : List ℕ := keepUnique (hullAngle n P) (hullSorted n P)

/-- `ccw`, winding_surface.py 253-257, on points. -/
def ccw (a b c : ℝ × ℝ) : ℝ := (b.1 - a.1) * (c.2 - a.2) - (c.1 - a.1) * (b.2 - a.2)

open Classical in
/-- The inner `while_loop`, winding_surface.py 266-274: the stack, top first. `v k` is the point `(r_sorted[k], z_sorted[k])`. -/
noncomputable def popStack (v : ℕ → ℝ × ℝ) (i : ℕ) : List ℕ → List ℕ
  | t :: s :: l => if ccw (v s) (v t) (v i) ≤ 0 then popStack v i (s :: l) else t :: s :: l
  | l => l

/-- The outer `while_loop`, winding_surface.py 250-251, 259-278: `i` runs from 2 to `M - 1`. -/
noncomputable def hullStack (v : ℕ → ℝ × ℝ) (m : ℕ) : List ℕ :=
  (List.range' 2 (m - 2)).foldl (fun stack i => i :: popStack v i stack) [1, 0]

/-- `r_sorted[k]`, `z_sorted[k]`, winding_surface.py 246-247. -/
noncomputable def hullPoint (n : ℕ) (P : ℕ → ℝ × ℝ) (k : ℕ) : ℝ × ℝ := P ((hullKept n P).getD k 0)

/-- `graham_scan`, winding_surface.py 200-283: the list of indices whose entry of `is_on_hull` is set.

`traced` says whether the function runs under a transformation of JAX (`jit`, `vmap`). Then `count` in line 240 has no concrete
value and is rejected as a slice size. Without, one remaining angle makes the assignment of two values to one entry
(line 250) fail. -/
noncomputable def grahamScan (traced : Bool) (n : ℕ) (P : ℕ → ℝ × ℝ) : Except PyErr (List ℕ) :=
  if traced then .error .typeError
  else if (hullKept n P).length < 2 then .error .valueError
  else .ok ((hullStack (hullPoint n P) (hullKept n P).length).map fun k => (hullKept n P).getD k 0)

/-! ## Generators -/

open Classical in
/-- The weights chosen by `rule` in `gen_winding_surface_arc`, winding_surface.py 423-430, for one cross section with `n`
vertices. `vmap` (line 430) runs the rule on traced values. -/
noncomputable def ruleWeights (rule : String) (n : ℕ) (P : ℕ → ℝ × ℝ) : Except PyErr (List ℝ) :=
  if rule = "self-intersection" then .ok ((List.range n).map (polygonWeight n P))
  else if rule = "hull" then
    (grahamScan true n P).map fun h => (List.range n).map fun j => if j ∈ h then 1 else 0
  else .error .valueError

/-- `jnp.linspace(0, 1/nfp, n)` (with end point), winding_surface.py 311 and 390: element `i`. -/
noncomputable def phiInterp (nfp n i : ℕ) : ℝ := (i : ℝ) * (1 / nfp / ((n : ℝ) - 1))

/-- The number of rows of `gamma_uniform` after trimming, winding_surface.py 311, 322-326 (390, 402-406): half of the interpolated
rows with stellarator symmetry. -/
def interpRows (stellsym : Bool) (nPhi torInterp : ℕ) : ℕ :=
  if stellsym then nPhi * torInterp / 2 else nPhi * torInterp

/-- The number of rows of `r_center`, winding_surface.py 324-337: the rows of `plasma_gamma[:len_phi]`, or all of them. -/
def centreRows (stellsym : Bool) (nPhi torInterp : ℕ) : ℕ :=
  if stellsym then min nPhi (nPhi * torInterp / 2) else nPhi

/-- The toroidal angle (in periods) of row `i` of `r_expand`, winding_surface.py 311, 326. -/
noncomputable def interpPhi (nfp nPhi torInterp i : ℕ) : ℝ := phiInterp nfp (nPhi * torInterp) i

/-- Row `i` of the centre used for row `i` of the cross sections, `z_expand - z_center[:, None]` in winding_surface.py 345: numpy
broadcasting pairs the rows one to one, repeats a single centre, and fails otherwise. -/
def centreRow (stellsym : Bool) (nPhi torInterp i : ℕ) : Except PyErr ℕ :=
  let a := interpRows stellsym nPhi torInterp
  let b := centreRows stellsym nPhi torInterp
  if b = 1 then .ok 0 else if a = b then .ok i else .error .typeError

/-- `theta_atan`, winding_surface.py 345-346, for the vertex `p` and the centre `c`. -/
noncomputable def thetaAtan (p c : ℝ × ℝ) : ℝ :=
  let t := Complex.arg ⟨p.1 - c.1, p.2 - c.2⟩ / π / 2
  if t > 0 then t else t + 1

end Verif
