import Verif.Model.Surface
import Mathlib.Data.Matrix.Mul
import Mathlib.Data.Matrix.Diagonal
import Mathlib.Analysis.SpecialFunctions.Complex.Arg

/-!
# Automatic winding surfaces: `/repo/src/quadcoil/winding_surface.py`

`graham_scan` and the rules choosing weights are in `Model/Hull.lean`.
-/

namespace Verif

open Real

/-! ## Crossing segments -/

/-- `denom`, winding_surface.py 134-136. -/
def lineDenom (p0 p1 p2 p3 : ℝ × ℝ) : ℝ := -(p3 - p2).1 * (p1 - p0).2 + (p1 - p0).1 * (p3 - p2).2

/-- `inv_denom`, winding_surface.py 138. -/
noncomputable def lineInvDenom (p0 p1 p2 p3 : ℝ × ℝ) : ℝ :=
  if lineDenom p0 p1 p2 p3 ≠ 0 then 1 / lineDenom p0 p1 p2 p3 else 0

/-- `get_line_intersection`, winding_surface.py 129-141. -/
def lineIntersection (p0 p1 p2 p3 : ℝ × ℝ) : Prop :=
  let s1 := p1 - p0
  let s2 := p3 - p2
  let s := (-s1.2 * (p0.1 - p2.1) + s1.1 * (p0.2 - p2.2)) * lineInvDenom p0 p1 p2 p3
  let t := (s2.1 * (p0.2 - p2.2) - s2.2 * (p0.1 - p2.1)) * lineInvDenom p0 p1 p2 p3
  s ≥ 0 ∧ s ≤ 1 ∧ t ≥ 0 ∧ t ≤ 1 ∧ lineDenom p0 p1 p2 p3 ≠ 0

/-! ## Polygons -/

/-- `p1_in = jnp.roll(p0_in, -1)`, winding_surface.py 152. `P` holds the `n` vertices. -/
def nextVertex (n : ℕ) (P : ℕ → ℝ × ℝ) (i : ℕ) : ℝ × ℝ := P ((i + 1) % n)

/-- `is_overlapping`, winding_surface.py 166-170. -/
def edgesOverlap (n a b : ℕ) : Prop := a = b ∨ a = (b + 1) % n ∨ (a + 1) % n = b

/-- `has_self_intersection` of edge `a`, winding_surface.py 158-179: the inner scan runs over all edges. -/
def edgeCrosses (n : ℕ) (P : ℕ → ℝ × ℝ) (a : ℕ) : Prop :=
  ∃ b < n, lineIntersection (P a) (nextVertex n P a) (P b) (nextVertex n P b) ∧ ¬ edgesOverlap n a b

open Classical in
/-- The outer scan, winding_surface.py 184-190: the weight emitted for edge `a`. The carry starts as 1 and is emitted after
the flip. -/
noncomputable def scanWeight (n : ℕ) (P : ℕ → ℝ × ℝ) : ℕ → ℝ
  | 0 => if edgeCrosses n P 0 then -1 else 1
  | a + 1 => if edgeCrosses n P (a + 1) then -scanWeight n P a else scanWeight n P a

open Classical in
/-- `polygon_self_intersection`, winding_surface.py 192-198: `jnp.roll(weight, 1)[j] = weight[(j - 1) mod n]`. -/
noncomputable def polygonWeight (n : ℕ) (P : ℕ → ℝ × ℝ) (j : ℕ) : ℝ :=
  if (scanWeight n P ((j + n - 1) % n) + 1) / 2 = 0 then 0 else 1

/-! ## Uniform offset -/

/-- `gen_rot_matrix(theta)` applied to a vector, winding_surface.py 65-69, 91. -/
noncomputable def rotMatrixApply (t : ℝ) (v : V3) : V3 := ⟨cos t * v.x - sin t * v.y, sin t * v.x + cos t * v.y, v.z⟩

/-- The sampled plasma surface: `plasma_gamma[i, j]` for `i < nPhi`, `j < nTheta`. -/
structure PlasmaGrid where
  nfp : ℕ
  nPhi : ℕ
  nTheta : ℕ
  gamma : ℕ → ℕ → V3

namespace PlasmaGrid

variable (G : PlasmaGrid)

/-- `delta_phi`, winding_surface.py 91-93: the last row is followed by the rotated first row. -/
noncomputable def deltaPhi (i j : ℕ) : V3 :=
  (if i + 1 < G.nPhi then G.gamma (i + 1) j else rotMatrixApply (2 * π / G.nfp) (G.gamma 0 j)) - G.gamma i j

/-- `delta_theta`, winding_surface.py 94: `jnp.roll(plasma_gamma, 1, axis=1)[:, j] = plasma_gamma[:, (j - 1) mod nTheta]`. -/
def deltaTheta (i j : ℕ) : V3 := G.gamma i ((j + G.nTheta - 1) % G.nTheta) - G.gamma i j

/-- `normal_approx`, winding_surface.py 95. -/
noncomputable def normalApprox (i j : ℕ) : V3 := V3.cross (G.deltaTheta i j) (G.deltaPhi i j)

/-- `unitnormal`, winding_surface.py 96. -/
noncomputable def unitnormalApprox (i j : ℕ) : V3 := (1 / (G.normalApprox i j).norm) • G.normalApprox i j

/-- The number of rows of `plasma_gamma_expand`, winding_surface.py 99-106. -/
def offsetRows (stellsym : Bool) : ℕ := if stellsym then G.nPhi / 2 else G.nPhi

/-- `plasma_gamma_expand`, winding_surface.py 102-106, for `unitnormal=None`. -/
noncomputable def offset (d : ℝ) (i j : ℕ) : V3 := G.gamma i j + d • G.unitnormalApprox i j

/-- `r_expand`, winding_surface.py 110. -/
noncomputable def rExpand (d : ℝ) (i j : ℕ) : ℝ := sqrt ((G.offset d i j).y ^ 2 + (G.offset d i j).x ^ 2)

/-- `phi_expand`, winding_surface.py 111: `jnp.arctan2(y, x)` is the argument of `x + i y`. -/
noncomputable def phiExpand (d : ℝ) (i j : ℕ) : ℝ := Complex.arg ⟨(G.offset d i j).x, (G.offset d i j).y⟩ / π / 2

end PlasmaGrid

/-! ## Least squares fit -/

/-- One sample to fit: angles, `r`, `z` and weight. -/
structure FitPoint where
  phi : ℝ
  theta : ℝ
  r : ℝ
  z : ℝ
  w : ℝ

namespace SurfaceShape

variable (S : SurfaceShape)

/-- `m_2_n_2`, surfacerzfourier_jax.py 447-449. -/
def m2n2 : List ℤ :=
  let l := List.zipWith (fun m n => m ^ 2 + n ^ 2) (surfMc S.mpol S.ntor ++ surfMs S.mpol S.ntor)
    (surfNc S.mpol S.ntor ++ surfNs S.mpol S.ntor)
  if S.stellsym then l else l ++ l

/-- The rows of `A_lstsq` (after weighting and `reshape(-1, ndof)`) with the entries of `b_lstsq` (after weighting and
`flatten`), winding_surface.py 28-45: every point gives an `r` row and a `z` row. -/
noncomputable def fitRows (pts : List FitPoint) : List (List ℝ × ℝ) :=
  pts.flatMap fun p =>
    [((S.rOperatorPadded 0 0 p.phi p.theta).map (· * p.w), p.r * p.w),
     ((S.zOperatorPadded 0 0 p.phi p.theta).map (· * p.w), p.z * p.w)]

/-- Number of coefficients: `A_lstsq.shape[-1]`, the length of `m_2_n_2`. -/
def fitSize : ℕ := S.m2n2.length

/-- `A_lstsq`. -/
noncomputable def fitMatrix (pts : List FitPoint) : Matrix (Fin (S.fitRows pts).length) (Fin S.fitSize) ℝ :=
  fun i k => (S.fitRows pts)[i].1.getD k 0

/-- `b_lstsq`. -/
noncomputable def fitRhs (pts : List FitPoint) : Fin (S.fitRows pts).length → ℝ := fun i => (S.fitRows pts)[i].2

/-- `lam`, winding_surface.py 47. -/
noncomputable def fitReg (lam : ℝ) : Matrix (Fin S.fitSize) (Fin S.fitSize) ℝ :=
  lam • Matrix.diagonal fun k : Fin S.fitSize => ((S.m2n2[k] : ℤ) : ℝ)

open Matrix in
/-- `x` is a result of `fit_surfacerzfourier`, winding_surface.py 12-61: a solution of the linear system given to
`safe_linear_solve`. The solver (lineax) is specified by the equation it solves. -/
def IsFit (lam : ℝ) (pts : List FitPoint) (x : Fin S.fitSize → ℝ) : Prop :=
  ((S.fitMatrix pts)ᵀ * S.fitMatrix pts + S.fitReg lam) *ᵥ x = (S.fitMatrix pts)ᵀ *ᵥ S.fitRhs pts

end SurfaceShape

/-! ## Arc length angles -/

/-- `segment_lengths[j]`, winding_surface.py 433-439: `jnp.pad(..., mode='wrap')` appends the first vertex. -/
noncomputable def segmentLength (n : ℕ) (P : ℕ → ℝ × ℝ) (j : ℕ) : ℝ :=
  sqrt (((nextVertex n P j).1 - (P j).1) ^ 2 + ((nextVertex n P j).2 - (P j).2) ^ 2)

/-- `arclengths[j]`, winding_surface.py 441: `jnp.cumsum`. -/
noncomputable def arclength (n : ℕ) (P : ℕ → ℝ × ℝ) : ℕ → ℝ
  | 0 => segmentLength n P 0
  | j + 1 => arclength n P j + segmentLength n P (j + 1)

/-- `theta_arc[j]`, winding_surface.py 442. -/
noncomputable def thetaArc (n : ℕ) (P : ℕ → ℝ × ℝ) (j : ℕ) : ℝ :=
  (arclength n P j - arclength n P 0) / arclength n P (n - 1)

/-! ## The winding surface of the problem -/

/-- The lengths involved in `y_to_qp`, quadcoil.py 429-444: `winding_surface_generator` is called with the symmetry of the
plasma surface and returns as many coefficients as `fit_surfacerzfourier` has columns; the surface object is built with
`stellsym`. Evaluating it multiplies its operator with the coefficients, which fails unless the sizes agree. -/
def generatedDofs (plasmaStellsym : Bool) (nfp mpol ntor : ℕ) : ℕ :=
  (SurfaceShape.mk nfp plasmaStellsym mpol ntor).fitSize

/-- Whether the generated winding surface can be evaluated: the row length of `dof_to_rz_op` of the new surface object equals
the number of coefficients it holds. -/
def windingUsable (stellsym plasmaStellsym : Bool) (nfp mpol ntor : ℕ) : Prop :=
  ∀ phi theta, ((SurfaceShape.mk nfp stellsym mpol ntor).rOperatorPadded 0 0 phi theta).length =
    generatedDofs plasmaStellsym nfp mpol ntor

end Verif
