import Verif.Model.Surface
import Verif.Model.Quantity
import Mathlib.Analysis.SpecialFunctions.Pow.Real

/-!
# Current potential and surface current

`diff_helper`, `Kdash_helper` of `/repo/src/quadcoil/quadcoil_params.py`; `grad_helper`, `unitnormaldash`,
`dga_inv_n_dashb` of `/repo/src/quadcoil/surfacerzfourier_jax.py`; `_K`, `_K2`, `_K_theta` of
`/repo/src/quadcoil/quantity/current.py`; `_Phi`, `_Phi_with_net_current` of `/repo/src/quadcoil/quantity/dipole.py`;
`_K_dot_grad_K` of `/repo/src/quadcoil/quantity/curvature.py`.

Everything is evaluated at one grid point `(phi, theta)`. Diagonal matrices are represented by their diagonal.
-/

namespace Verif

open Real

/-- The part of a parameter object (`QuadcoilParams`, quadcoil_params.py 134-166) needed for the current: the winding
surface (`eval_surface` has the same shape and coefficients, only another grid), net currents and the resolution of the
current potential. -/
structure CpParams where
  surf : SurfaceShape
  wdofs : List ℝ
  G : ℝ
  I : ℝ
  mpol : ℕ
  ntor : ℕ
  stellsym : Bool

/-- `trig_choice` of `diff_helper`, quadcoil_params.py 393-398 (a scalar 1, here repeated, in the symmetric case). -/
def trigChoice (stellsym : Bool) (nHarmonic : ℕ) : List ℤ :=
  if stellsym then List.replicate nHarmonic 1
  else (List.replicate (nHarmonic / 2) 1 ++ List.replicate (nHarmonic / 2) (-1)) ++ [-1]

/-- `sin_or_cos`, math_utils.py 16-32. -/
noncomputable def sinOrCos (x : ℝ) (mode : ℤ) : ℝ := if mode = 1 then sin x else cos x

namespace CpParams

variable (P : CpParams)

/-- `nfp`, quadcoil_params.py 62-64. -/
def nfp : ℕ := P.surf.nfp

/-- The triples `(cp_m, cp_n, trig_choice)`, one for each coefficient. -/
def rows : List (ℤ × ℤ × ℤ) :=
  let mn := makeMn P.mpol P.ntor P.stellsym
  mn.1.zip (mn.2.zip (trigChoice P.stellsym mn.1.length))

/-- The argument of the trigonometric functions, quadcoil_params.py 389-390 and 407-408. -/
noncomputable def angle (phi theta : ℝ) (r : ℤ × ℤ × ℤ) : ℝ :=
  (r.1 : ℝ) * (π * 2 * theta) - ((r.2.1 : ℝ) * P.nfp) * (π * 2 * phi)

/-- `trig_m_i_n_i`, quadcoil_params.py 406-410. -/
noncomputable def trig (phi theta : ℝ) : List ℝ := P.rows.map fun r => sinOrCos (P.angle phi theta r) r.2.2

/-- `trig_diff_m_i_n_i`, quadcoil_params.py 413-417. -/
noncomputable def trigDiff (phi theta : ℝ) : List ℝ := P.rows.map fun r => sinOrCos (P.angle phi theta r) (-r.2.2)

/-- `partial_theta`, quadcoil_params.py 419. -/
noncomputable def partialTheta : List ℝ := P.rows.map fun r => (r.1 : ℝ) * r.2.2 * 2 * π

/-- `partial_phi`, quadcoil_params.py 420. -/
noncomputable def partialPhi : List ℝ := P.rows.map fun r => -(r.2.1 : ℝ) * r.2.2 * P.nfp * 2 * π

/-- `partial_theta_theta`, quadcoil_params.py 421. -/
noncomputable def partialThetaTheta : List ℝ := P.rows.map fun r => -(r.1 : ℝ) ^ 2 * (2 * π) ^ 2

/-- `partial_phi_phi`, quadcoil_params.py 422. -/
noncomputable def partialPhiPhi : List ℝ := P.rows.map fun r => -((r.2.1 : ℝ) * P.nfp) ^ 2 * (2 * π) ^ 2

/-- `partial_phi_theta`, quadcoil_params.py 423. -/
noncomputable def partialPhiTheta : List ℝ := P.rows.map fun r => (r.2.1 : ℝ) * P.nfp * r.1 * (2 * π) ^ 2

/-- `row @ diagonal`. -/
noncomputable def mulDiag (row diag : List ℝ) : List ℝ := List.zipWith (· * ·) row diag

/-- `trig_diff_m_i_n_i @ partial_phi`. -/
noncomputable def opPhi (phi theta : ℝ) : List ℝ := mulDiag (P.trigDiff phi theta) P.partialPhi
/-- `trig_diff_m_i_n_i @ partial_theta`. -/
noncomputable def opTheta (phi theta : ℝ) : List ℝ := mulDiag (P.trigDiff phi theta) P.partialTheta
/-- `trig_m_i_n_i @ partial_phi_phi`. -/
noncomputable def opPhiPhi (phi theta : ℝ) : List ℝ := mulDiag (P.trig phi theta) P.partialPhiPhi
/-- `trig_m_i_n_i @ partial_phi_theta`. -/
noncomputable def opPhiTheta (phi theta : ℝ) : List ℝ := mulDiag (P.trig phi theta) P.partialPhiTheta
/-- `trig_m_i_n_i @ partial_theta_theta`. -/
noncomputable def opThetaTheta (phi theta : ℝ) : List ℝ := mulDiag (P.trig phi theta) P.partialThetaTheta

/-- `@ phi_mn` for a row of numbers. -/
noncomputable def app (row c : List ℝ) : ℝ := (List.zipWith (· * ·) row c).sum

/-- `@ phi_mn` for a row of vectors. -/
noncomputable def appV (row : List V3) (c : List ℝ) : V3 :=
  ⟨app (row.map V3.x) c, app (row.map V3.y) c, app (row.map V3.z) c⟩

/-- `_Phi`, dipole.py 10-23. -/
noncomputable def Phi (c : List ℝ) (phi theta : ℝ) : ℝ := app (P.trig phi theta) c

/-- `_Phi_with_net_current`, dipole.py 27-32. -/
noncomputable def PhiNet (c : List ℝ) (phi theta : ℝ) : ℝ := P.Phi c phi theta + phi * P.G + theta * P.I

/-- `gammadash1`. -/
noncomputable def dg1 (phi theta : ℝ) : V3 := P.surf.gammadash P.wdofs 1 0 phi theta
/-- `gammadash2`. -/
noncomputable def dg2 (phi theta : ℝ) : V3 := P.surf.gammadash P.wdofs 0 1 phi theta
/-- `gammadash1dash1`. -/
noncomputable def dg11 (phi theta : ℝ) : V3 := P.surf.gammadash P.wdofs 2 0 phi theta
/-- `gammadash1dash2`. -/
noncomputable def dg12 (phi theta : ℝ) : V3 := P.surf.gammadash P.wdofs 1 1 phi theta
/-- `gammadash2dash2`. -/
noncomputable def dg22 (phi theta : ℝ) : V3 := P.surf.gammadash P.wdofs 0 2 phi theta
/-- `normal`. -/
noncomputable def N (phi theta : ℝ) : V3 := V3.cross (P.dg1 phi theta) (P.dg2 phi theta)
/-- `inv_normN_prime_2d` (`norm_helper`, math_utils.py 35-59). -/
noncomputable def invN (phi theta : ℝ) : ℝ := 1 / (P.N phi theta).norm

/-- `grad1` of `grad_helper`, surfacerzfourier_jax.py 226-243. -/
noncomputable def grad1 (phi theta : ℝ) : V3 :=
  (1 / (P.N phi theta).normSq) • V3.cross (P.dg2 phi theta) (P.N phi theta)

/-- `grad2` of `grad_helper`, surfacerzfourier_jax.py 226-243. -/
noncomputable def grad2 (phi theta : ℝ) : V3 :=
  (1 / (P.N phi theta).normSq) • V3.cross (P.dg1 phi theta) (-P.N phi theta)

/-- `normaldash1`, surfacerzfourier_jax.py 304-307. -/
noncomputable def normaldash1 (phi theta : ℝ) : V3 :=
  V3.cross (P.dg11 phi theta) (P.dg2 phi theta) + V3.cross (P.dg1 phi theta) (P.dg12 phi theta)

/-- `normaldash2`, surfacerzfourier_jax.py 310-313. -/
noncomputable def normaldash2 (phi theta : ℝ) : V3 :=
  V3.cross (P.dg12 phi theta) (P.dg2 phi theta) + V3.cross (P.dg1 phi theta) (P.dg22 phi theta)

/-- `inv_normN_prime_2d_dash1`, surfacerzfourier_jax.py 321-324. -/
noncomputable def invNdash1 (phi theta : ℝ) : ℝ :=
  -V3.dot (P.N phi theta) (P.normaldash1 phi theta) / (P.N phi theta).normSq ^ (1.5 : ℝ)

/-- `inv_normN_prime_2d_dash2`, surfacerzfourier_jax.py 321-325. -/
noncomputable def invNdash2 (phi theta : ℝ) : ℝ :=
  -V3.dot (P.N phi theta) (P.normaldash2 phi theta) / (P.N phi theta).normSq ^ (1.5 : ℝ)

/-- `dg1_inv_n_dash1`, surfacerzfourier_jax.py 328. -/
noncomputable def dg1InvNdash1 (phi theta : ℝ) : V3 :=
  P.invN phi theta • P.dg11 phi theta + P.invNdash1 phi theta • P.dg1 phi theta
/-- `dg1_inv_n_dash2`, surfacerzfourier_jax.py 330. -/
noncomputable def dg1InvNdash2 (phi theta : ℝ) : V3 :=
  P.invN phi theta • P.dg12 phi theta + P.invNdash2 phi theta • P.dg1 phi theta
/-- `dg2_inv_n_dash1`, surfacerzfourier_jax.py 332. -/
noncomputable def dg2InvNdash1 (phi theta : ℝ) : V3 :=
  P.invN phi theta • P.dg12 phi theta + P.invNdash1 phi theta • P.dg2 phi theta
/-- `dg2_inv_n_dash2`, surfacerzfourier_jax.py 334. -/
noncomputable def dg2InvNdash2 (phi theta : ℝ) : V3 :=
  P.invN phi theta • P.dg22 phi theta + P.invNdash2 phi theta • P.dg2 phi theta

/-- `unitnormal`, surfacerzfourier_jax.py 199-201. -/
noncomputable def unitN (phi theta : ℝ) : V3 := (1 / (P.N phi theta).norm) • P.N phi theta

/-- `unitnormaldash1`, surfacerzfourier_jax.py 247-277. -/
noncomputable def unitNdash1 (phi theta : ℝ) : V3 :=
  V3.cross (P.dg1InvNdash1 phi theta) (P.dg2 phi theta) +
    V3.cross (P.invN phi theta • P.dg1 phi theta) (P.dg12 phi theta)

/-- `unitnormaldash2`, surfacerzfourier_jax.py 247-277. -/
noncomputable def unitNdash2 (phi theta : ℝ) : V3 :=
  V3.cross (P.dg1InvNdash2 phi theta) (P.dg2 phi theta) +
    V3.cross (P.invN phi theta • P.dg1 phi theta) (P.dg22 phi theta)

/-- `b_K`, current.py 46-49. -/
noncomputable def bK (phi theta : ℝ) : List V3 :=
  List.zipWith (fun p t => P.invN phi theta • (p • P.dg2 phi theta - t • P.dg1 phi theta))
    (P.opPhi phi theta) (P.opTheta phi theta)

/-- `c_K`, current.py 50-53. -/
noncomputable def cK (phi theta : ℝ) : V3 :=
  P.invN phi theta • (P.G • P.dg2 phi theta - P.I • P.dg1 phi theta)

/-- `_K`, current.py 9-54. -/
noncomputable def K (c : List ℝ) (phi theta : ℝ) : V3 := appV (P.bK phi theta) c + P.cK phi theta

/-- `_K2`, current.py 58-59. -/
noncomputable def K2 (c : List ℝ) (phi theta : ℝ) : ℝ := (P.K c phi theta).normSq

/-- `Kdash1_sv_op`, quadcoil_params.py 314-329. -/
noncomputable def Kdash1Op (phi theta : ℝ) : List V3 :=
  List.zipWith (fun a b =>
      a.1 • P.dg2InvNdash1 phi theta
        + (1 / (P.N phi theta).norm) • (a.2 • P.dg2 phi theta)
        - b.1 • P.dg1InvNdash1 phi theta
        - (1 / (P.N phi theta).norm) • (b.2 • P.dg1 phi theta))
    ((P.opPhi phi theta).zip (P.opPhiPhi phi theta)) ((P.opTheta phi theta).zip (P.opPhiTheta phi theta))

/-- `Kdash2_sv_op`, quadcoil_params.py 298-313. -/
noncomputable def Kdash2Op (phi theta : ℝ) : List V3 :=
  List.zipWith (fun a b =>
      a.1 • P.dg2InvNdash2 phi theta
        + (1 / (P.N phi theta).norm) • (a.2 • P.dg2 phi theta)
        - b.1 • P.dg1InvNdash2 phi theta
        - (1 / (P.N phi theta).norm) • (b.2 • P.dg1 phi theta))
    ((P.opPhi phi theta).zip (P.opPhiTheta phi theta)) ((P.opTheta phi theta).zip (P.opThetaTheta phi theta))

/-- `Kdash1_const`, quadcoil_params.py 334-336. -/
noncomputable def Kdash1Const (phi theta : ℝ) : V3 :=
  P.G • P.dg2InvNdash1 phi theta - P.I • P.dg1InvNdash1 phi theta

/-- `Kdash2_const`, quadcoil_params.py 337-339. -/
noncomputable def Kdash2Const (phi theta : ℝ) : V3 :=
  P.G • P.dg2InvNdash2 phi theta - P.I • P.dg1InvNdash2 phi theta

/-- `Kdash1`, curvature.py 35 (and force.py 52). -/
noncomputable def Kdash1 (c : List ℝ) (phi theta : ℝ) : V3 := appV (P.Kdash1Op phi theta) c + P.Kdash1Const phi theta

/-- `Kdash2`, curvature.py 36 (and force.py 53). -/
noncomputable def Kdash2 (c : List ℝ) (phi theta : ℝ) : V3 := appV (P.Kdash2Op phi theta) c + P.Kdash2Const phi theta

/-- `_K_dot_grad_K`, curvature.py 9-40. -/
noncomputable def KdotGradK (c : List ℝ) (phi theta : ℝ) : V3 :=
  let termA := (app (P.opPhi phi theta) c + P.G) • P.Kdash2 c phi theta
  let termB := (app (P.opTheta phi theta) c + P.I) • P.Kdash1 c phi theta
  P.invN phi theta • (termA - termB)

/-- `_K_theta`, current.py 63-97. Without stellarator symmetry it evaluates `jnp.repeat([1,-1], n_harmonic//2)`; `jnp.repeat`
accepts arrays and scalars only and raises `TypeError` for a list. (In the symmetric case the locally computed `partial_phi`
is the one of `diff_helper`.) -/
noncomputable def KTheta (c : List ℝ) (phi theta : ℝ) : Except PyErr ℝ :=
  if P.stellsym then .ok (app (P.opPhi phi theta) c + P.G)
  else .error .typeError

end CpParams

end Verif
