import Verif.Model.Current
import Mathlib.Algebra.BigOperators.Group.Finset.Sigma

/-!
# Coil force: `/repo/src/quadcoil/quantity/force.py`

The singular integration `_integrate_force`, its distance based predecessor `_integrate_force_legacy`, and the projections
made by `_force_cyl`. Arrays are functions of their indices together with their sizes. The integrand tensors of
`_force_integrands_xyz` are modelled at one grid point.
-/

namespace Verif

open Finset

/-- A 3 by 3 tensor; the first index selects the row and acts on `K(y)`. -/
structure M3 where
  r1 : V3
  r2 : V3
  r3 : V3

/-- Contraction of a vector with the first index. -/
def M3.act (v : V3) (T : M3) : V3 := v.x • T.r1 + v.y • T.r2 + v.z • T.r3

/-- `u[:, :, :, None] * v[:, :, None, :]`. -/
def M3.outer (u v : V3) : M3 := ⟨u.x • v, u.y • v, u.z • v⟩
/-- Elementwise sum. -/
def M3.add (S T : M3) : M3 := ⟨S.r1 + T.r1, S.r2 + T.r2, S.r3 + T.r3⟩
/-- Elementwise difference. -/
def M3.sub (S T : M3) : M3 := ⟨S.r1 - T.r1, S.r2 - T.r2, S.r3 - T.r3⟩
/-- Multiplication by a scalar. -/
def M3.scale (s : ℝ) (T : M3) : M3 := ⟨s • T.r1, s • T.r2, s • T.r3⟩

namespace CpParams

variable (P : CpParams)

/-- `div_n_x`, force.py 58-61. -/
noncomputable def divN (phi theta : ℝ) : ℝ :=
  V3.dot (P.grad1 phi theta) (P.unitNdash1 phi theta) + V3.dot (P.grad2 phi theta) (P.unitNdash2 phi theta)

/-- `n_x_dot_grad_n_x`, force.py 65-68. -/
noncomputable def nDotGradN (phi theta : ℝ) : V3 :=
  V3.dot (P.unitN phi theta) (P.grad1 phi theta) • P.unitNdash1 phi theta +
    V3.dot (P.unitN phi theta) (P.grad2 phi theta) • P.unitNdash2 phi theta

/-- `div_pi_x`, force.py 70-73. -/
noncomputable def divPi (phi theta : ℝ) : V3 :=
  -(P.divN phi theta • P.unitN phi theta + P.nDotGradN phi theta)

/-- `integrand_single` of `_force_integrands_xyz`, force.py 76-102, at one grid point. -/
noncomputable def forceSingle (c : List ℝ) (phi theta : ℝ) : M3 :=
  M3.scale 1e-7
    (M3.add
      (M3.add
        (M3.sub
          (M3.scale (P.divN phi theta) (M3.outer (P.unitN phi theta) (P.K c phi theta)))
          (M3.add (M3.outer (P.grad1 phi theta) (P.Kdash1 c phi theta)) (M3.outer (P.grad2 phi theta) (P.Kdash2 c phi theta))))
        (M3.outer (P.K c phi theta) (P.divPi phi theta)))
      (M3.add (M3.outer (P.Kdash1 c phi theta) (P.grad1 phi theta)) (M3.outer (P.Kdash2 c phi theta) (P.grad2 phi theta))))

/-- `integrand_double` of `_force_integrands_xyz`, force.py 103-112, at one grid point. -/
noncomputable def forceDouble (c : List ℝ) (phi theta : ℝ) : M3 :=
  M3.scale 1e-7
    (M3.sub (M3.outer (P.unitN phi theta) (P.K c phi theta)) (M3.outer (P.K c phi theta) (P.unitN phi theta)))

end CpParams

/-- The arrays given to `_integrate_force`, force.py 170-179. `gammaX` and `unitX` cover all field periods; their first index
is the toroidal one. -/
structure ForceArrays where
  nfp : ℕ
  nPhiX : ℕ
  nThetaX : ℕ
  gammaY : ℕ → ℕ → V3
  gammaX : ℕ → ℕ → V3
  unitX : ℕ → ℕ → V3
  KCyl : ℕ → ℕ → V3
  da : ℕ → ℕ → ℝ
  singleT : ℕ → ℕ → M3
  doubleT : ℕ → ℕ → M3

namespace ForceArrays

variable (A : ForceArrays)

/-- `diff` after the reshape to `(n_phiy, n_thetay, nfp, n_phix, n_thetax, 3)`, force.py 186, 192, 221: toroidal index
`fp * n_phix + p`. -/
def diff (i j fp p t : ℕ) : V3 := A.gammaY i j - A.gammaX (fp * A.nPhiX + p) t

/-- `self_mask`, force.py 197-206. -/
def selfMask (i j fp p t : ℕ) : Prop := fp = 0 ∧ p = i ∧ t = j

instance (i j fp p t : ℕ) : Decidable (selfMask i j fp p t) := by unfold selfMask; infer_instance

/-- `dist`, force.py 214. -/
noncomputable def dist (i j fp p t : ℕ) : ℝ :=
  Real.sqrt ((A.diff i j fp p t).normSq + 1e-10 * (if selfMask i j fp p t then 1 else 0))

/-- `double_layer_denom`, force.py 215-217. -/
def denom (i j fp p t : ℕ) : ℝ := V3.dot (A.diff i j fp p t) (A.unitX (fp * A.nPhiX + p) t)

/-- `single_kernel_da`, force.py 223-227. -/
noncomputable def singleKernel (i j fp p t : ℕ) : ℝ :=
  if selfMask i j fp p t then 0 else A.da p t / A.dist i j fp p t

/-- `double_kernel_da`, force.py 228-232. -/
noncomputable def doubleKernel (i j fp p t : ℕ) : ℝ :=
  if selfMask i j fp p t then 0 else A.da p t * A.denom i j fp p t / A.dist i j fp p t ^ 3

/-- One component of the two `einsum`s (`'ijklm,lmno->ijkno'`, then `'ijk,ijlkm->ijm'`), force.py 235-258, for the kernel
`ker` and the tensor `T`; `comp` selects the component `o`. -/
noncomputable def contract (ker : ℕ → ℕ → ℕ → ℝ) (T : ℕ → ℕ → M3) (K : V3) (comp : V3 → ℝ) : ℝ :=
  ∑ fp ∈ range A.nfp,
    (K.x * (∑ p ∈ range A.nPhiX, ∑ t ∈ range A.nThetaX, ker fp p t * comp (T p t).r1) +
     K.y * (∑ p ∈ range A.nPhiX, ∑ t ∈ range A.nThetaX, ker fp p t * comp (T p t).r2) +
     K.z * (∑ p ∈ range A.nPhiX, ∑ t ∈ range A.nThetaX, ker fp p t * comp (T p t).r3))

/-- `single_results + double_results` of `_integrate_force` (force.py 170-260), component `comp`. -/
noncomputable def integrateForce (i j : ℕ) (comp : V3 → ℝ) : ℝ :=
  A.contract (A.singleKernel i j) A.singleT (A.KCyl i j) comp + A.contract (A.doubleKernel i j) A.doubleT (A.KCyl i j) comp

/-- `dist` of `_integrate_force_legacy`, force.py 413. -/
noncomputable def distLegacy (i j fp p t : ℕ) : ℝ := (A.diff i j fp p t).norm

open Classical in
/-- `single_layer_kernel`, force.py 418. -/
noncomputable def singleLegacy (i j fp p t : ℕ) : ℝ :=
  if A.distLegacy i j fp p t ≠ 0 then 1 / A.distLegacy i j fp p t else 0

open Classical in
/-- `double_layer_kernel`, force.py 419. -/
noncomputable def doubleLegacy (i j fp p t : ℕ) : ℝ :=
  if A.distLegacy i j fp p t ≠ 0 then A.denom i j fp p t / A.distLegacy i j fp p t ^ 3 else 0

/-- The sum over the axes `(2, 3, 4, 5)` of `K * kernel * da * integrand`, force.py 428-448. -/
noncomputable def sumLegacy (ker : ℕ → ℕ → ℕ → ℝ) (T : ℕ → ℕ → M3) (K : V3) (comp : V3 → ℝ) : ℝ :=
  ∑ fp ∈ range A.nfp, ∑ p ∈ range A.nPhiX, ∑ t ∈ range A.nThetaX,
    (K.x * ker fp p t * A.da p t * comp (T p t).r1 + K.y * ker fp p t * A.da p t * comp (T p t).r2 +
      K.z * ker fp p t * A.da p t * comp (T p t).r3)

/-- `_integrate_force_legacy`, force.py 394-450. -/
noncomputable def integrateForceLegacy (i j : ℕ) (comp : V3 → ℝ) : ℝ :=
  A.sumLegacy (A.singleLegacy i j) A.singleT (A.KCyl i j) comp + A.sumLegacy (A.doubleLegacy i j) A.doubleT (A.KCyl i j) comp

end ForceArrays

/-- The two projections of an integrand tensor in `_force_cyl`, force.py 135-157: first the index acting on `K(y)`, then
(with `swapaxes`) the other index, both in the cylindrical frame of the *source* point. -/
noncomputable def projectTensor (gamma : V3) (T : M3) : M3 :=
  let p (u : V3) : V3 := M3.act u T
  ⟨projectCylindrical gamma (p (rUnit gamma)), projectCylindrical gamma (p (phiUnit gamma)),
    projectCylindrical gamma (p zUnit)⟩

/-- `_force_cyl`, force.py 116-168: the arrays with Cartesian `K(y)` and Cartesian tensors of one field period are projected
and integrated. -/
noncomputable def forceCyl (A : ForceArrays) (KY : ℕ → ℕ → V3) (i j : ℕ) (comp : V3 → ℝ) : ℝ :=
  ({ A with
    KCyl := fun i j => projectCylindrical (A.gammaY i j) (KY i j)
    singleT := fun p t => projectTensor (A.gammaX p t) (A.singleT p t)
    doubleT := fun p t => projectTensor (A.gammaX p t) (A.doubleT p t) } : ForceArrays).integrateForce i j comp

/-- The arrays `_force_cyl` computes from a parameter object, force.py 122-162: `qphi`, `qtheta` is the winding surface grid
(all field periods), `ephi`, `etheta` the evaluation grid. `n_phi_1fp = len(qphi) // nfp`; `da` is the area element of the
winding surface (given, its grid step is modelled in `Model/Field.lean`). Cartesian tensors, not yet projected. -/
noncomputable def forceArrays (P : CpParams) (c : List ℝ) (qphi qtheta ephi etheta : ℕ → ℝ) (nPhi nTheta : ℕ)
    (da : ℕ → ℕ → ℝ) : ForceArrays where
  nfp := P.nfp
  nPhiX := nPhi / P.nfp
  nThetaX := nTheta
  gammaY := fun i j => P.surf.gamma P.wdofs (ephi i) (etheta j)
  gammaX := fun p t => P.surf.gamma P.wdofs (qphi p) (qtheta t)
  unitX := fun p t => P.unitN (qphi p) (qtheta t)
  KCyl := fun i j => P.K c (ephi i) (etheta j)
  da := da
  singleT := fun p t => P.forceSingle c (qphi p) (qtheta t)
  doubleT := fun p t => P.forceDouble c (qphi p) (qtheta t)

/-- `_force_cyl` for a parameter object, force.py 116-168. -/
noncomputable def forceCylOf (P : CpParams) (c : List ℝ) (qphi qtheta ephi etheta : ℕ → ℝ) (nPhi nTheta : ℕ)
    (da : ℕ → ℕ → ℝ) (i j : ℕ) (comp : V3 → ℝ) : ℝ :=
  forceCyl (forceArrays P c qphi qtheta ephi etheta nPhi nTheta da) (fun i j => P.K c (ephi i) (etheta j)) i j comp

end Verif
