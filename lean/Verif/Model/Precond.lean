import Verif.Model.ImplicitDiff
import Verif.Model.Lse
import Mathlib.Data.Fin.Tuple.Sort
import Mathlib.LinearAlgebra.Matrix.Hermitian
import Mathlib.Data.Matrix.ColumnRowPartitioned

/-!
# The preconditioner of the implicit differentiation (`/repo/src/quadcoil/quadcoil.py` 844-913)

`jnp.linalg.svd` is external: the code uses the singular values and the right factor, which are parameters here.
`jnp.nan_to_num` is the identity on real numbers.
-/

namespace Verif

variable {n : ℕ}

/-- The two results of `jnp.linalg.svd` that the code uses. -/
structure Svd (n : ℕ) where
  s : Fin n → ℝ
  vh : Matrix (Fin n) (Fin n) ℝ

/-- What `jnp.linalg.svd(M)` promises (`U` restricted to the first `n` columns). -/
structure IsSvd {k : Type} [Fintype k] [DecidableEq k] (M : Matrix k (Fin n) ℝ) (d : Svd n) : Prop where
  nonneg : ∀ i, 0 ≤ d.s i
  orthogonal : d.vh * d.vh.transpose = 1
  product : ∃ U : Matrix k (Fin n) ℝ, U.transpose * U = 1 ∧ M = U * Matrix.diagonal d.s * d.vh

/-- `s_max = jnp.max(s, axis=1)` for one matrix, quadcoil.py 866. -/
noncomputable def sMax (s : Fin n → ℝ) : ℝ := jmax (List.ofFn s)

/-- `s_selection = s >= svtol * s_max[:, None]`, quadcoil.py 870, 892. -/
def svSelected (svtol : ℝ) (s : Fin n → ℝ) (i : Fin n) : Prop := svtol * sMax s ≤ s i

noncomputable instance (svtol : ℝ) (s : Fin n → ℝ) (i : Fin n) : Decidable (svSelected svtol s i) := Classical.dec _

/-- `VH.T @ (selection[:, None] * VH)`, quadcoil.py 886-887 and 895. -/
noncomputable def svProj (svtol : ℝ) (d : Svd n) : Matrix (Fin n) (Fin n) ℝ :=
  d.vh.transpose * (Matrix.diagonal (fun i => if svSelected svtol d.s i then (1 : ℝ) else 0) * d.vh)

/-- `VH.T @ ((~selection)[:, None] * VH)`, quadcoil.py 888 and 896. -/
noncomputable def svAnnil (svtol : ℝ) (d : Svd n) : Matrix (Fin n) (Fin n) ℝ :=
  d.vh.transpose * (Matrix.diagonal (fun i => if ¬ svSelected svtol d.s i then (1 : ℝ) else 0) * d.vh)

/-- The symmetrised Hessians of the three terms, quadcoil.py 857-860. -/
noncomputable def symmHess (H : Fin 3 → Matrix (Fin n) (Fin n) ℝ) (t : Fin 3) : Matrix (Fin n) (Fin n) ℝ :=
  (1 / 2 : ℝ) • (H t + (H t).transpose)

/-- `jnp.where(a > 0, b / a, 0)`, quadcoil.py 898-899. -/
noncomputable def scaleWhere (a b : ℝ) : ℝ := if 0 < a then b / a else 0

/-- Everything the linear solves use, quadcoil.py 871-910. -/
structure PrecondData (n : ℕ) where
  sAC : ℝ
  sBC : ℝ
  projC : Matrix (Fin n) (Fin n) ℝ
  annilC : Matrix (Fin n) (Fin n) ℝ
  projBC : Matrix (Fin n) (Fin n) ℝ
  annilBC : Matrix (Fin n) (Fin n) ℝ
  A : Matrix (Fin n) (Fin n) ℝ
  B : Matrix (Fin n) (Fin n) ℝ
  C : Matrix (Fin n) (Fin n) ℝ

/-- `hess_order = jnp.argsort(s_max)`, quadcoil.py 874. -/
noncomputable def hessOrder (svd : Fin 3 → Svd n) : Equiv.Perm (Fin 3) := Tuple.sort fun t => sMax (svd t).s

/-- `jnp.concatenate([proj_B, proj_C])`, quadcoil.py 891. -/
noncomputable def projStack (svtol : ℝ) (svd : Fin 3 → Svd n) : Matrix (Fin n ⊕ Fin n) (Fin n) ℝ :=
  Matrix.fromRows (svProj svtol (svd (hessOrder svd 1))) (svProj svtol (svd (hessOrder svd 2)))

/-- quadcoil.py 862-901: sorting of the three terms, projectors and scales. `H` are the Hessians of the three terms of `l_k`,
`svd` the decompositions of the symmetrised Hessians, `svdBC` that of the stacked projectors. -/
noncomputable def precondSetup (svtol : ℝ) (H : Fin 3 → Matrix (Fin n) (Fin n) ℝ) (svd : Fin 3 → Svd n) (svdBC : Svd n) :
    PrecondData n where
  sAC := scaleWhere (sMax (svd (hessOrder svd 0)).s) (sMax (svd (hessOrder svd 2)).s)
  sBC := scaleWhere (sMax (svd (hessOrder svd 1)).s) (sMax (svd (hessOrder svd 2)).s)
  projC := svProj svtol (svd (hessOrder svd 2))
  annilC := svAnnil svtol (svd (hessOrder svd 2))
  projBC := svProj svtol svdBC
  annilBC := svAnnil svtol svdBC
  A := symmHess H (hessOrder svd 0)
  B := symmHess H (hessOrder svd 1)
  C := symmHess H (hessOrder svd 2)

/-- `Ohess`, quadcoil.py 902-911. -/
noncomputable def PrecondData.ohess (d : PrecondData n) : Matrix (Fin n) (Fin n) ℝ :=
  precondHess d.sAC d.sBC d.projC d.annilC d.projBC d.annilBC d.A d.B d.C

/-- `vihp_b`, quadcoil.py 962-966. -/
noncomputable def PrecondData.rhs (d : PrecondData n) (gradxf : Fin n → ℝ) : Fin n → ℝ :=
  precondVec d.sAC d.sBC d.projC d.annilC d.projBC d.annilBC gradxf

/-- `hess_l_k = jnp.sum(hess_l_k_terms_val, axis=0)`, quadcoil.py 854. -/
def rawHess (H : Fin 3 → Matrix (Fin n) (Fin n) ℝ) : Matrix (Fin n) (Fin n) ℝ := ∑ t, H t

/-- `x_to_xp` of `_precondition_coordinate_by_matrix`, quadcoil.py 1074-1083; `d` is the decomposition of its argument. The function is
defined but its only call is commented out (833). -/
noncomputable def xToXp (d : Svd n) (x : Fin n → ℝ) : Fin n → ℝ := fun i => d.vh.mulVec x i * √(d.s i)

/-- `xp_to_x` of the same function, quadcoil.py 1084. Division by zero gives 0 here and infinity or NaN in the code. -/
noncomputable def xpToX (d : Svd n) (xp : Fin n → ℝ) : Fin n → ℝ := d.vh.transpose.mulVec fun i => xp i / √(d.s i)

end Verif
