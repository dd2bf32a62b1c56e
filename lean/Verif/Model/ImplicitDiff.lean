import Mathlib.Analysis.Calculus.FDeriv.Symmetric
import Mathlib.LinearAlgebra.Matrix.NonsingularInverse
import Mathlib.Analysis.InnerProductSpace.PiL2

/-!
# Differentiation of the metrics (`/repo/src/quadcoil/quadcoil.py` 757-1008) and `safe_linear_solve`

`jacrev` and `jvp` are true derivatives (`fderiv`), the spaces of unknowns and of inputs are any normed spaces.
`jnp.nan_to_num` is the identity on real numbers.
-/

namespace Verif

section
variable {X Y : Type} [NormedAddCommGroup X] [NormedSpace ℝ X] [NormedAddCommGroup Y] [NormedSpace ℝ Y]

/-- The equation that `vihp` solves, quadcoil.py 954-960 and 974-978: `hess_l_k @ vihp = grad_x_f`, written against an
arbitrary direction `w`. `l` is the (augmented) Lagrangian, `F` the metric. -/
def SolvesHessian (l F : X → Y → ℝ) (x : X) (y : Y) (vihp : X) : Prop :=
  ∀ w, fderiv ℝ (fun x1 => fderiv ℝ (fun x2 => l x2 y) x1 w) x vihp = fderiv ℝ (fun x1 => F x1 y) x w

/-- The reported gradient in direction `dy`, quadcoil.py 999-1004:
`-jvp(grad_y_l_k, x, vihp) + grad_y_f`. -/
noncomputable def reportedGrad (l F : X → Y → ℝ) (x : X) (y : Y) (vihp : X) (dy : Y) : ℝ :=
  -(fderiv ℝ (fun x1 => fderiv ℝ (fun y1 => l x1 y1) y dy) x vihp) + fderiv ℝ (fun y1 => F x y1) y dy

/-- The three terms of the augmented Lagrangian used for differentiation, quadcoil.py 799-818: `l_k_terms`. `f`, `g`, `h` are
the scaled objective and constraints as functions of the unknowns and of the differentiable inputs; `mask` is `gplus_mask`
applied to one constraint. -/
noncomputable def lkTerms {m p : ℕ} (f : X → Y → ℝ) (g : X → Y → Fin p → ℝ) (h : X → Y → Fin m → ℝ)
    (mask : ℝ → ℝ → ℝ → ℝ) (mu : Fin p → ℝ) (lam : Fin m → ℝ) (c : ℝ) (x : X) (y : Y) : Fin 3 → ℝ :=
  ![f x y,
    ∑ i, lam i * h x y i + ∑ j, mu j * mask (g x y j) (mu j) c,
    c / 2 * (∑ i, h x y i ^ 2 + ∑ j, mask (g x y j) (mu j) c ^ 2)]

/-- `l_k`, quadcoil.py 820: the sum of the three terms, at the final multipliers and penalty weight of the solver. -/
noncomputable def lk {m p : ℕ} (f : X → Y → ℝ) (g : X → Y → Fin p → ℝ) (h : X → Y → Fin m → ℝ)
    (mask : ℝ → ℝ → ℝ → ℝ) (mu : Fin p → ℝ) (lam : Fin m → ℝ) (c : ℝ) (x : X) (y : Y) : ℝ :=
  ∑ t, lkTerms f g h mask mu lam c x y t

end

/-- The total objective as a function of the unknowns and the weights (wrapper.py 254-262). -/
noncomputable def weightedObjective {X : Type} {n : ℕ} (f : Fin n → X → ℝ) (x : X) (w : Fin n → ℝ) : ℝ := ∑ i, w i * f i x

/-- The metric `'f_obj'` as a function of the unknowns and the weights, quadcoil.py 942-946: `f_obj` was built from
`y_dict_current` (quadcoil.py 535), so the weights are the ones at which the problem was set up and not the argument. -/
noncomputable def fObjMetric {X : Type} {n : ℕ} (f : Fin n → X → ℝ) (wSetup : Fin n → ℝ) (x : X) (_w : Fin n → ℝ) : ℝ :=
  weightedObjective f x wSetup

section
variable {n : ℕ}

/-- The Euclidean norm `jnp.linalg.norm` of a vector. -/
noncomputable def norm2 (v : Fin n → ℝ) : ℝ := Real.sqrt (∑ i, v i ^ 2)

/-- `vihp = jnp.where(hess_err < Ohess_err, vihp_raw, vihp_precond)`, quadcoil.py 990-994. -/
noncomputable def chooseVihp (hess : Matrix (Fin n) (Fin n) ℝ) (gradxf raw precond : Fin n → ℝ) : Fin n → ℝ :=
  if norm2 (hess.mulVec raw - gradxf) < norm2 (hess.mulVec precond - gradxf) then raw else precond

/-- The preconditioner applied to a vector, quadcoil.py 962-966. -/
noncomputable def precondVec (sAC sBC : ℝ) (projC annilC projBC annilBC : Matrix (Fin n) (Fin n) ℝ) (b : Fin n → ℝ) :
    Fin n → ℝ :=
  sAC • (annilBC * annilC).mulVec b + sBC • (projBC * annilC).mulVec b + projC.mulVec b

/-- `Ohess = OA + OB + OC`, quadcoil.py 902-910. -/
noncomputable def precondHess (sAC sBC : ℝ) (projC annilC projBC annilBC A B C : Matrix (Fin n) (Fin n) ℝ) :
    Matrix (Fin n) (Fin n) ℝ :=
  let OC := C
  let OB := sBC • (projBC * annilC * B) + projC * B
  let OA := sAC • (annilBC * annilC * A) + sBC • (projBC * annilC * A) + projC * A
  OA + OB + OC

/-- `safe_linear_solve_bwd`, math_utils.py 179-194. `v` is the result of the transposed solve, `x` the saved solution.
Returns the cotangents for `A` and `b`. -/
def safeSolveBwd (x v : Fin n → ℝ) : Matrix (Fin n) (Fin n) ℝ × (Fin n → ℝ) :=
  (-Matrix.of fun i j => v i * x j, v)

end

end Verif
