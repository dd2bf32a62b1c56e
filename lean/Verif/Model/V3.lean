import Mathlib.Analysis.Real.Sqrt

/-!
# Vectors with three components and the vector helpers of `/repo/src/quadcoil/math_utils.py`

The last axis (length 3) of the arrays in the code. The other axes (grid points) are handled pointwise.
-/

namespace Verif

/-- The last axis of an `(n_phi, n_theta, 3)` array at one grid point. -/
@[ext] structure V3 where
  x : ℝ
  y : ℝ
  z : ℝ

namespace V3

/-- Elementwise `a + b`. -/
def add (a b : V3) : V3 := ⟨a.x + b.x, a.y + b.y, a.z + b.z⟩
/-- Elementwise `a - b`. -/
def sub (a b : V3) : V3 := ⟨a.x - b.x, a.y - b.y, a.z - b.z⟩
/-- Elementwise `-a`. -/
def neg (a : V3) : V3 := ⟨-a.x, -a.y, -a.z⟩
/-- Scalar (broadcast) multiplication `s * a`. -/
def smul (s : ℝ) (a : V3) : V3 := ⟨s * a.x, s * a.y, s * a.z⟩

instance : Add V3 := ⟨add⟩
instance : Sub V3 := ⟨sub⟩
instance : Neg V3 := ⟨neg⟩
instance : SMul ℝ V3 := ⟨smul⟩
instance : Zero V3 := ⟨⟨0, 0, 0⟩⟩

@[simp] theorem add_x (a b : V3) : (a + b).x = a.x + b.x := rfl
@[simp] theorem add_y (a b : V3) : (a + b).y = a.y + b.y := rfl
@[simp] theorem add_z (a b : V3) : (a + b).z = a.z + b.z := rfl
@[simp] theorem sub_x (a b : V3) : (a - b).x = a.x - b.x := rfl
@[simp] theorem sub_y (a b : V3) : (a - b).y = a.y - b.y := rfl
@[simp] theorem sub_z (a b : V3) : (a - b).z = a.z - b.z := rfl
@[simp] theorem neg_x (a : V3) : (-a).x = -a.x := rfl
@[simp] theorem neg_y (a : V3) : (-a).y = -a.y := rfl
@[simp] theorem neg_z (a : V3) : (-a).z = -a.z := rfl
@[simp] theorem smul_x (s : ℝ) (a : V3) : (s • a).x = s * a.x := rfl
@[simp] theorem smul_y (s : ℝ) (a : V3) : (s • a).y = s * a.y := rfl
@[simp] theorem smul_z (s : ℝ) (a : V3) : (s • a).z = s * a.z := rfl
@[simp] theorem zero_x : (0 : V3).x = 0 := rfl
@[simp] theorem zero_y : (0 : V3).y = 0 := rfl
@[simp] theorem zero_z : (0 : V3).z = 0 := rfl

/-- `jnp.sum(a * b, axis=-1)`. -/
def dot (a b : V3) : ℝ := a.x * b.x + a.y * b.y + a.z * b.z

/-- `jnp.cross(a, b, axis=-1)`. -/
def cross (a b : V3) : V3 := ⟨a.y * b.z - a.z * b.y, a.z * b.x - a.x * b.z, a.x * b.y - a.y * b.x⟩

/-- `jnp.sum(a**2, axis=-1)`. -/
def normSq (a : V3) : ℝ := a.x ^ 2 + a.y ^ 2 + a.z ^ 2

/-- `jnp.linalg.norm(a, axis=-1)`. -/
noncomputable def norm (a : V3) : ℝ := Real.sqrt (normSq a)

end V3

/-- `project_arr_coord`, math_utils.py 61-107, for one vector: dot products with the three given vectors. -/
def projectCoord (v u1 u2 u3 : V3) : V3 := ⟨V3.dot u1 v, V3.dot u2 v, V3.dot u3 v⟩

/-- `r_unit` of `project_arr_cylindrical`, math_utils.py 133-136: the `x, y` components divided by the norm of the *whole*
position vector (`jnp.linalg.norm(gamma, axis=2)`), `z` component 0. -/
noncomputable def rUnit (gamma : V3) : V3 := ⟨gamma.x / gamma.norm, gamma.y / gamma.norm, 0⟩

/-- `z_unit`, math_utils.py 139-140. -/
def zUnit : V3 := ⟨0, 0, 1⟩

/-- `phi_unit`, math_utils.py 142. -/
noncomputable def phiUnit (gamma : V3) : V3 := V3.cross zUnit (rUnit gamma)

/-- `project_arr_cylindrical`, math_utils.py 109-150, for one point and one vector. -/
noncomputable def projectCylindrical (gamma v : V3) : V3 := projectCoord v (rUnit gamma) (phiUnit gamma) zUnit

end Verif
