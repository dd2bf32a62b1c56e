import Verif.Model.Wrapper
import Mathlib.Data.List.GetD

/-!
# Plots and saved grids: `/repo/src/quadcoil/plotting.py`

Drawing itself (matplotlib, pyvista) is not modelled.
-/

namespace Verif

/-! ## `plot_quantity` -/

/-- `np.linspace(lo, hi, n)`: element `k`. -/
noncomputable def linspaceEnd (lo hi : ℝ) (n k : ℕ) : ℝ := lo + k * ((hi - lo) / ((n : ℝ) - 1))

/-- `phi_i_vals`, `phi_j_vals`, plotting.py 55-56: element `k`. -/
noncomputable def plotAxis (phi range : ℝ) (n k : ℕ) : ℝ := linspaceEnd ((1 - range) * phi) ((1 + range) * phi) n k

/-- `phi_new`, plotting.py 75. Indices outside of the array are dropped, as JAX does. -/
def plotPhi (phi : List ℝ) (i j : ℕ) (x y : ℝ) : List ℝ := (phi.set i x).set j y

/-- Element 0 of a list, `IndexError` if it is empty. -/
def firstOf {α : Type} : List α → Except PyErr α
  | [] => .error .indexError
  | a :: _ => .ok a

/-- The function that `plot_quantity` plots in constraint mode, plotting.py 59-70. -/
noncomputable def plotConstraint {P : Type} [HasQp P] (reg : Registry P) (name type : String) (unit : UnitArg) (value : ℝ) :
    Except PyErr (P → Dofs → Val) := do
  let p ← parseConstraints reg [name] [type] [unit] [value] (some "approx") ⟨1e-10⟩
  if type = "=" then firstOf p.h else firstOf p.g

/-- The function that `plot_quantity` plots otherwise, plotting.py 72: `get_quantity` is called at evaluation. -/
noncomputable def plotValue {P : Type} (reg : Registry P) (name : String) (unit : ℝ) (qp : P) (dofs : Dofs) : Except PyErr Val := do
  let q ← getQuantity reg name
  .ok (Val.map (fun x => x / unit) (q.call qp dofs))

/-! ## Saved grids -/

/-- `a.ravel()` / `a.reshape(-1, 3)` of an array with `m` rows and `n` columns: row after row. -/
def ravelRows {β : Type} (m n : ℕ) (a : ℕ → ℕ → β) : List β :=
  (List.range m).flatMap fun i => (List.range n).map fun j => a i j

/-- A structured grid as given to pyvista: the first two dimensions, the points and the values. -/
structure VtkGrid (β γ : Type) where
  dims : ℕ × ℕ
  points : List β
  values : List γ

/-- `gamma_to_vtk`, plotting.py 174-185. -/
def gammaToVtk {β : Type} (m n : ℕ) (gamma : ℕ → ℕ → β) : VtkGrid β Unit :=
  ⟨(n, m), ravelRows m n gamma, []⟩

/-- `gamma_and_field_to_vtk`, plotting.py 204-216. -/
def gammaAndFieldToVtk {β γ : Type} (m n : ℕ) (gamma : ℕ → ℕ → β) (f : ℕ → ℕ → γ) : VtkGrid β γ :=
  ⟨(m, n), ravelRows m n gamma, ravelRows m n f⟩

/-- `gamma_and_scalar_field_to_vtk`, plotting.py 235-250. -/
def gammaAndScalarFieldToVtk {β γ : Type} (m n : ℕ) (gamma : ℕ → ℕ → β) (f : ℕ → ℕ → γ) : VtkGrid β γ :=
  ⟨(n, m), ravelRows m n gamma, ravelRows m n f⟩

/-- The file name, plotting.py 167-168 (195-196, 226-227). -/
def vtsName (name : List Char) : List Char :=
  if name.drop (name.length - 4) ≠ ['.', 'v', 't', 's'] then name ++ ['.', 'v', 't', 's'] else name

end Verif
