import Verif.Model.Winding
import Verif.Model.Hull

/-!
# The generators of winding surfaces: `/repo/src/quadcoil/winding_surface.py` 71-127 and 285-457

The samples given to `fit_surfacerzfourier` in the two steps of a generator, and its results. The fit itself is `IsFit` in
`Model/Winding.lean`. Arrays are written as lists of samples in the order of the flattened rows of the matrix.
-/

namespace Verif

open Real

/-! ## Uniform offset -/

namespace PlasmaGrid

variable (G : PlasmaGrid)

/-- `plasma_gamma_expand`, winding_surface.py 89-106: `unitnormal` is computed only if it is not given. -/
noncomputable def offsetWith (normals : Option (ℕ → ℕ → V3)) (d : ℝ) (i j : ℕ) : V3 :=
  match normals with
  | none => G.offset d i j
  | some u => G.gamma i j + d • u i j

/-- One sample of `gen_winding_surface_offset`, winding_surface.py 110-113: `theta_expand` is the grid of poloidal angles plus one
(line 112), and the weight is one (the default of `custom_weight`). -/
noncomputable def offsetSample (normals : Option (ℕ → ℕ → V3)) (d : ℝ) (i j : ℕ) : FitPoint :=
  let q := G.offsetWith normals d i j
  { phi := Complex.arg ⟨q.x, q.y⟩ / π / 2
    theta := (j : ℝ) * (1 / G.nTheta) + 1
    r := sqrt (q.y ^ 2 + q.x ^ 2)
    z := q.z
    w := 1 }

/-- The samples of `gen_winding_surface_offset`, winding_surface.py 98-113. -/
noncomputable def offsetSamples (normals : Option (ℕ → ℕ → V3)) (d : ℝ) (stellsym : Bool) : List FitPoint :=
  (List.range (G.offsetRows stellsym)).flatMap fun i => (List.range G.nTheta).map fun j => G.offsetSample normals d i j

end PlasmaGrid

/-- The shape of the generated surface: `nfp`, `stellsym`, `mpol` and `ntor` are arguments of the generators. -/
def generatedShape (G : PlasmaGrid) (stellsym : Bool) (mpol ntor : ℕ) : SurfaceShape := ⟨G.nfp, stellsym, mpol, ntor⟩

/-- `x` is a result of `gen_winding_surface_offset`, winding_surface.py 75-127: `lam_tikhonov=0.`. -/
def IsOffsetResult (G : PlasmaGrid) (normals : Option (ℕ → ℕ → V3)) (d : ℝ) (stellsym : Bool) (mpol ntor : ℕ)
    (x : Fin (generatedShape G stellsym mpol ntor).fitSize → ℝ) : Prop :=
  (generatedShape G stellsym mpol ntor).IsFit 0 (G.offsetSamples normals d stellsym) x

/-! ## Interpolated cross sections -/

/-- `(r_expand, z_expand)`, winding_surface.py 388-408, 421-422 (the same in 310-326, 341-342): row `i` and column `j` of the points of
the offset surface on the interpolated grid. -/
noncomputable def sectionPoint (S : SurfaceShape) (dofs : List ℝ) (nPhi nTheta torInterp polInterp i j : ℕ) : ℝ × ℝ :=
  let q := S.gamma dofs (interpPhi S.nfp nPhi torInterp i) ((j : ℝ) * (1 / (nTheta * polInterp : ℕ)))
  (sqrt (q.y ^ 2 + q.x ^ 2), q.z)

/-- The samples of the second fit of `gen_winding_surface_arc` for `rule='self-intersection'`, winding_surface.py 423-456. The other rule
fails (C100). -/
noncomputable def arcSamples (S : SurfaceShape) (dofs : List ℝ) (nPhi nTheta torInterp polInterp : ℕ) : List FitPoint :=
  (List.range (interpRows S.stellsym nPhi torInterp)).flatMap fun i => (List.range (nTheta * polInterp)).map fun j =>
    let P := sectionPoint S dofs nPhi nTheta torInterp polInterp i
    { phi := interpPhi S.nfp nPhi torInterp i
      theta := thetaArc (nTheta * polInterp) P j
      r := (P j).1
      z := (P j).2
      w := polygonWeight (nTheta * polInterp) P j }

/-- `x` is a result of `gen_winding_surface_arc`, winding_surface.py 368-457. -/
def IsArcResult (G : PlasmaGrid) (normals : Option (ℕ → ℕ → V3)) (d : ℝ) (stellsym : Bool) (mpol ntor torInterp polInterp : ℕ) (lam : ℝ)
    (x : Fin (generatedShape G stellsym mpol ntor).fitSize → ℝ) : Prop :=
  ∃ x0, IsOffsetResult G normals d stellsym mpol ntor x0 ∧
    (generatedShape G stellsym mpol ntor).IsFit lam
      (arcSamples (generatedShape G stellsym mpol ntor) (List.ofFn x0) G.nPhi G.nTheta torInterp polInterp) x

/-! ## Angles around a centre -/

/-- `(r_center, z_center)`, winding_surface.py 327-338: averages over one row of plasma points. -/
noncomputable def centrePoint (G : PlasmaGrid) (c : ℕ) : ℝ × ℝ :=
  (((List.range G.nTheta).map fun j => sqrt ((G.gamma c j).y ^ 2 + (G.gamma c j).x ^ 2)).sum / G.nTheta,
    ((List.range G.nTheta).map fun j => (G.gamma c j).z).sum / G.nTheta)

/-- Row `i` of the samples of the second fit of `gen_winding_surface_atan`, winding_surface.py 339-364. -/
noncomputable def atanRow (G : PlasmaGrid) (S : SurfaceShape) (dofs : List ℝ) (torInterp polInterp i c : ℕ) : List FitPoint :=
  (List.range (G.nTheta * polInterp)).map fun j =>
    let P := sectionPoint S dofs G.nPhi G.nTheta torInterp polInterp i
    { phi := interpPhi S.nfp G.nPhi torInterp i
      theta := thetaAtan (P j) (centrePoint G c)
      r := (P j).1
      z := (P j).2
      w := polygonWeight (G.nTheta * polInterp) P j }

/-- The samples of the second fit of `gen_winding_surface_atan`: the rows of centres must match the rows of the cross sections. -/
noncomputable def atanSamples (G : PlasmaGrid) (S : SurfaceShape) (dofs : List ℝ) (torInterp polInterp : ℕ) :
    Except PyErr (List FitPoint) := do
  let rows ← (List.range (interpRows S.stellsym G.nPhi torInterp)).mapM fun i => do
    let c ← centreRow S.stellsym G.nPhi torInterp i
    .ok (atanRow G S dofs torInterp polInterp i c)
  .ok rows.flatten

/-- `x` is a result of `gen_winding_surface_atan`, winding_surface.py 293-366. -/
def IsAtanResult (G : PlasmaGrid) (normals : Option (ℕ → ℕ → V3)) (d : ℝ) (stellsym : Bool) (mpol ntor torInterp polInterp : ℕ) (lam : ℝ)
    (x : Fin (generatedShape G stellsym mpol ntor).fitSize → ℝ) : Prop :=
  ∃ x0 pts, IsOffsetResult G normals d stellsym mpol ntor x0 ∧
    atanSamples G (generatedShape G stellsym mpol ntor) (List.ofFn x0) torInterp polInterp = .ok pts ∧
    (generatedShape G stellsym mpol ntor).IsFit lam pts x

/-! ## The generators as functions -/

/-- `x` is the solution returned by `safe_linear_solve`, math_utils.py 170-174: `AutoLinearSolver(well_posed=False)` takes a pseudo-inverse,
which gives the solution of least norm. Exact arithmetic: no singular values are cut off. -/
def SurfaceShape.IsLeastFit (S : SurfaceShape) (lam : ℝ) (pts : List FitPoint) (x : Fin S.fitSize → ℝ) : Prop :=
  S.IsFit lam pts x ∧ ∀ y, S.IsFit lam pts y → ∑ k, x k ^ 2 ≤ ∑ k, y k ^ 2

open Classical in
/-- `fit_surfacerzfourier` as a function, winding_surface.py 12-61. -/
noncomputable def SurfaceShape.fitSolve (S : SurfaceShape) (lam : ℝ) (pts : List FitPoint) : Fin S.fitSize → ℝ :=
  if h : ∃ x, S.IsLeastFit lam pts x then h.choose else 0

/-- The array `plasma_gamma` as a grid. -/
def gridOf (nfp : ℕ) (points : List (List V3)) : PlasmaGrid where
  nfp := nfp
  nPhi := points.length
  nTheta := (points.headD []).length
  gamma i j := (points.getD i []).getD j 0

/-- `gen_winding_surface_offset` without `unitnormal`, winding_surface.py 75-127. -/
noncomputable def offsetGenerator (points : List (List V3)) (d : ℝ) (nfp : ℕ) (stellsym : Bool) (mpol ntor : ℕ) : List ℝ :=
  let G := gridOf nfp points
  List.ofFn ((generatedShape G stellsym mpol ntor).fitSolve 0 (G.offsetSamples none d stellsym))

/-- `gen_winding_surface_arc` without `unitnormal`, winding_surface.py 368-457. -/
noncomputable def arcGenerator (torInterp polInterp : ℕ) (lam : ℝ) (points : List (List V3)) (d : ℝ) (nfp : ℕ) (stellsym : Bool)
    (mpol ntor : ℕ) : List ℝ :=
  let G := gridOf nfp points
  let S := generatedShape G stellsym mpol ntor
  List.ofFn (S.fitSolve lam (arcSamples S (offsetGenerator points d nfp stellsym mpol ntor) G.nPhi G.nTheta torInterp polInterp))

/-- The default of `winding_surface_generator`, quadcoil.py 94, with the defaults in winding_surface.py 374-378. -/
noncomputable def defaultGenerator : List (List V3) → ℝ → ℕ → Bool → ℕ → ℕ → List ℝ := arcGenerator 2 2 (1 / 100000)

end Verif
