import Verif.Spec.Listing

/-!
# The mirror image of a device
-/

namespace Verif

/-- Reflection at the plane `z = 0`. -/
def mirrorZ (v : V3) : V3 := ⟨v.x, v.y, -v.z⟩

/-- The number of coefficients of `R`, which come first. -/
def SurfaceShape.numR (S : SurfaceShape) : ℕ :=
  if S.stellsym then 1 + (S.ntor + S.mpol * (2 * S.ntor + 1)) else 1 + 2 * (S.ntor + S.mpol * (2 * S.ntor + 1))

/-- The coefficients of the mirror image of a surface: those of `Z` change sign. -/
def SurfaceShape.mirrorDofs (S : SurfaceShape) (dofs : List ℝ) : List ℝ := dofs.take S.numR ++ (dofs.drop S.numR).map fun x => -x

/-- The mirror image of both surfaces. The grids, the net currents and the plasma field relative to the normal of the surface stay. -/
def FieldProblem.mirrored (Q : FieldProblem) : FieldProblem :=
  { Q with
    cp := { Q.cp with wdofs := Q.cp.surf.mirrorDofs Q.cp.wdofs }
    plasma := { Q.plasma with dofs := Q.plasma.shape.mirrorDofs Q.plasma.dofs } }

/-- The entries of a flattened field of vectors in which the third component changes sign. -/
def mirrorEntries : List ℝ → List ℝ
  | x :: y :: z :: l => x :: y :: -z :: mirrorEntries l
  | l => l

/-- The vector quantities that behave like the current, in Cartesian or cylindrical components. -/
def mirrorVectors : List String := ["K", "K_dot_grad_K", "K_dot_grad_K_cyl"]

/-- A value in the mirror image: vectors are reflected, the magnetic field is reflected and reversed. -/
def mirroredValue (name : String) (v : Val) : Val :=
  if name ∈ mirrorVectors then .array (mirrorEntries v.entries)
  else if name = "winding_surface_B" then .array ((mirrorEntries v.entries).map fun x => -x)
  else v

/-- The mirror image of a call. A generated winding surface is generated with the opposite distance. -/
noncomputable def CallArgs.mirrored (a : CallArgs) : CallArgs :=
  { a with
    plasmaDofs := a.plasmaShape.mirrorDofs a.plasmaDofs
    windingDofs := a.windingDofs.map fun w => SurfaceShape.mirrorDofs ⟨a.nfp, a.windingStellsym, a.windingMpol, a.windingNtor⟩ w
    plasmaCoilDistance := a.plasmaCoilDistance.map fun d => -d }

/-- The outputs of the mirror image. -/
def mirroredOut (out : List (String × MetricOut Val)) : List (String × MetricOut Val) :=
  out.map fun e => (e.1, { e.2 with value := mirroredValue e.1 e.2.value })

/-- Both calls fail in the same way, or both do not stop, or they return the same potential, and outputs that are mirror images. The results of
the solver are the same up to the order of the constraints. -/
inductive MirroredResults : Except PyErr (Option CallOut) → Except PyErr (Option CallOut) → Prop
  | error (e : PyErr) : MirroredResults (.error e) (.error e)
  | none : MirroredResults (.ok none) (.ok none)
  | some {out : List (String × MetricOut Val)} {qp : FieldProblem} {d : Dofs} {r' r : SolveResults} (h : r'.SameUpToOrder r) :
      MirroredResults (.ok (some ⟨mirroredOut out, qp.mirrored, d, r'⟩)) (.ok (some ⟨out, qp, d, r⟩))

end Verif
