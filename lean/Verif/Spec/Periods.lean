import Verif.Model.Problem

/-! # A device described with fewer, longer field periods -/

namespace Verif

/-- `N` copies of a toroidal grid, each shifted by `s` against the one before. -/
def shiftedCopies (N : ℕ) (s : ℝ) (l : List ℝ) : List ℝ := (List.range N).flatMap fun k : ℕ => l.map fun p => p + (k : ℝ) * s

/-- `Q'` describes the same device as `Q`, but `N` field periods of `Q` are one field period of `Q'`: the surfaces are the same, the
winding grid is the same uniform grid of the whole torus, and the other grids and the plasma field have `N` times as many points, because
they cover one (longer) field period. -/
structure SameDevice (N : ℕ) (Q Q' : FieldProblem) : Prop where
  nfp : Q.cp.surf.nfp = N * Q'.cp.surf.nfp
  nfp_ne : Q.cp.surf.nfp ≠ 0
  plasma_nfp : Q.plasma.shape.nfp = Q.cp.surf.nfp
  winding : ∀ phi theta, Q'.cp.surf.gamma Q'.cp.wdofs phi theta = Q.cp.surf.gamma Q.cp.wdofs phi theta
  plasma : ∀ phi theta, Q'.plasma.shape.gamma Q'.plasma.dofs phi theta = Q.plasma.shape.gamma Q.plasma.dofs phi theta
  uniform : ∃ k, 0 < k ∧ Q.wPhis = linspace0 1 (Q.cp.surf.nfp * k)
  wPhis : Q'.wPhis = Q.wPhis
  wThetas : Q'.wThetas = Q.wThetas
  ePhis : Q'.ePhis = shiftedCopies N (1 / Q.cp.surf.nfp) Q.ePhis
  eThetas : Q'.eThetas = Q.eThetas
  pPhis : Q'.plasma.phis = shiftedCopies N (1 / Q.cp.surf.nfp) Q.plasma.phis
  pThetas : Q'.plasma.thetas = Q.plasma.thetas
  bPlasma_length : Q.bPlasma.length = Q.plasma.phis.length * Q.plasma.thetas.length
  bPlasma : Q'.bPlasma = (List.replicate N Q.bPlasma).flatten
  G : Q'.cp.G = Q.cp.G
  I : Q'.cp.I = Q.cp.I

/-- The same, with at least two toroidal points in every field period (the step of a grid is the difference of its first two points). -/
structure MergedPeriods (N : ℕ) (Q Q' : FieldProblem) : Prop extends SameDevice N Q Q' where
  two_eval : 2 ≤ Q.ePhis.length
  two_plasma : 2 ≤ Q.plasma.phis.length

/-- The same single valued potential. -/
def SamePotential (Q Q' : FieldProblem) (c c' : List ℝ) : Prop := ∀ phi theta, Q'.cp.Phi c' phi theta = Q.cp.Phi c phi theta

/-- A number is the same; an array has the same entries, each `N` times, in some order. -/
def TiledVal (N : ℕ) : Val → Val → Prop
  | .scalar a, .scalar b => a = b
  | .array a, .array b => a.Perm (List.replicate N b).flatten
  | _, _ => False

end Verif
