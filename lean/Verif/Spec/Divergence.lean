import Verif.Spec.Deriv

/-! # The divergence of a vector field, stated independently of the code -/

namespace Verif

/-- The divergence of `B` at `y` is `d`. -/
def HasDivergence (B : V3 → V3) (d : ℝ) (y : V3) : Prop :=
  ∃ a b c, HasDerivAt (fun s => (B ⟨s, y.y, y.z⟩).x) a y.x ∧ HasDerivAt (fun s => (B ⟨y.x, s, y.z⟩).y) b y.y ∧
    HasDerivAt (fun s => (B ⟨y.x, y.y, s⟩).z) c y.z ∧ a + b + c = d

end Verif
