import Verif.Spec.Deriv

/-! # The curl of a vector field, stated independently of the code -/

namespace Verif

/-- The curl of `B` at `y` is `v`. -/
def HasCurl (B : V3 → V3) (v y : V3) : Prop :=
  ∃ zy yz xz zx yx xy, HasDerivAt (fun s => (B ⟨y.x, s, y.z⟩).z) zy y.y ∧ HasDerivAt (fun s => (B ⟨y.x, y.y, s⟩).y) yz y.z ∧
    HasDerivAt (fun s => (B ⟨y.x, y.y, s⟩).x) xz y.z ∧ HasDerivAt (fun s => (B ⟨s, y.y, y.z⟩).z) zx y.x ∧
    HasDerivAt (fun s => (B ⟨s, y.y, y.z⟩).y) yx y.x ∧ HasDerivAt (fun s => (B ⟨y.x, s, y.z⟩).x) xy y.y ∧
    v = ⟨zy - yz, xz - zx, yx - xy⟩

end Verif
