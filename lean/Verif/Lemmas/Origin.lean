import Verif.Spec.Origin
import Verif.Lemmas.ForcePeriod
import Verif.Props.Field

/-!
# The fields of a moved problem
-/

namespace Verif

open Real CpParams

theorem HasDerivV3.congr' {f g : ℝ → V3} {a : V3} {t : ℝ} (h : HasDerivV3 f a t) (e : ∀ u, g u = f u) : HasDerivV3 g a t := by
  have : g = f := funext e
  rwa [this]

/-- All derivatives of a moved surface are rotated. -/
theorem MovedSurface.dash {s t : ℝ} {S S' : GridSurface} (h : MovedSurface s t S S') (a b : ℕ) (phi theta : ℝ) :
    S'.shape.gammadash S'.dofs a b (phi + s) (theta + t) = rotZ (2 * π * s) (S.shape.gammadash S.dofs a b phi theta) := by
  induction a generalizing phi theta with
  | zero =>
    induction b generalizing phi theta with
    | zero => exact h.point phi theta
    | succ b ih =>
      have h1 := (C38_gammadash_theta S'.shape S'.dofs 0 b (phi + s) (theta + t)).shift
      have h2 := (C38_gammadash_theta S.shape S.dofs 0 b phi theta).rotZ (2 * π * s)
      exact (h1.congr' fun u => (ih phi u).symm).uniq h2
  | succ a ih =>
    have h1 := (C38_gammadash_phi S'.shape S'.dofs a b (phi + s) (theta + t)).shift
    have h2 := (C38_gammadash_phi S.shape S.dofs a b phi theta).rotZ (2 * π * s)
    exact (h1.congr' fun u => (ih u theta).symm).uniq h2

theorem MovedSurface.normal {s t : ℝ} {S S' : GridSurface} (h : MovedSurface s t S S') (phi theta : ℝ) :
    S'.shape.normal S'.dofs (phi + s) (theta + t) = rotZ (2 * π * s) (S.shape.normal S.dofs phi theta) := by
  rw [SurfaceShape.normal, h.dash, h.dash, rotZ_cross]
  rfl

theorem MovedSurface.unitnormal {s t : ℝ} {S S' : GridSurface} (h : MovedSurface s t S S') (phi theta : ℝ) :
    S'.shape.unitnormal S'.dofs (phi + s) (theta + t) = rotZ (2 * π * s) (S.shape.unitnormal S.dofs phi theta) := by
  rw [SurfaceShape.unitnormal, h.normal, rotZ_norm, ← rotZ_smul]
  rfl

theorem gridPoints_shift (s t : ℝ) (ps ts : List ℝ) : gridPoints (ps.map fun p => p + s) (ts.map fun x => x + t) =
    (gridPoints ps ts).map fun q => (q.1 + s, q.2 + t) := by
  simp only [gridPoints, List.flatMap_map, List.map_flatMap, List.map_map, Function.comp_def]

theorem gridStep_shift (s : ℝ) (q : List ℝ) : gridStep (q.map fun p => p + s) = gridStep q := by
  rcases q with _ | ⟨a, _ | ⟨b, l⟩⟩ <;> simp [gridStep]

theorem MovedSurface.grid {s t : ℝ} {S S' : GridSurface} (h : MovedSurface s t S S') :
    gridPoints S'.phis S'.thetas = (gridPoints S.phis S.thetas).map fun q => (q.1 + s, q.2 + t) := by
  rw [h.phis, h.thetas, gridPoints_shift]

theorem MovedSurface.da {s t : ℝ} {S S' : GridSurface} (h : MovedSurface s t S S') : S'.da = S.da := by
  rw [GridSurface.da, h.grid, h.phis, h.thetas, gridStep_shift, gridStep_shift, List.map_map]
  exact List.map_congr_left fun q _ => by simp only [Function.comp_apply, h.normal, rotZ_norm]

/-- What the moved winding surface and potential have in common with the old ones. -/
structure MovedCp (s t : ℝ) (P P' : CpParams) : Prop where
  dash : ∀ a b phi theta, P'.surf.gammadash P'.wdofs a b (phi + s) (theta + t) = rotZ (2 * π * s) (P.surf.gammadash P.wdofs a b phi theta)
  G : P'.G = P.G
  I : P'.I = P.I

theorem MovedProblem.cp {s t : ℝ} {Q Q' : FieldProblem} (h : MovedProblem s t Q Q') : MovedCp s t Q.cp Q'.cp :=
  ⟨h.winding.dash, h.G, h.I⟩

namespace MovedCp

variable {s t : ℝ} {P P' : CpParams} (h : MovedCp s t P P')
include h

theorem dg1 (p x : ℝ) : P'.dg1 (p + s) (x + t) = rotZ (2 * π * s) (P.dg1 p x) := h.dash ..
theorem dg2 (p x : ℝ) : P'.dg2 (p + s) (x + t) = rotZ (2 * π * s) (P.dg2 p x) := h.dash ..
theorem dg11 (p x : ℝ) : P'.dg11 (p + s) (x + t) = rotZ (2 * π * s) (P.dg11 p x) := h.dash ..
theorem dg12 (p x : ℝ) : P'.dg12 (p + s) (x + t) = rotZ (2 * π * s) (P.dg12 p x) := h.dash ..
theorem dg22 (p x : ℝ) : P'.dg22 (p + s) (x + t) = rotZ (2 * π * s) (P.dg22 p x) := h.dash ..

theorem N (p x : ℝ) : P'.N (p + s) (x + t) = rotZ (2 * π * s) (P.N p x) := by
  rw [CpParams.N, h.dg1, h.dg2, rotZ_cross, CpParams.N]

theorem invN (p x : ℝ) : P'.invN (p + s) (x + t) = P.invN p x := by
  rw [CpParams.invN, h.N, rotZ_norm, CpParams.invN]

theorem unitN (p x : ℝ) : P'.unitN (p + s) (x + t) = rotZ (2 * π * s) (P.unitN p x) := by
  rw [CpParams.unitN, h.N, rotZ_norm, ← rotZ_smul, CpParams.unitN]

theorem grad1 (p x : ℝ) : P'.grad1 (p + s) (x + t) = rotZ (2 * π * s) (P.grad1 p x) := by
  rw [CpParams.grad1, h.N, h.dg2, rotZ_normSq, rotZ_cross, ← rotZ_smul, CpParams.grad1]

theorem grad2 (p x : ℝ) : P'.grad2 (p + s) (x + t) = rotZ (2 * π * s) (P.grad2 p x) := by
  rw [CpParams.grad2, h.N, h.dg1, rotZ_normSq, ← rotZ_neg, rotZ_cross, ← rotZ_smul, CpParams.grad2]

theorem normaldash1 (p x : ℝ) : P'.normaldash1 (p + s) (x + t) = rotZ (2 * π * s) (P.normaldash1 p x) := by
  rw [CpParams.normaldash1, h.dg11, h.dg2, h.dg1, h.dg12, rotZ_cross, rotZ_cross, ← rotZ_add, CpParams.normaldash1]

theorem normaldash2 (p x : ℝ) : P'.normaldash2 (p + s) (x + t) = rotZ (2 * π * s) (P.normaldash2 p x) := by
  rw [CpParams.normaldash2, h.dg22, h.dg2, h.dg1, h.dg12, rotZ_cross, rotZ_cross, ← rotZ_add, CpParams.normaldash2]

theorem invNdash1 (p x : ℝ) : P'.invNdash1 (p + s) (x + t) = P.invNdash1 p x := by
  rw [CpParams.invNdash1, h.N, h.normaldash1, rotZ_dot, rotZ_normSq, CpParams.invNdash1]

theorem invNdash2 (p x : ℝ) : P'.invNdash2 (p + s) (x + t) = P.invNdash2 p x := by
  rw [CpParams.invNdash2, h.N, h.normaldash2, rotZ_dot, rotZ_normSq, CpParams.invNdash2]

theorem dg1InvNdash1 (p x : ℝ) : P'.dg1InvNdash1 (p + s) (x + t) = rotZ (2 * π * s) (P.dg1InvNdash1 p x) := by
  simp only [CpParams.dg1InvNdash1, h.invN, h.invNdash1, h.dg11, h.dg1, rotZ_add, rotZ_smul]

theorem dg1InvNdash2 (p x : ℝ) : P'.dg1InvNdash2 (p + s) (x + t) = rotZ (2 * π * s) (P.dg1InvNdash2 p x) := by
  simp only [CpParams.dg1InvNdash2, h.invN, h.invNdash2, h.dg12, h.dg1, rotZ_add, rotZ_smul]

theorem dg2InvNdash1 (p x : ℝ) : P'.dg2InvNdash1 (p + s) (x + t) = rotZ (2 * π * s) (P.dg2InvNdash1 p x) := by
  simp only [CpParams.dg2InvNdash1, h.invN, h.invNdash1, h.dg12, h.dg2, rotZ_add, rotZ_smul]

theorem dg2InvNdash2 (p x : ℝ) : P'.dg2InvNdash2 (p + s) (x + t) = rotZ (2 * π * s) (P.dg2InvNdash2 p x) := by
  simp only [CpParams.dg2InvNdash2, h.invN, h.invNdash2, h.dg22, h.dg2, rotZ_add, rotZ_smul]

theorem unitNdash1 (p x : ℝ) : P'.unitNdash1 (p + s) (x + t) = rotZ (2 * π * s) (P.unitNdash1 p x) := by
  simp only [CpParams.unitNdash1, h.dg1InvNdash1, h.dg2, h.invN, h.dg1, h.dg12, ← rotZ_smul, rotZ_cross, rotZ_add]

theorem unitNdash2 (p x : ℝ) : P'.unitNdash2 (p + s) (x + t) = rotZ (2 * π * s) (P.unitNdash2 p x) := by
  simp only [CpParams.unitNdash2, h.dg1InvNdash2, h.dg2, h.invN, h.dg1, h.dg22, ← rotZ_smul, rotZ_cross, rotZ_add]

theorem divN (p x : ℝ) : P'.divN (p + s) (x + t) = P.divN p x := by
  rw [CpParams.divN, h.grad1, h.grad2, h.unitNdash1, h.unitNdash2, rotZ_dot, rotZ_dot, CpParams.divN]

end MovedCp

/-- The derivatives of the potentials agree. -/
structure MovedOps (s t : ℝ) (P P' : CpParams) (c c' : List ℝ) : Prop where
  phi : ∀ p x, app (P'.opPhi (p + s) (x + t)) c' = app (P.opPhi p x) c
  theta : ∀ p x, app (P'.opTheta (p + s) (x + t)) c' = app (P.opTheta p x) c
  phiPhi : ∀ p x, app (P'.opPhiPhi (p + s) (x + t)) c' = app (P.opPhiPhi p x) c
  phiTheta : ∀ p x, app (P'.opPhiTheta (p + s) (x + t)) c' = app (P.opPhiTheta p x) c
  thetaTheta : ∀ p x, app (P'.opThetaTheta (p + s) (x + t)) c' = app (P.opThetaTheta p x) c

theorem shift_phi {s t : ℝ} {f f' g g' : ℝ → ℝ → ℝ} (h : ∀ p x, f' (p + s) (x + t) = f p x)
    (hf : ∀ p x, HasDerivAt (fun p => f p x) (g p x) p) (hf' : ∀ p x, HasDerivAt (fun p => f' p x) (g' p x) p) (p x : ℝ) :
    g' (p + s) (x + t) = g p x := by
  have h1 := (hf' (p + s) (x + t)).comp_add_const p s
  simp only [h] at h1
  exact h1.unique (hf p x)

theorem shift_theta {s t : ℝ} {f f' g g' : ℝ → ℝ → ℝ} (h : ∀ p x, f' (p + s) (x + t) = f p x)
    (hf : ∀ p x, HasDerivAt (fun x => f p x) (g p x) x) (hf' : ∀ p x, HasDerivAt (fun x => f' p x) (g' p x) x) (p x : ℝ) :
    g' (p + s) (x + t) = g p x := by
  have h1 := (hf' (p + s) (x + t)).comp_add_const x t
  simp only [h] at h1
  exact h1.unique (hf p x)

theorem movedOps {s t : ℝ} {P P' : CpParams} {c c' : List ℝ}
    (h : ∀ phi theta, P'.Phi c' (phi + s) (theta + t) = P.Phi c phi theta) : MovedOps s t P P' c c' := by
  have h1 := shift_phi h (P.Phi_phi c) (P'.Phi_phi c')
  have h2 := shift_theta h (P.Phi_theta c) (P'.Phi_theta c')
  exact ⟨h1, h2, shift_phi h1 (P.opPhi_phi c) (P'.opPhi_phi c'), shift_theta h1 (P.opPhi_theta c) (P'.opPhi_theta c'),
    shift_theta h2 (P.opTheta_theta c) (P'.opTheta_theta c')⟩

namespace MovedCp

variable {s t : ℝ} {P P' : CpParams} (h : MovedCp s t P P') {c c' : List ℝ} (k : MovedOps s t P P' c c')
include h k

theorem K (p x : ℝ) : P'.K c' (p + s) (x + t) = rotZ (2 * π * s) (P.K c p x) := by
  simp only [K_eq, h.invN, h.dg1, h.dg2, k.phi, k.theta, h.G, h.I, rotZ_smul, rotZ_sub]

theorem Kdash1 (p x : ℝ) : P'.Kdash1 c' (p + s) (x + t) = rotZ (2 * π * s) (P.Kdash1 c p x) := by
  simp only [Kdash1_eq, h.invN, h.dg1, h.dg2, h.dg2InvNdash1, h.dg1InvNdash1, k.phi, k.theta, k.phiPhi, k.phiTheta, h.G, h.I, rotZ_smul,
    rotZ_sub, rotZ_add]

theorem Kdash2 (p x : ℝ) : P'.Kdash2 c' (p + s) (x + t) = rotZ (2 * π * s) (P.Kdash2 c p x) := by
  simp only [Kdash2_eq, h.invN, h.dg1, h.dg2, h.dg2InvNdash2, h.dg1InvNdash2, k.phi, k.theta, k.thetaTheta, k.phiTheta, h.G, h.I, rotZ_smul,
    rotZ_sub, rotZ_add]

theorem KdotGradK (p x : ℝ) : P'.KdotGradK c' (p + s) (x + t) = rotZ (2 * π * s) (P.KdotGradK c p x) := by
  simp only [CpParams.KdotGradK, h.invN, h.Kdash1 k, h.Kdash2 k, k.phi, k.theta, h.G, h.I, rotZ_smul, rotZ_sub]

theorem forceTensors (p x : ℝ) (v : V3) :
    M3.act (rotZ (2 * π * s) v) (P'.forceSingle c' (p + s) (x + t)) = rotZ (2 * π * s) (M3.act v (P.forceSingle c p x)) ∧
    M3.act (rotZ (2 * π * s) v) (P'.forceDouble c' (p + s) (x + t)) = rotZ (2 * π * s) (M3.act v (P.forceDouble c p x)) := by
  constructor
  · rw [forceSingle_cross, forceSingle_cross, h.divN, h.K k, h.unitN, h.grad1, h.grad2, h.Kdash1 k, h.Kdash2 k]
    simp only [rotZ_cross, ← rotZ_smul, ← rotZ_add]
  · rw [forceDouble_cross, forceDouble_cross, h.K k, h.unitN]
    simp only [rotZ_cross, ← rotZ_smul]

end MovedCp

end Verif
