import Verif.Spec.Deriv
import Mathlib.Analysis.Calculus.Deriv.Mul
import Mathlib.Analysis.Calculus.Deriv.Add
import Mathlib.Analysis.Calculus.Deriv.Inv
import Mathlib.Analysis.SpecialFunctions.Sqrt
import Mathlib.Analysis.SpecialFunctions.Pow.Deriv
import Mathlib.Tactic.FieldSimp

/-! # Lemmas about vectors and their derivatives -/

namespace Verif

namespace V3

theorem normSq_nonneg (a : V3) : 0 ≤ a.normSq := by unfold normSq; positivity

theorem norm_sq (a : V3) : a.norm ^ 2 = a.normSq := by
  rw [norm, Real.sq_sqrt (normSq_nonneg a)]

theorem norm_pos_iff (a : V3) : 0 < a.norm ↔ a ≠ 0 := by
  rw [norm, Real.sqrt_pos]
  constructor
  · rintro h rfl
    simp [normSq] at h
  · intro h
    by_contra hc
    apply h
    have h0 : a.normSq = 0 := le_antisymm (not_lt.1 hc) (normSq_nonneg a)
    simp only [normSq] at h0
    ext
    · exact pow_eq_zero_iff (two_ne_zero) |>.1 (by nlinarith [sq_nonneg a.x, sq_nonneg a.y, sq_nonneg a.z])
    · exact pow_eq_zero_iff (two_ne_zero) |>.1 (by nlinarith [sq_nonneg a.x, sq_nonneg a.y, sq_nonneg a.z])
    · exact pow_eq_zero_iff (two_ne_zero) |>.1 (by nlinarith [sq_nonneg a.x, sq_nonneg a.y, sq_nonneg a.z])

theorem normSq_pos (a : V3) (h : a ≠ 0) : 0 < a.normSq := by
  rw [← norm_sq]
  have := (norm_pos_iff a).2 h
  positivity

/-- A vector is determined by its dot products with two independent vectors and their cross product. -/
theorem eq_of_dots (a b u v : V3) (h : cross u v ≠ 0) (h1 : dot a u = dot b u) (h2 : dot a v = dot b v)
    (h3 : dot a (cross u v) = dot b (cross u v)) : a = b := by
  have hp := (normSq_pos _ h).ne'
  have hx : (a.x - b.x) * (cross u v).normSq = 0 := by
    simp only [dot, cross, normSq] at *
    linear_combination (v.y * (u.x * v.y - u.y * v.x) - v.z * (u.z * v.x - u.x * v.z)) * h1 +
      (-(u.y * (u.x * v.y - u.y * v.x) - u.z * (u.z * v.x - u.x * v.z))) * h2 + (u.y * v.z - u.z * v.y) * h3
  have hy : (a.y - b.y) * (cross u v).normSq = 0 := by
    simp only [dot, cross, normSq] at *
    linear_combination (v.z * (u.y * v.z - u.z * v.y) - v.x * (u.x * v.y - u.y * v.x)) * h1 +
      (-(u.z * (u.y * v.z - u.z * v.y) - u.x * (u.x * v.y - u.y * v.x))) * h2 + (u.z * v.x - u.x * v.z) * h3
  have hz : (a.z - b.z) * (cross u v).normSq = 0 := by
    simp only [dot, cross, normSq] at *
    linear_combination (v.x * (u.z * v.x - u.x * v.z) - v.y * (u.y * v.z - u.z * v.y)) * h1 +
      (-(u.x * (u.z * v.x - u.x * v.z) - u.y * (u.y * v.z - u.z * v.y))) * h2 + (u.x * v.y - u.y * v.x) * h3
  ext
  · exact sub_eq_zero.1 ((mul_eq_zero.1 hx).resolve_right hp)
  · exact sub_eq_zero.1 ((mul_eq_zero.1 hy).resolve_right hp)
  · exact sub_eq_zero.1 ((mul_eq_zero.1 hz).resolve_right hp)

end V3

namespace HasDerivV3

variable {f g : ℝ → V3} {f' g' : V3} {s : ℝ → ℝ} {s' t : ℝ}

theorem add (hf : HasDerivV3 f f' t) (hg : HasDerivV3 g g' t) : HasDerivV3 (fun u => f u + g u) (f' + g') t :=
  ⟨hf.1.add hg.1, hf.2.1.add hg.2.1, hf.2.2.add hg.2.2⟩

theorem sub (hf : HasDerivV3 f f' t) (hg : HasDerivV3 g g' t) : HasDerivV3 (fun u => f u - g u) (f' - g') t :=
  ⟨hf.1.sub hg.1, hf.2.1.sub hg.2.1, hf.2.2.sub hg.2.2⟩

theorem smul (hs : HasDerivAt s s' t) (hf : HasDerivV3 f f' t) :
    HasDerivV3 (fun u => s u • f u) (s' • f t + s t • f') t :=
  ⟨hs.mul hf.1, hs.mul hf.2.1, hs.mul hf.2.2⟩

theorem cross (hf : HasDerivV3 f f' t) (hg : HasDerivV3 g g' t) :
    HasDerivV3 (fun u => V3.cross (f u) (g u)) (V3.cross f' (g t) + V3.cross (f t) g') t := by
  refine ⟨?_, ?_, ?_⟩
  · refine ((hf.2.1.mul hg.2.2).sub (hf.2.2.mul hg.2.1)).congr_deriv ?_
    simp only [V3.cross, V3.add_x]; ring
  · refine ((hf.2.2.mul hg.1).sub (hf.1.mul hg.2.2)).congr_deriv ?_
    simp only [V3.cross, V3.add_y]; ring
  · refine ((hf.1.mul hg.2.1).sub (hf.2.1.mul hg.1)).congr_deriv ?_
    simp only [V3.cross, V3.add_z]; ring

theorem normSq (hf : HasDerivV3 f f' t) : HasDerivAt (fun u => (f u).normSq) (2 * V3.dot (f t) f') t := by
  refine (((hf.1.pow 2).add (hf.2.1.pow 2)).add (hf.2.2.pow 2)).congr_deriv ?_
  simp only [V3.dot]
  ring

theorem norm (hf : HasDerivV3 f f' t) (h : f t ≠ 0) :
    HasDerivAt (fun u => (f u).norm) (V3.dot (f t) f' / (f t).norm) t := by
  have hp := V3.normSq_pos _ h
  refine (hf.normSq.sqrt hp.ne').congr_deriv ?_
  rw [V3.norm]
  have : Real.sqrt (f t).normSq ≠ 0 := (Real.sqrt_pos.2 hp).ne'
  field_simp

theorem invNorm (hf : HasDerivV3 f f' t) (h : f t ≠ 0) :
    HasDerivAt (fun u => 1 / (f u).norm) (-V3.dot (f t) f' / (f t).normSq ^ (1.5 : ℝ)) t := by
  have hp := V3.normSq_pos _ h
  have hn := (V3.norm_pos_iff _).2 h
  have e : (f t).normSq ^ (1.5 : ℝ) = (f t).norm ^ 3 := by
    rw [show (1.5 : ℝ) = 1 + 1 / 2 by norm_num, Real.rpow_add hp, Real.rpow_one, ← Real.sqrt_eq_rpow, ← V3.norm,
      ← V3.norm_sq]
    ring
  rw [e]
  simp only [one_div]
  refine ((hf.norm h).inv hn.ne').congr_deriv ?_
  field_simp

theorem congr_deriv (hf : HasDerivV3 f f' t) (h : f' = g') : HasDerivV3 f g' t := h ▸ hf

end HasDerivV3

end Verif
