import Verif.Model.Params
import Mathlib.Tactic.IntervalCases

/-!
# Properties C45, C67: parameter objects as pytrees
-/

namespace Verif

theorem SurfaceObj.unflatten_flatten (nfp : ℕ) (st : Bool) (mpol ntor : ℕ) (phi theta dofs : Child) (s : SurfaceObj)
    (h : SurfaceObj.init nfp st mpol ntor phi theta dofs = .ok s) :
    SurfaceObj.unflatten s.flatten.1 s.flatten.2 = .ok s := by
  cases phi <;> cases theta <;> cases dofs <;> simp only [SurfaceObj.init, requireArr1, bind, Except.bind, reduceCtorEq, Except.ok.injEq] at h
  subst h
  rfl

/-- **C45.** A surface that was flattened and rebuilt is the same surface, derived attributes included. -/
theorem C45_surface_roundtrip (nfp : ℕ) (st : Bool) (mpol ntor : ℕ) (phi theta dofs : Child) (s : SurfaceObj)
    (h : SurfaceObj.init nfp st mpol ntor phi theta dofs = .ok s) :
    SurfaceObj.unflatten s.flatten.1 s.flatten.2 = .ok s := SurfaceObj.unflatten_flatten _ _ _ _ _ _ _ _ h

/-- **C45.** The surface rebuilt from other arrays (as JAX does when it traces or differentiates) has these arrays as
coefficients and grids, and everything else is recomputed from them: the stored meshes and steps are ignored. -/
theorem C45_surface_rebuild (s : SurfaceObj) (p t d : List ℝ) (m1 m2 s1 s2 : Child) :
    SurfaceObj.unflatten [.arr1 p, .arr1 t, .arr1 d, m1, m2, s1, s2] s.flatten.2 =
      SurfaceObj.init s.nfp s.stellsym s.mpol s.ntor (.arr1 p) (.arr1 t) (.arr1 d) := rfl

theorem BaseParams.init_idem (plasma winding poloidal toroidal bnormal phi theta : Child) (st : Option Bool) (b : BaseParams)
    (h : BaseParams.init plasma winding poloidal toroidal bnormal phi theta st = .ok b) :
    BaseParams.init (.surf b.plasmaSurface) (.surf b.windingSurface) b.netPoloidal b.netToroidal b.bnormalPlasma
      b.quadpointsPhi b.quadpointsTheta (some b.stellsym) = .ok b := by
  rcases winding with _ | _ | _ | _ | w
  iterate 4 simp [BaseParams.init, requireSurf, bind, Except.bind] at h
  by_cases hm : w.quadpointsPhi.length % w.nfp ≠ 0
  · simp [BaseParams.init, requireSurf, bind, Except.bind, hm] at h
  rcases plasma with _ | _ | _ | _ | p
  iterate 4 simp [BaseParams.init, requireSurf, bind, Except.bind, hm] at h
  push Not at hm
  simp only [BaseParams.init, requireSurf, bind, Except.bind, hm, ne_eq, not_true_eq_false, if_false] at h
  split at h
  · simp at h
  rename_i e he
  rw [Except.ok.injEq] at h
  subst h
  simp only [BaseParams.init, requireSurf, bind, Except.bind, hm, ne_eq, not_true_eq_false, if_false]
  have hd : ∀ c d : Child, d ≠ .none → (c.orDefault d).orDefault d = c.orDefault d := by
    intro c d h
    cases c <;> cases d <;> simp [Child.orDefault] at h ⊢
  rw [hd _ _ (by simp), hd _ _ (by simp), hd _ _ (by simp), he]

/-- **C45.** A parameter object that was flattened and rebuilt is the same object: surfaces, evaluation surface, currents,
plasma field, grids, resolution and symmetry. -/
theorem C45_params_roundtrip (plasma winding poloidal toroidal bnormal : Child) (mpol ntor : ℕ) (phi theta : Child)
    (st : Option Bool) (o : ParamsObj)
    (h : ParamsObj.init plasma winding poloidal toroidal bnormal mpol ntor phi theta st = .ok o) :
    ParamsObj.unflatten o.flatten.1 o.flatten.2 = .ok o := by
  simp only [ParamsObj.init, bind, Except.bind] at h
  split at h
  · simp at h
  rename_i b hb
  rw [Except.ok.injEq] at h
  subst h
  have := BaseParams.init_idem _ _ _ _ _ _ _ _ _ hb
  simp only [ParamsObj.unflatten, ParamsObj.flatten, BaseParams.children, childAt, auxInt, auxBool, List.lookup,
    List.getElem?_cons_zero, List.getElem?_cons_succ, bind, Except.bind, ParamsObj.init, String.reduceBEq, this]

/-- **C45.** Rebuilding never uses the flattened evaluation surface: it is derived from the winding surface and the
evaluation grid. -/
theorem C45_eval_surface_rebuilt (o : ParamsObj) (e : Child) :
    ParamsObj.unflatten (o.flatten.1.set 2 e) o.flatten.2 = ParamsObj.unflatten o.flatten.1 o.flatten.2 := rfl

/-- **C45.** A surface cannot be rebuilt from fewer than three children. -/
theorem C45_surface_missing_child (s : SurfaceObj) (children : List Child) (h : children.length < 3) :
    SurfaceObj.unflatten children s.flatten.2 = .error .indexError := by
  match children, h with
  | [], _ => rfl
  | [_], _ => rfl
  | [_, _], _ => rfl

/-- **C45.** A surface cannot be rebuilt without one of its four settings. -/
theorem C45_surface_missing_setting (s : SurfaceObj) (children : List Child) {k : String} (hk : k ∈ ["nfp", "stellsym", "mpol", "ntor"]) :
    SurfaceObj.unflatten children (s.flatten.2.filter fun kv => kv.1 ≠ k) = .error .keyError := by
  simp only [List.mem_cons, List.not_mem_nil, or_false] at hk
  rcases hk with rfl | rfl | rfl | rfl <;> rfl

/-- **C45.** A parameter object cannot be rebuilt from fewer than eight children. -/
theorem C45_params_missing_child (o : ParamsObj) {n : ℕ} (h : n < 8) :
    ParamsObj.unflatten (o.flatten.1.take n) o.flatten.2 = .error .indexError := by
  interval_cases n <;> rfl

/-- **C45.** A parameter object cannot be rebuilt without its resolution or symmetry; the stored numbers of coefficients are not used. -/
theorem C45_params_missing_setting (o : ParamsObj) {k : String} :
    (k ∈ ["mpol", "ntor", "stellsym"] →
      ParamsObj.unflatten o.flatten.1 (o.flatten.2.filter fun kv => kv.1 ≠ k) = .error .keyError) ∧
    (k ∈ ["ndofs", "ndofs_half"] →
      ParamsObj.unflatten o.flatten.1 (o.flatten.2.filter fun kv => kv.1 ≠ k) = ParamsObj.unflatten o.flatten.1 o.flatten.2) := by
  constructor
  · intro hk
    simp only [List.mem_cons, List.not_mem_nil, or_false] at hk
    rcases hk with rfl | rfl | rfl <;> rfl
  · intro hk
    simp only [List.mem_cons, List.not_mem_nil, or_false] at hk
    rcases hk with rfl | rfl <;> rfl

/-- A problem with three field periods and six toroidal points is accepted. -/
example : ∃ o, ParamsObj.init
    (.surf ⟨3, true, 1, 0, [1, 0.1, 0.1], [0, 0.1], [0, 0.5], [], [], 0.1, 0.5⟩)
    (.surf ⟨3, true, 1, 0, [1, 0.3, 0.3], [0, 1, 2, 3, 4, 5], [0, 0.5], [], [], 1, 0.5⟩)
    (.num 5) (.num 0) .none 4 4 .none .none none = .ok o := ⟨_, rfl⟩

/-- **C67.** False of the code: flattening a finite element parameter object always raises `AttributeError`. -/
theorem C67_finite_element_violated_partial (b : BaseParams) (aux : List (String × Aux)) :
    b.flattenFiniteElement aux = .error .attributeError := by
  have h : readAttributes finiteElementAttributes ["plasma_surface", "winding_surface", "eval_surface",
    "net_poloidal_current_amperes", "net_toroidal_current_amperes", "Bnormal_plasma", "quadpoints_phi", "quadpoints_theta",
    "stellsym", "ndofs", "ndofs_half"] = .error .attributeError := by
    simp only [readAttributes, finiteElementAttributes, List.forM_eq_forM, List.forM_cons, List.mem_cons, List.not_mem_nil,
      String.reduceEq, or_false, or_true, if_true, if_false, bind, Except.bind]
  simp only [BaseParams.flattenFiniteElement, h, bind, Except.bind]

end Verif
