import Verif.Props.Params
import Verif.Props.Modes

/-!
# C112: what the constructors of surfaces and problem parameters store
-/

namespace Verif

/-- **C112.** The attributes of a surface: entry `(i, j)` of the meshes is the `j`-th poloidal and the `i`-th toroidal point, and the
steps are the differences of the first two points. -/
theorem C112_surface_attributes {nfp : ℕ} {st : Bool} {mpol ntor : ℕ} {phi theta dofs : Child} {s : SurfaceObj}
    (h : SurfaceObj.init nfp st mpol ntor phi theta dofs = .ok s) :
    s.nfp = nfp ∧ s.stellsym = st ∧ s.mpol = mpol ∧ s.ntor = ntor ∧ phi = .arr1 s.quadpointsPhi ∧ theta = .arr1 s.quadpointsTheta ∧
      dofs = .arr1 s.dofs ∧
      s.thetaMesh.length = s.quadpointsPhi.length ∧ s.phiMesh.length = s.quadpointsPhi.length ∧
      (∀ r ∈ s.thetaMesh, r.length = s.quadpointsTheta.length) ∧ (∀ r ∈ s.phiMesh, r.length = s.quadpointsTheta.length) ∧
      (∀ i j : ℕ, i < s.quadpointsPhi.length → j < s.quadpointsTheta.length →
        (s.thetaMesh[i]?.bind fun r => r[j]?) = s.quadpointsTheta[j]? ∧ (s.phiMesh[i]?.bind fun r => r[j]?) = s.quadpointsPhi[i]?) ∧
      (∀ a b l, s.quadpointsPhi = a :: b :: l → s.dphi = b - a) ∧ (∀ a b l, s.quadpointsTheta = a :: b :: l → s.dtheta = b - a) := by
  cases phi <;> cases theta <;> cases dofs <;>
    simp only [SurfaceObj.init, requireArr1, bind, Except.bind, reduceCtorEq, Except.ok.injEq] at h
  subst h
  refine ⟨rfl, rfl, rfl, rfl, rfl, rfl, rfl, by simp, by simp, ?_, ?_, ?_, ?_, ?_⟩
  · intro r hr
    obtain ⟨_, -, rfl⟩ := List.mem_map.1 hr
    rfl
  · intro r hr
    obtain ⟨_, -, rfl⟩ := List.mem_map.1 hr
    simp
  · intro i j hi hj
    simp only at hi hj
    rw [List.getElem?_map, List.getElem?_map, List.getElem?_eq_getElem hi]
    simp [hj]
  · intro a b l hl
    simp only at hl
    subst hl
    rfl
  · intro a b l hl
    simp only at hl
    subst hl
    rfl

/-- A surface can be built from exactly three one-dimensional arrays; anything else is a `TypeError`. -/
theorem C112_surface_iff (nfp : ℕ) (st : Bool) (mpol ntor : ℕ) (phi theta dofs : Child) :
    ((∃ s, SurfaceObj.init nfp st mpol ntor phi theta dofs = .ok s) ↔
      (∃ a, phi = .arr1 a) ∧ (∃ a, theta = .arr1 a) ∧ ∃ a, dofs = .arr1 a) ∧
    ((¬ ∃ s, SurfaceObj.init nfp st mpol ntor phi theta dofs = .ok s) →
      SurfaceObj.init nfp st mpol ntor phi theta dofs = .error .typeError) := by
  cases phi <;> cases theta <;> cases dofs <;> simp [SurfaceObj.init, requireArr1, bind, Except.bind]

/-- **C112.** The attributes of a parameter object. -/
theorem C112_params_attributes {plasma winding poloidal toroidal bnormal : Child} {mpol ntor : ℕ} {phi theta : Child}
    {st : Option Bool} {o : ParamsObj}
    (h : ParamsObj.init plasma winding poloidal toroidal bnormal mpol ntor phi theta st = .ok o) :
    plasma = .surf o.base.plasmaSurface ∧ winding = .surf o.base.windingSurface ∧ o.base.netPoloidal = poloidal ∧
      o.base.netToroidal = toroidal ∧ o.mpol = mpol ∧ o.ntor = ntor ∧
      -- symmetry: the given one, or that of both surfaces
      (∀ b, st = some b → o.base.stellsym = b) ∧
      (st = none → (o.base.stellsym = true ↔ o.base.windingSurface.stellsym = true ∧ o.base.plasmaSurface.stellsym = true)) ∧
      -- the evaluation surface is the winding surface on another grid
      o.base.evalSurface.nfp = o.base.windingSurface.nfp ∧ o.base.evalSurface.stellsym = o.base.windingSurface.stellsym ∧
      o.base.evalSurface.mpol = o.base.windingSurface.mpol ∧ o.base.evalSurface.ntor = o.base.windingSurface.ntor ∧
      o.base.evalSurface.dofs = o.base.windingSurface.dofs ∧
      o.base.quadpointsPhi = .arr1 o.base.evalSurface.quadpointsPhi ∧ o.base.quadpointsTheta = .arr1 o.base.evalSurface.quadpointsTheta ∧
      (∀ a, phi = .arr1 a → o.base.evalSurface.quadpointsPhi = a) ∧ (∀ a, theta = .arr1 a → o.base.evalSurface.quadpointsTheta = a) ∧
      (phi = .none → o.base.windingSurface.nfp ≠ 0 → o.base.evalSurface.quadpointsPhi <+: o.base.windingSurface.quadpointsPhi ∧
        o.base.windingSurface.nfp * o.base.evalSurface.quadpointsPhi.length = o.base.windingSurface.quadpointsPhi.length) ∧
      (theta = .none → o.base.evalSurface.quadpointsTheta = o.base.windingSurface.quadpointsTheta) ∧
      -- the field of the plasma: the given one, or zeros on the grid of the plasma surface
      (bnormal ≠ .none → o.base.bnormalPlasma = bnormal) ∧
      (bnormal = .none → ∃ a, o.base.bnormalPlasma = .arr2 a ∧ a.length = o.base.plasmaSurface.quadpointsPhi.length ∧
        ∀ r ∈ a, r.length = o.base.plasmaSurface.quadpointsTheta.length ∧ ∀ x ∈ r, x = 0) ∧
      -- the number of unknowns is the number of modes
      o.ndofs = (makeMn mpol ntor o.base.stellsym).1.length ∧
      (o.base.stellsym = true → o.ndofsHalf = o.ndofs) ∧ (o.base.stellsym = false → o.ndofs = 2 * o.ndofsHalf + 1) := by
  simp only [ParamsObj.init, bind, Except.bind] at h
  split at h
  · simp at h
  rename_i b hb
  rw [Except.ok.injEq] at h
  subst h
  rcases winding with _ | _ | _ | _ | w
  iterate 4 simp [BaseParams.init, requireSurf, bind, Except.bind] at hb
  by_cases hm : w.quadpointsPhi.length % w.nfp ≠ 0
  · simp [BaseParams.init, requireSurf, bind, Except.bind, hm] at hb
  rcases plasma with _ | _ | _ | _ | p
  iterate 4 simp [BaseParams.init, requireSurf, bind, Except.bind, hm] at hb
  push Not at hm
  simp only [BaseParams.init, requireSurf, bind, Except.bind, hm, ne_eq, not_true_eq_false, if_false] at hb
  split at hb
  · simp at hb
  rename_i e he
  rw [Except.ok.injEq] at hb
  subst hb
  obtain ⟨e1, e2, e3, e4, e5, e6, e7, -⟩ := C112_surface_attributes he
  simp only [Child.arr1.injEq] at e7
  refine ⟨rfl, rfl, rfl, rfl, rfl, rfl, ?_, ?_, e1, e2, e3, e4, e7.symm, e5, e6, ?_, ?_, ?_, ?_, ?_, ?_, ?_, ?_, ?_⟩
  · rintro b rfl
    rfl
  · rintro rfl
    simp
  · rintro a rfl
    simp only [Child.orDefault, Child.arr1.injEq] at e5
    exact e5.symm
  · rintro a rfl
    simp only [Child.orDefault, Child.arr1.injEq] at e6
    exact e6.symm
  · rintro rfl h0
    simp only [Child.orDefault, Child.arr1.injEq] at e5
    simp only
    rw [← e5]
    refine ⟨List.take_prefix _ _, ?_⟩
    rw [List.length_take, min_eq_left (Nat.div_le_self _ _)]
    exact Nat.mul_div_cancel' (Nat.dvd_of_mod_eq_zero hm)
  · rintro rfl
    simp only [Child.orDefault, Child.arr1.injEq] at e6
    exact e6.symm
  · intro hbn
    cases bnormal <;> simp [Child.orDefault] at hbn ⊢
  · rintro rfl
    refine ⟨_, rfl, by simp, ?_⟩
    intro r hr
    obtain ⟨_, -, rfl⟩ := List.mem_map.1 hr
    simp
  · exact (makeMn_lengths _ _ _).1.symm
  · simp only
    intro h
    rw [h]
    simp [cpNdofs]
  · simp only
    intro h
    rw [h]
    simp [cpNdofs]

/-- **C112.** A parameter object is built exactly if both surfaces are surfaces, the number of toroidal points of the winding surface
is divisible by its number of field periods, and the evaluation grids are one-dimensional arrays or absent. -/
theorem C112_params_iff (plasma winding poloidal toroidal bnormal : Child) (mpol ntor : ℕ) (phi theta : Child) (st : Option Bool) :
    (∃ o, ParamsObj.init plasma winding poloidal toroidal bnormal mpol ntor phi theta st = .ok o) ↔
      (∃ p, plasma = .surf p) ∧ (∃ w, winding = .surf w ∧ w.nfp ∣ w.quadpointsPhi.length) ∧
        (phi = .none ∨ ∃ a, phi = .arr1 a) ∧ (theta = .none ∨ ∃ a, theta = .arr1 a) := by
  rcases winding with _ | _ | _ | _ | w
  iterate 4 simp [ParamsObj.init, BaseParams.init, requireSurf, bind, Except.bind]
  by_cases hm : w.quadpointsPhi.length % w.nfp ≠ 0
  · have : ¬ w.nfp ∣ w.quadpointsPhi.length := fun h => hm (Nat.mod_eq_zero_of_dvd h)
    simp [ParamsObj.init, BaseParams.init, requireSurf, bind, Except.bind, hm, this]
  push Not at hm
  have hd := Nat.dvd_of_mod_eq_zero hm
  rcases plasma with _ | _ | _ | _ | p
  iterate 4 simp [ParamsObj.init, BaseParams.init, requireSurf, bind, Except.bind, hm]
  cases phi <;> cases theta <;>
    simp [ParamsObj.init, BaseParams.init, requireSurf, bind, Except.bind, hm, hd, Child.orDefault, SurfaceObj.copyAndSetQuadpoints,
      SurfaceObj.init, requireArr1]

/-- **C112.** If the toroidal points of the winding surface are the uniform grid over the full torus, the default evaluation grid
consists of exactly the points of the first field period. -/
theorem C112_eval_one_period {plasma winding poloidal toroidal bnormal : Child} {mpol ntor : ℕ} {theta : Child} {st : Option Bool}
    {o : ParamsObj} (h : ParamsObj.init plasma winding poloidal toroidal bnormal mpol ntor .none theta st = .ok o) {n : ℕ}
    (hnfp : o.base.windingSurface.nfp ≠ 0)
    (hgrid : o.base.windingSurface.quadpointsPhi = (List.range n).map fun k : ℕ => (k : ℝ) / n) :
    o.base.evalSurface.quadpointsPhi =
      o.base.windingSurface.quadpointsPhi.filter fun x : ℝ => decide (x < 1 / (o.base.windingSurface.nfp : ℝ)) := by
  obtain ⟨-, -, -, -, -, -, -, -, -, -, -, -, -, -, -, -, -, hphi, -⟩ := C112_params_attributes h
  obtain ⟨hpre, hlen⟩ := hphi rfl hnfp
  generalize o.base.evalSurface.quadpointsPhi = q at *
  generalize o.base.windingSurface.nfp = f at *
  rw [hgrid] at hpre hlen ⊢
  rw [List.length_map, List.length_range] at hlen
  rw [List.prefix_iff_eq_take] at hpre
  rw [hpre, ← List.map_take, List.filter_map, List.take_range]
  congr 1
  generalize q.length = k at *
  have hkn : min k n = k := by
    rw [← hlen]
    exact min_eq_left (Nat.le_mul_of_pos_left k (Nat.pos_of_ne_zero hnfp))
  rw [hkn]
  have hsplit : List.range n = List.range k ++ (List.range (n - k)).map (k + ·) := by
    rw [← List.range_add]
    congr 1
    have : k ≤ n := by rw [← hlen]; exact Nat.le_mul_of_pos_left k (Nat.pos_of_ne_zero hnfp)
    omega
  have hfp : (0 : ℝ) < f := by exact_mod_cast Nat.pos_of_ne_zero hnfp
  have hn : (n : ℝ) = f * k := by exact_mod_cast hlen.symm
  rw [hsplit, List.filter_append]
  have h1 : (List.range k).filter ((fun x : ℝ => decide (x < 1 / (f : ℝ))) ∘ fun j : ℕ => (j : ℝ) / n) = List.range k := by
    rw [List.filter_eq_self]
    intro j hj
    rw [List.mem_range] at hj
    have hj' : (j : ℝ) < k := by exact_mod_cast hj
    have hk0 : (0 : ℝ) < k := lt_of_le_of_lt (Nat.cast_nonneg j) hj'
    simp only [Function.comp, decide_eq_true_eq]
    rw [hn, div_lt_div_iff₀ (by positivity) hfp]
    nlinarith
  have h2 : ((List.range (n - k)).map (k + ·)).filter ((fun x : ℝ => decide (x < 1 / (f : ℝ))) ∘ fun j : ℕ => (j : ℝ) / n) = [] := by
    rw [List.filter_eq_nil_iff]
    intro j hj
    obtain ⟨i, hi, rfl⟩ := List.mem_map.1 hj
    rw [List.mem_range] at hi
    have hn0 : 0 < n := by omega
    have hk0 : (0 : ℝ) < k := by
      rcases Nat.eq_zero_or_pos k with h0 | h0
      · rw [h0, mul_zero] at hlen
        omega
      · exact_mod_cast h0
    simp only [Function.comp, decide_eq_true_eq, not_lt]
    rw [hn, div_le_div_iff₀ hfp (by positivity)]
    push_cast
    have : (0 : ℝ) ≤ i := Nat.cast_nonneg i
    nlinarith
  rw [h1, h2, List.append_nil]

/-- A winding surface with two field periods and four points: the evaluation grid has the two points of the first period. -/
example : ∃ o, ParamsObj.init
    (.surf ⟨2, true, 1, 0, [1, 0.1, 0.1], [0, 0.1], [0, 0.5], [], [], 0.1, 0.5⟩)
    (.surf ⟨2, true, 1, 0, [1, 0.3, 0.3], (List.range 4).map fun k : ℕ => (k : ℝ) / (4 : ℕ), [0, 0.5], [], [], 1, 0.5⟩)
    (.num 5) (.num 0) .none 4 4 .none .none none = .ok o ∧ o.base.windingSurface.nfp ≠ 0 ∧
    o.base.windingSurface.quadpointsPhi = (List.range 4).map (fun k : ℕ => (k : ℝ) / (4 : ℕ)) ∧
    o.base.evalSurface.quadpointsPhi.length = 2 := ⟨_, rfl, by decide, rfl, by simp⟩

end Verif
