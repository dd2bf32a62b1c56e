import Verif.Model.Io
import Verif.Model.Coils
import Verif.Props.Surface
import Verif.Props.Api

/-!
# Properties of the conversions to other codes

C58, C69, C80, C81, C82, C83.
-/

namespace Verif

open Real

/-! ## C58 -/

theorem sliceTo_append {α : Type} (a b : List α) (hb : b ≠ []) : sliceTo (a ++ b) b.length = a := by
  have : b.length ≠ 0 := by simpa using hb
  simp [sliceTo, this]

theorem sliceFrom_append {α : Type} (a b : List α) (hb : b ≠ []) : sliceFrom (a ++ b) b.length = b := by
  have : b.length ≠ 0 := by simpa using hb
  simp [sliceFrom, this]

/-- **C58.** The coefficient arrays exported to DESC for a stellarator symmetric surface with coefficients `[rc, zs]` are `rc`
and, with a zero for the mode `(0, 0)`, `zs`; the other two are zero arrays of the same length. -/
theorem C58_to_desc_blocks (rc zs : List ℝ) (hl : rc.length = zs.length + 1) (hz : zs ≠ []) :
    toDescBlocks true (rc ++ zs)
      = ⟨rc, List.replicate rc.length 0, List.replicate rc.length 0, 0 :: zs⟩ := by
  have h : (rc ++ zs).length / 2 = zs.length := by
    rw [List.length_append, hl]; omega
  simp only [toDescBlocks, if_true, h, sliceTo_append _ _ hz, sliceFrom_append _ _ hz, List.map_const']

/-- Circular torus of major radius 3 and minor radius 1. -/
example : toDescBlocks true [3, 1, 1] = ⟨[3, 1], [0, 0], [0, 0], [0, 1]⟩ :=
  C58_to_desc_blocks [3, 1] [1] rfl (by simp)

/-- **C58.** The two cosine and two sine series with the exported coefficients, on the exported mode numbers, are `R` and `Z` of
the surface. -/
theorem C58_same_surface (S : SurfaceShape) (hs : S.stellsym = true) (rc zs : List ℝ)
    (hrc : rc.length = (surfMc S.mpol S.ntor).length) (hzs : zs.length = (surfMs S.mpol S.ntor).length) (hz : zs ≠ [])
    (phi theta : ℝ) :
    let modes := modePairs (surfMc S.mpol S.ntor, surfNc S.mpol S.ntor)
    let b := toDescBlocks S.stellsym (rc ++ zs)
    let R := cosSeries S.nfp modes b.rc phi theta + sinSeries S.nfp modes b.rs phi theta
    let Z := cosSeries S.nfp modes b.zc phi theta + sinSeries S.nfp modes b.zs phi theta
    S.gamma (rc ++ zs) phi theta = ⟨R * cos (2 * π * phi), R * sin (2 * π * phi), Z⟩ := by
  intro modes b R Z
  have hc := C37_mode_counts S.mpol S.ntor
  have hl : rc.length = zs.length + 1 := by rw [hrc, hzs, hc.1, hc.2.2.1]; ring
  have hb : b = ⟨rc, List.replicate rc.length 0, List.replicate rc.length 0, 0 :: zs⟩ := by
    simp only [b, hs]; exact C58_to_desc_blocks rc zs hl hz
  have hzero : ∀ (ms : List (ℤ × ℤ)) (f : (ℤ × ℤ) → ℝ) (k : ℕ),
      ((ms.zip (List.replicate k (0 : ℝ))).map fun p => p.2 * f p.1).sum = 0 := by
    intro ms f k
    refine List.sum_eq_zero fun x hx => ?_
    obtain ⟨p, hp, rfl⟩ := List.mem_map.1 hx
    have := (List.of_mem_zip (a := p.1) (b := p.2) hp).2
    rw [List.eq_of_mem_replicate this, zero_mul]
  have hR : R = cosSeries S.nfp modes rc phi theta := by
    simp only [R, hb, sinSeries]
    rw [hzero modes (fun q => sin (2 * π * (q.1 * theta - S.nfp * q.2 * phi))), add_zero]
  have hZ : Z = sinSeries S.nfp (modePairs (surfMs S.mpol S.ntor, surfNs S.mpol S.ntor)) zs phi theta := by
    simp only [Z, hb, cosSeries]
    rw [hzero modes (fun q => cos (2 * π * (q.1 * theta - S.nfp * q.2 * phi))), zero_add]
    simp [modes, sinSeries, modePairs, surfMc, surfNc]
  rw [C38_position_stellsym S hs rc zs hrc, hR, hZ]

/-- **C58.** Importing what was exported returns the coefficients, provided DESC's conversion `fwd` of coefficient arrays to its
own basis is undone by `rev`. -/
theorem C58_roundtrip {D : Type} (fwd : DescBlocks → D) (rev : D → DescBlocks) (hrev : ∀ b, rev (fwd b) = b)
    (rc zs : List ℝ) (hl : rc.length = zs.length + 1) (hz : zs ≠ []) :
    fromDescDofs true (rev (fwd (toDescBlocks true (rc ++ zs)))) = rc ++ zs := by
  rw [hrev, C58_to_desc_blocks rc zs hl hz]
  simp [fromDescDofs]

/-- **C58.** Importing keeps the data, with and without stellarator symmetry: the surface built from the imported coefficients has
the coordinates `R` and `Z` with the coefficients that DESC's conversion returns (its sine arrays start with the coefficient of
`sin 0`, which is dropped). -/
theorem C58_import (S : SurfaceShape) (rc rs zc zs : List ℝ) (a b : ℝ)
    (hrc : rc.length = (surfMc S.mpol S.ntor).length) (hrs : rs.length = (surfMs S.mpol S.ntor).length)
    (hzc : zc.length = (surfMc S.mpol S.ntor).length) (phi theta : ℝ) :
    let cM := modePairs (surfMc S.mpol S.ntor, surfNc S.mpol S.ntor)
    let sM := modePairs (surfMs S.mpol S.ntor, surfNs S.mpol S.ntor)
    let u := if S.stellsym then 0 else 1
    let R := cosSeries S.nfp cM rc phi theta + u * sinSeries S.nfp sM rs phi theta
    S.gamma (fromDescDofs S.stellsym ⟨rc, a :: rs, zc, b :: zs⟩) phi theta =
      ⟨R * cos (2 * π * phi), R * sin (2 * π * phi),
        u * cosSeries S.nfp cM zc phi theta + sinSeries S.nfp sM zs phi theta⟩ := by
  cases hs : S.stellsym
  · simp only [fromDescDofs, List.drop_succ_cons, List.drop_zero, Bool.false_eq_true, if_false, one_mul]
    rw [List.append_assoc (rc ++ rs), C38_position_general S hs rc rs zc zs hrc hrs hzc]
  · simp only [fromDescDofs, List.drop_succ_cons, List.drop_zero, if_true, zero_mul, add_zero, zero_add]
    rw [C38_position_stellsym S hs rc zs hrc]

/-- A circular torus that is not symmetric. -/
example : (⟨1, false, 1, 0⟩ : SurfaceShape).gamma (fromDescDofs false ⟨[2, 1], [0, 0], [0, 0], [0, 1]⟩) 0 0 = ⟨3, 0, 0⟩ := by
  have := C58_import ⟨1, false, 1, 0⟩ [2, 1] [0] [0, 0] [1] 0 0 rfl rfl rfl 0 0
  simp only [Bool.false_eq_true, if_false] at this
  rw [this]
  simp [cosSeries, sinSeries, modePairs, surfMc, surfNc, surfMs, surfNs, repeatEach, tile, arange, List.range_succ]
  norm_num

example : fromDescDofs true (toDescBlocks true [3, 1, 1]) = [3, 1, 1] :=
  C58_roundtrip id id (fun _ => rfl) [3, 1] [1] rfl (by simp)

/-! ## C69 -/

/-- **C69, false of the code.** For every non-symmetric surface with at least one sine mode, coefficients `[rc, rs, zc, zs]`, the
exported array `rc` is empty and the exported array `rs` holds the leading coefficients of `rc`. -/
theorem C69_to_desc_violated_partial (rc rs zc zs : List ℝ) (hrs : rc.length = rs.length + 1) (hzc : zc.length = rc.length)
    (hzs : zs.length = rs.length) (h1 : rs ≠ []) :
    (toDescBlocks false (rc ++ rs ++ zc ++ zs)).rc = [] ∧
    (toDescBlocks false (rc ++ rs ++ zc ++ zs)).rs = 0 :: rc.take rs.length ∧
    (toDescBlocks false (rc ++ rs ++ zc ++ zs)).zc ≠ zc := by
  have hp : 0 < rs.length := List.length_pos_of_ne_nil h1
  have hlen : (rc ++ rs ++ zc ++ zs).length / 2 / 2 = rs.length := by
    simp only [List.length_append, hrs, hzc, hzs]; omega
  have htake : (rc ++ rs ++ zc ++ zs).take rs.length = rc.take rs.length := by
    rw [List.append_assoc, List.append_assoc, List.take_append_of_le_length (by omega)]
  have htl : (rc.take rs.length).length = rs.length := by rw [List.length_take]; omega
  refine ⟨?_, ?_, ?_⟩
  · simp only [toDescBlocks, Bool.false_eq_true, if_false, hlen, htake, sliceTo, htl, Nat.sub_self, List.take_zero]
    simp
  · simp only [toDescBlocks, Bool.false_eq_true, if_false, hlen, htake, sliceFrom, htl, Nat.sub_self, List.drop_zero]
    rw [if_neg hp.ne']
  · intro h
    have hl := congrArg List.length h
    simp only [toDescBlocks, Bool.false_eq_true, if_false, hlen, sliceTo] at hl
    rw [if_neg hp.ne', List.length_take, List.length_drop] at hl
    simp only [List.length_append] at hl
    omega

/-- A non-symmetric surface with one sine mode. -/
example : (toDescBlocks false [3, 1, 0.1, 0, 0.2, 1]).rc = [] :=
  (C69_to_desc_violated_partial [3, 1] [0.1] [0, 0.2] [1] rfl rfl rfl (by simp)).1

/-- **C69, false of the code.** The exported current potential has net toroidal current 0, whatever the net toroidal current of
the solution; the net poloidal current and the coefficients are kept. -/
theorem C69_simsopt_net_current_violated_partial (P : CpParams) (phi : List ℝ) (hI : P.I ≠ 0) :
    (toSimsoptCp P phi).netToroidal ≠ P.I ∧ (toSimsoptCp P phi).netPoloidal = P.G ∧ (toSimsoptCp P phi).dofs = phi :=
  ⟨Ne.symm hI, rfl, rfl⟩

example : (toSimsoptCp ⟨⟨2, true, 1, 0⟩, [3, 1, 1], 1, 5, 1, 1, true⟩ []).netToroidal ≠ 5 :=
  (C69_simsopt_net_current_violated_partial ⟨⟨2, true, 1, 0⟩, [3, 1, 1], 1, 5, 1, 1, true⟩ [] (by norm_num)).1

theorem focusRows_length (S : SurfaceShape) : (focusRows S).length = (S.mpol + 1) * (2 * S.ntor + 1) := by
  rw [focusRows, List.length_flatMap]
  simp only [List.length_map, arange_length]
  rw [List.map_const', List.sum_replicate, arange_length, smul_eq_mul]
  congr 1 <;> omega

/-- The number of coefficients of a surface (see `C37_dof_count`). -/
def SurfaceShape.dofCount (S : SurfaceShape) : ℕ :=
  if S.stellsym then (2 * S.mpol + 1) * (2 * S.ntor + 1) else 2 * ((2 * S.mpol + 1) * (2 * S.ntor + 1))

/-- **C69, false of the code.** The number of modes declared in a FOCUS file equals the number of mode rows written exactly when
the surface is stellarator symmetric and axisymmetric modes `m = 0` only are used, which is not a torus. -/
theorem C69_focus_mode_count_violated_partial (S : SurfaceShape) (dofs : List ℝ) (hd : dofs.length = S.dofCount) :
    focusHeaderModes dofs = (focusRows S).length ↔ S.stellsym = true ∧ S.mpol = 0 := by
  rw [focusHeaderModes, hd, focusRows_length, SurfaceShape.dofCount]
  cases S.stellsym
  · simp only [Bool.false_eq_true, if_false, false_and, iff_false]
    have := Nat.mul_lt_mul_of_pos_right (show S.mpol + 1 < 2 * (2 * S.mpol + 1) by omega) (show 0 < 2 * S.ntor + 1 by omega)
    rw [← mul_assoc]; omega
  · simp only [if_true, true_and]
    constructor
    · intro h
      have := Nat.eq_of_mul_eq_mul_right (by omega) h
      omega
    · intro h; rw [h]

/-- The count used above is the number of columns of the evaluation operators. -/
example (S : SurfaceShape) (hs : S.stellsym = true) :
    (surfMc S.mpol S.ntor).length + (surfMs S.mpol S.ntor).length = S.dofCount := by
  have h := C37_mode_counts S.mpol S.ntor
  rw [h.1, h.2.2.1, SurfaceShape.dofCount, hs, if_pos rfl]; ring

example : ¬ focusHeaderModes [3, 1, 1] = (focusRows ⟨1, true, 1, 0⟩).length := by
  rw [C69_focus_mode_count_violated_partial _ _ rfl]; simp

/-- **C69, true part.** The rows written are the modes with `0 ≤ m ≤ mpol` and `|n| ≤ ntor`, each once. -/
theorem C69_focus_rows_partial (S : SurfaceShape) :
    (focusRows S).Nodup ∧ ∀ n m : ℤ, (n, m) ∈ focusRows S ↔ 0 ≤ m ∧ m ≤ S.mpol ∧ |n| ≤ S.ntor := by
  constructor
  · rw [focusRows, List.nodup_flatMap]
    refine ⟨fun m _ => (arange_nodup _ _).map fun a b h => by simpa using h, ?_⟩
    refine (arange_nodup _ _).imp fun {a b} hab => ?_
    rw [Function.onFun, List.disjoint_left]
    rintro ⟨n, m⟩ h1 h2
    simp only [List.mem_map, Prod.mk.injEq] at h1 h2
    obtain ⟨_, _, _, rfl⟩ := h1
    obtain ⟨_, _, _, rfl⟩ := h2
    exact hab rfl
  · intro n m
    simp only [focusRows, List.mem_flatMap, List.mem_map, Prod.mk.injEq, mem_arange]
    constructor
    · rintro ⟨m', ⟨h1, h2⟩, n', ⟨h3, h4⟩, rfl, rfl⟩
      exact ⟨h1, by omega, abs_le.2 ⟨h3, by omega⟩⟩
    · rintro ⟨h1, h2, h3⟩
      obtain ⟨h4, h5⟩ := abs_le.1 h3
      exact ⟨m, ⟨h1, by omega⟩, n, ⟨h4, by omega⟩, rfl, rfl⟩

example : ((-1 : ℤ), (1 : ℤ)) ∈ focusRows ⟨1, true, 1, 1⟩ :=
  ((C69_focus_rows_partial ⟨1, true, 1, 1⟩).2 _ _).2 (by simp)

/-! ## C80 -/

/-- **C80, false of the code.** The DESC wrapper never returns: whatever its arguments, a name that is not defined in the module is
evaluated. -/
theorem C80_quadcoil_desc_violated_partial {β : Type} (run : Except PyErr β) : quadcoilDesc run = .error .nameError := by
  have h : "_DESC_DERIVED_ARGNAMES" ∉ descGlobals := by decide
  simp only [quadcoilDesc, evalGlobal, if_neg h]
  rfl

example : quadcoilDesc (.ok 1 : Except PyErr ℕ) ≠ .ok 1 := by
  rw [C80_quadcoil_desc_violated_partial]; simp

/-- **C80, false of the code.** Writing a FOCUS file works for quadcoil and simsopt surfaces and fails for DESC surfaces. -/
theorem C80_save_focus_violated_partial (t : SurfaceType) :
    focusReadCoefs t = if t = .desc then .error .attributeError else .ok () := by
  cases t <;> rfl

/-! ## C81 -/

theorem mapM_except_get {α β : Type} (f : α → Except PyErr β) (l : List α) (r : List β) (h : l.mapM f = .ok r) :
    r.length = l.length ∧ ∀ i (hi : i < l.length) (hr : i < r.length), f l[i] = .ok r[i] := by
  induction l generalizing r with
  | nil =>
    simp only [List.mapM_nil, pure, Except.pure, Except.ok.injEq] at h
    subst h; simp
  | cons a l ih =>
    rw [List.mapM_cons] at h
    cases ha : f a with
    | error e => rw [ha] at h; simp [bind, Except.bind] at h
    | ok b =>
      rw [ha] at h
      cases hl : l.mapM f with
      | error e => rw [hl] at h; simp [bind, Except.bind] at h
      | ok bs =>
        rw [hl] at h
        simp only [bind, Except.bind, pure, Except.pure, Except.ok.injEq] at h
        subst h
        obtain ⟨h1, h2⟩ := ih bs hl
        refine ⟨by simp [h1], ?_⟩
        rintro (_ | i) hi hr
        · simpa using ha
        · simpa using h2 i (by simpa using hi) (by simpa using hr)

/-- The entries of one or many. -/
def OneOrMany.entries {α : Type} : OneOrMany α → List α
  | .one a => [a]
  | .many l => l

/-- **C81.** The scaling helper returns one unit per objective and one per constraint, in the order of the names, and a plain
number exactly when the objective is a plain string; a name without unit raises. -/
theorem C81_one_unit_per_name (unit : String → Except PyErr ℝ) (objectiveName : OneOrMany String) (constraintName : List String)
    (o : OneOrMany ℝ) (c : List ℝ) (h : generateDescScaling unit objectiveName constraintName = .ok (o, c)) :
    ((∃ s, objectiveName = .one s) ↔ ∃ u, o = .one u) ∧
    o.entries.length = objectiveName.entries.length ∧
    (∀ i (hi : i < objectiveName.entries.length) (ho : i < o.entries.length),
      unit objectiveName.entries[i] = .ok o.entries[i]) ∧
    c.length = constraintName.length ∧
    (∀ i (hi : i < constraintName.length) (hc : i < c.length), unit constraintName[i] = .ok c[i]) := by
  cases objectiveName with
  | one s =>
    simp only [generateDescScaling, bind, Except.bind] at h
    cases hu : unit s with
    | error e => rw [hu] at h; simp at h
    | ok u =>
      rw [hu] at h
      cases hm : constraintName.mapM unit with
      | error e => rw [hm] at h; simp at h
      | ok cs =>
        rw [hm] at h
        simp only [Except.ok.injEq, Prod.mk.injEq] at h
        obtain ⟨rfl, rfl⟩ := h
        obtain ⟨h1, h2⟩ := mapM_except_get unit _ _ hm
        refine ⟨⟨fun _ => ⟨u, rfl⟩, fun _ => ⟨s, rfl⟩⟩, rfl, ?_, h1, h2⟩
        intro i hi ho
        have : i = 0 := by simpa [OneOrMany.entries] using hi
        subst this
        simpa [OneOrMany.entries] using hu
  | many ns =>
    simp only [generateDescScaling, bind, Except.bind] at h
    cases hu : ns.mapM unit with
    | error e => rw [hu] at h; simp at h
    | ok us =>
      rw [hu] at h
      cases hm : constraintName.mapM unit with
      | error e => rw [hm] at h; simp at h
      | ok cs =>
        rw [hm] at h
        simp only [Except.ok.injEq, Prod.mk.injEq] at h
        obtain ⟨rfl, rfl⟩ := h
        obtain ⟨h1, h2⟩ := mapM_except_get unit _ _ hm
        obtain ⟨h3, h4⟩ := mapM_except_get unit _ _ hu
        refine ⟨⟨?_, ?_⟩, h3, h4, h1, h2⟩
        · rintro ⟨s, hs⟩; exact absurd hs (by simp)
        · rintro ⟨s, hs⟩; exact absurd hs (by simp)

theorem mapM_except_ok {α β : Type} (f : α → Except PyErr β) (l : List α) (h : ∀ a ∈ l, ∃ b, f a = .ok b) :
    ∃ r, l.mapM f = .ok r := by
  induction l with
  | nil => exact ⟨[], rfl⟩
  | cons a l ih =>
    obtain ⟨b, hb⟩ := h a (List.mem_cons_self ..)
    obtain ⟨r, hr⟩ := ih fun x hx => h x (List.mem_cons_of_mem _ hx)
    exact ⟨b :: r, by rw [List.mapM_cons, hb, hr]; rfl⟩

/-- **C81.** The helper succeeds whenever every name has a unit. -/
theorem C81_succeeds (unit : String → Except PyErr ℝ) (objectiveName : OneOrMany String) (constraintName : List String)
    (ho : ∀ s ∈ objectiveName.entries, ∃ u, unit s = .ok u) (hc : ∀ s ∈ constraintName, ∃ u, unit s = .ok u) :
    ∃ r, generateDescScaling unit objectiveName constraintName = .ok r := by
  obtain ⟨cs, hcs⟩ := mapM_except_ok unit constraintName hc
  cases objectiveName with
  | one s =>
    obtain ⟨u, hu⟩ := ho s (by simp [OneOrMany.entries])
    exact ⟨_, by simp only [generateDescScaling, hu, hcs]; rfl⟩
  | many ns =>
    obtain ⟨us, hus⟩ := mapM_except_ok unit ns ho
    exact ⟨_, by simp only [generateDescScaling, hus, hcs]; rfl⟩

example : generateDescScaling (fun s => if s = "f_B" then .ok 2 else .ok 3) (.many ["f_B", "f_K"]) ["f_B"]
    = .ok (.many [2, 3], [2]) := rfl

/-! ## C82 -/

/-- **C82, false of the code.** If `f_obj` is among the metrics, the output of the differentiable function and the primal output of
its derivative rule have different keys. -/
theorem C82_primal_keys_violated_partial {V : Type} (fObj : V) (metric : String → Except PyErr V) (a : YArgs)
    (names : List String) (out full : List (String × MetricOut V)) (hv : valueOnlyOut metric names = .ok out)
    (hg : gradientOut fObj metric a names = .ok full) (hn : "f_obj" ∈ names) :
    out.lookup "f_obj" = none ∧ ∃ v, full.lookup "f_obj" = some v := by
  obtain ⟨v, keys, h, _⟩ := C30_gradient_mode_reports_all_partial fObj metric a names full hg "f_obj" hn
  exact ⟨C30_value_only_drops_f_obj_violated_partial metric names out hv, _, h⟩

example : valueOnlyOut (V := ℕ) (fun _ => .ok 3) ["f_obj", "f_B"] = .ok [("f_B", ⟨3, none⟩)] ∧
    ∃ full, gradientOut (V := ℕ) 7 (fun _ => .ok 3) ⟨true, 0, true, false⟩ ["f_obj", "f_B"] = .ok full :=
  ⟨rfl, _, rfl⟩

/-- **C82, true part.** All other metrics have the same value in both outputs, and metrics not asked for are in neither. -/
theorem C82_primal_values_partial {V : Type} (fObj : V) (metric : String → Except PyErr V) (a : YArgs)
    (names : List String) (out full : List (String × MetricOut V)) (hv : valueOnlyOut metric names = .ok out)
    (hg : gradientOut fObj metric a names = .ok full) (n : String) (hne : n ≠ "f_obj") :
    (out.lookup n).map MetricOut.value = (full.lookup n).map MetricOut.value ∧
      ((out.lookup n).isSome ↔ n ∈ names) := by
  by_cases hn : n ∈ names
  · obtain ⟨v, h1, h2⟩ := C30_value_only_reports_others_partial metric names out hv n hn hne
    obtain ⟨w, keys, h3, h4⟩ := C30_gradient_mode_reports_all_partial fObj metric a names full hg n hn
    rw [if_neg hne, h2] at h4
    rw [h1, h3]
    simp only [Except.ok.injEq] at h4
    simp [h4, hn]
  · have h1 := (valueOnlyOut_lookup metric names [] out hv n).2 (Or.inl hn)
    have h2 := (gradientOut_lookup fObj metric a names [] full hg n).2 hn
    rw [h1, h2]; simp [hn]

/-! ## C83 -/

/-- **C83, false of the code.** Coils cut from a current potential without net poloidal current carry no current, whatever the
current potential; so they do not reproduce its field. -/
theorem C83_zero_current_violated_partial (numCoils nfp : ℕ) (stellsym : Bool) : coilCurrent 0 numCoils nfp stellsym = 0 := by
  cases stellsym <;> simp [coilCurrent]

/-- **C83, true part.** With net poloidal current every coil carries current. -/
theorem C83_nonzero_current_partial (G : ℝ) (hG : G ≠ 0) (numCoils nfp : ℕ) (hc : 0 < numCoils) (hn : 0 < nfp)
    (stellsym : Bool) : coilCurrent G numCoils nfp stellsym ≠ 0 := by
  have h1 : (numCoils : ℝ) ≠ 0 := Nat.cast_ne_zero.2 hc.ne'
  have h2 : (nfp : ℝ) ≠ 0 := Nat.cast_ne_zero.2 hn.ne'
  cases stellsym <;> simp [coilCurrent, hG, h1, h2]

example : coilCurrent 10 5 1 false ≠ 0 := C83_nonzero_current_partial 10 (by norm_num) 5 1 (by norm_num) (by norm_num) false

end Verif
