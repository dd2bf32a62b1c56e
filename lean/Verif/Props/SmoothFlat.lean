import Verif.Props.Exact
import Verif.Props.OuterRate
import Verif.Lemmas.SmoothConvex

/-!
# C130: the problem passed to the solver is smooth and convex
-/

namespace Verif

open Real CpParams

/-! ## The quantities as functions of the flat vector -/

/-- The names of the quadratic quantities that are convex. -/
def quadNames : List String := ["K2", "f_K", "Bnormal2", "f_B", "f_B_normalized_by_Bnormal_IG", "Phi2", "f_Phi"]

/-- The names of the maxima of affine fields and of squared normal fields. -/
def maxNames : List String := ["f_max_Bnormal", "f_max_Bnormal2", "f_max_Phi", "f_max_Phi2", "f_max_Phi4"]

/-- Affine and quadratic quantities are smooth in every mode, maxima with auxiliary variables. -/
def SmoothUse (sm : Option String) (name : String) : Prop :=
  name ∈ affineNames ∨ name ∈ quadNames ∨ (sm = some "slack" ∧ name ∈ maxNames)

section
variable {N L : ℕ}

theorem AffineOnVectors.isAffineFn {f : List ℝ → ℝ} (h : AffineOnVectors L f) : IsAffineFn fun y : Fin L → ℝ => f (List.ofFn y) := by
  intro x y a
  simp only [ofFn_comb]
  exact h _ _ (by simp) (by simp) a

theorem EachEntry.fn {p : (List ℝ → ℝ) → Prop} {r : ((Fin L → ℝ) → ℝ) → Prop} {g : List ℝ → List ℝ} (h : EachEntry p g)
    (hp : ∀ f, p f → r fun y => f (List.ofFn y)) : EachFn r fun y : Fin L → ℝ => g (List.ofFn y) := by
  obtain ⟨fs, e, hf⟩ := h
  refine ⟨fs.map fun f y => f (List.ofFn y), fun y => ?_, fun f' hf' => ?_⟩
  · simp only [e, List.map_map]
    rfl
  · obtain ⟨f, hfm, rfl⟩ := List.mem_map.1 hf'
    exact hp f (hf f hfm)

theorem EachFn.comp {p : ((Fin L → ℝ) → ℝ) → Prop} {q : ((Fin N → ℝ) → ℝ) → Prop} {F : (Fin L → ℝ) → List ℝ} (hF : EachFn p F)
    (T : (Fin N → ℝ) → Fin L → ℝ) (h : ∀ f, p f → q fun x => f (T x)) : EachFn q fun x => F (T x) := by
  obtain ⟨fs, e, hf⟩ := hF
  refine ⟨fs.map fun f x => f (T x), fun x => ?_, fun f' hf' => ?_⟩
  · simp only [e, List.map_map]
    rfl
  · obtain ⟨f, hfm, rfl⟩ := List.mem_map.1 hf'
    exact h f (hf f hfm)

theorem termsSq_smooth (T : List (ℝ × ((Fin L → ℝ) → ℝ))) (hf : ∀ t ∈ T, IsAffineFn t.2) (hw : ∀ t ∈ T, 0 ≤ t.1) :
    SmoothConvex (termsSq T) := by
  have := SmoothConvex.list_sum (T.map fun t x => t.1 * t.2 x ^ 2) (by
    intro f hf'
    obtain ⟨t, ht, rfl⟩ := List.mem_map.1 hf'
    exact ((hf t ht).sq).const_mul (hw t ht))
  have e : termsSq T = fun x => ((T.map fun t x => t.1 * t.2 x ^ 2).map fun f => f x).sum := by
    funext x
    simp only [termsSq, List.map_map]
    rfl
  rw [e]
  exact this

end

section
variable (Q : FieldProblem) {L : ℕ}

theorem smooth_fB (hp : 0 ≤ gridStep Q.plasma.phis * gridStep Q.plasma.thetas) (he : 0 ≤ gridStep Q.ePhis * gridStep Q.eThetas) :
    SmoothConvex fun y : Fin L → ℝ => Q.fB (List.ofFn y) := by
  have h := termsSq_smooth (regTerms Q 0 L) (regTerms_affine Q 0 L) (regTerms_nonneg Q 0 L le_rfl hp he)
  have e : (fun y : Fin L → ℝ => Q.fB (List.ofFn y)) = termsSq (regTerms Q 0 L) := by
    funext y
    have := regObjective_eq Q 0 y
    simpa [regObjective, termsSq] using this
  rw [e]
  exact h

theorem smooth_fK (he : 0 ≤ gridStep Q.ePhis * gridStep Q.eThetas) : SmoothConvex fun y : Fin L → ℝ => Q.fK (List.ofFn y) := by
  have h := termsSq_smooth (kTerms Q 1 L) (kTerms_affine Q 1 L) (by
    intro t ht
    simp only [kTerms, List.mem_flatMap, List.mem_cons, List.not_mem_nil, or_false] at ht
    obtain ⟨q, -, ht⟩ := ht
    have : 0 ≤ 1 * (gridStep Q.ePhis * gridStep Q.eThetas * (Q.cp.surf.normal Q.cp.wdofs q.1 q.2).norm) * (Q.cp.nfp : ℝ) / 2 := by
      have : 0 ≤ (Q.cp.surf.normal Q.cp.wdofs q.1 q.2).norm := Real.sqrt_nonneg _
      positivity
    rcases ht with rfl | rfl | rfl <;> exact this)
  have e : (fun y : Fin L → ℝ => Q.fK (List.ofFn y)) = termsSq (kTerms Q 1 L) := by
    funext y
    rw [kTerms_sum, one_mul]
  rw [e]
  exact h

theorem affine_Phi (q : ℝ × ℝ) : AffineOnVectors L fun c => Q.cp.Phi c q.1 q.2 := affine_app _

theorem smooth_fPhi (he : 0 ≤ gridStep Q.ePhis * gridStep Q.eThetas) : SmoothConvex fun y : Fin L → ℝ =>
    Q.evalSurface.integrate (Q.evalGrid.map fun q => Q.cp.Phi (List.ofFn y) q.1 q.2 ^ 2 / 2) * Q.cp.nfp := by
  have h := SmoothConvex.wsum Q.evalSurface.da (da_nonneg Q.evalSurface he)
    (Q.evalGrid.map fun q (y : Fin L → ℝ) => (1 / 2 : ℝ) * Q.cp.Phi (List.ofFn y) q.1 q.2 ^ 2) (by
      intro f hf
      obtain ⟨q, -, rfl⟩ := List.mem_map.1 hf
      exact ((affine_Phi Q q).isAffineFn.sq).const_mul (by norm_num))
  have h2 := h.const_mul (w := Q.cp.nfp) (Nat.cast_nonneg _)
  refine (congrArg SmoothConvex (funext fun y => ?_)).mp h2
  rw [GridSurface.integrate, mul_comm, List.map_map]
  congr 2
  rw [List.zipWith_comm_of_comm (fun _ _ => mul_comm _ _)]
  congr 1
  refine List.map_congr_left fun q _ => ?_
  simp only [Function.comp_apply]
  ring

/-- The quadratic quantities are smooth and convex in the coefficients. -/
theorem quad_smooth (hp : 0 ≤ gridStep Q.plasma.phis * gridStep Q.plasma.thetas) (he : 0 ≤ gridStep Q.ePhis * gridStep Q.eThetas)
    (name : String) (h : name ∈ quadNames) :
    ∃ func comp, (shipped FieldProblem.fns).lookup name = some (Quantity.generateC2 func comp) ∧
      EachFn SmoothConvex fun y : Fin L → ℝ => (func Q (phiOnly (.array (List.ofFn y)))).entries := by
  have single : ∀ {f : (Fin L → ℝ) → ℝ}, SmoothConvex f → EachFn SmoothConvex fun y => [f y] := fun h => EachFn.single h
  simp only [quadNames, List.mem_cons, List.not_mem_nil, or_false] at h
  rcases h with rfl | rfl | rfl | rfl | rfl | rfl | rfl <;> refine ⟨_, _, rfl, ?_⟩ <;>
    simp only [arr, num, Val.entries, FieldProblem.fns, coefs_phiOnly]
  · refine ⟨Q.evalGrid.map fun q y => Q.cp.K2 (List.ofFn y) q.1 q.2, fun y => by rw [List.map_map]; rfl, fun f hf => ?_⟩
    obtain ⟨q, -, rfl⟩ := List.mem_map.1 hf
    obtain ⟨h1, h2, h3⟩ := affine_K Q (n := L) q
    have := ((h1.isAffineFn.sq).add (h2.isAffineFn.sq)).add (h3.isAffineFn.sq)
    simpa only [CpParams.K2, V3.normSq, V3.dot, ← pow_two] using this
  · exact single (smooth_fK Q he)
  · simp only [FieldProblem.bnormal, List.map_map]
    refine ⟨((gridPoints Q.plasma.phis Q.plasma.thetas).zip Q.bPlasma).map fun q y => (Q.bnWinding (List.ofFn y) q.1 + q.2) ^ 2,
      fun y => by rw [List.map_map]; rfl, fun f hf => ?_⟩
    obtain ⟨q, -, rfl⟩ := List.mem_map.1 hf
    exact (affine_bnormal Q q).isAffineFn.sq
  · exact single (smooth_fB Q hp he)
  · refine single ?_
    have := (smooth_fB Q (L := L) hp he).const_mul (w := (Q.fB (List.replicate (cpNdofs Q.cp.stellsym Q.cp.mpol Q.cp.ntor).1 0))⁻¹)
      (inv_nonneg.2 (C47_objectives_nonneg Q hp he _).1)
    simpa only [FieldProblem.fBnormalized, div_eq_inv_mul] using this
  · refine ⟨Q.evalGrid.map fun q y => Q.cp.Phi (List.ofFn y) q.1 q.2 ^ 2, fun y => by rw [List.map_map]; rfl, fun f hf => ?_⟩
    obtain ⟨q, -, rfl⟩ := List.mem_map.1 hf
    exact (affine_Phi Q q).isAffineFn.sq
  · exact single (smooth_fPhi Q he)

/-- The affine quantities. -/
theorem affine_smooth (name : String) (h : name ∈ affineNames) :
    ∃ func comp, (shipped FieldProblem.fns).lookup name = some (Quantity.generateC2 func comp) ∧
      EachFn IsAffineFn fun y : Fin L → ℝ => (func Q (phiOnly (.array (List.ofFn y)))).entries := by
  obtain ⟨q, hq, hv⟩ := C124_affine_partial (n := L) Q name h
  have hc : ∃ func comp, q = Quantity.generateC2 func comp := by
    simp only [affineNames, List.mem_cons, List.not_mem_nil, or_false] at h
    rcases h with rfl | rfl | rfl | rfl | rfl | rfl <;> exact ⟨_, _, (Option.some.inj hq).symm⟩
  obtain ⟨func, comp, rfl⟩ := hc
  refine ⟨func, comp, hq, ?_⟩
  have := hv.fn (r := IsAffineFn) fun f hf => hf.isAffineFn
  simpa only [valuesOf, call_phiOnly, Quantity.generateC2] using this

end

/-! ## One use of a quantity -/

/-- The dictionary as a function of the flat vector: the potential is read from some entries and scaled, the auxiliary variables `ks` are
entries. -/
structure FlatDofs {N : ℕ} (L : ℕ) (D : (Fin N → ℝ) → Dofs) (ks : List String) where
  unit : ℝ
  pos : Fin L → Fin N
  inj : Function.Injective pos
  phi : ∀ x, D x "phi" = .array (List.ofFn fun l => x (pos l) * unit)
  aux : ∀ k ∈ ks, ∃ i, ∀ x, D x k = .scalar (x i)

section
variable {N L : ℕ} {D : (Fin N → ℝ) → Dofs} {ks : List String}

theorem FlatDofs.affine (F : FlatDofs L D ks) {Q : FieldProblem} {func : FieldProblem → Dofs → Val} (hf : PhiOnly func)
    (h : EachFn IsAffineFn fun y : Fin L → ℝ => (func Q (phiOnly (.array (List.ofFn y)))).entries) :
    EachFn IsAffineFn fun x => (func Q (D x)).entries := by
  have := h.comp (q := IsAffineFn) (fun (x : Fin N → ℝ) l => x (F.pos l) * F.unit) fun f hf => hf.comp_coords F.pos F.unit
  refine (congrArg (EachFn IsAffineFn) (funext fun x => ?_)).mp this
  rw [hf Q (D x) (phiOnly (.array (List.ofFn fun l => x (F.pos l) * F.unit))) (by simp [phiOnly, F.phi])]

theorem FlatDofs.smooth (F : FlatDofs L D ks) {Q : FieldProblem} {func : FieldProblem → Dofs → Val} (hf : PhiOnly func)
    (h : EachFn SmoothConvex fun y : Fin L → ℝ => (func Q (phiOnly (.array (List.ofFn y)))).entries) :
    EachFn SmoothConvex fun x => (func Q (D x)).entries := by
  have := h.comp (q := SmoothConvex) (fun (x : Fin N → ℝ) l => x (F.pos l) * F.unit) fun f hf => hf.comp_coords F.pos F.unit
  refine (congrArg (EachFn SmoothConvex) (funext fun x => ?_)).mp this
  rw [hf Q (D x) (phiOnly (.array (List.ofFn fun l => x (F.pos l) * F.unit))) (by simp [phiOnly, F.phi])]

theorem EachFn.div_smooth {F : (Fin N → ℝ) → List ℝ} (h : EachFn SmoothConvex F) {w : ℝ} (hw : 0 ≤ w) :
    EachFn SmoothConvex fun x => (F x).map fun t => t / w :=
  h.map (fun _ t => t / w) fun f hf => by simpa only [div_eq_inv_mul] using hf.const_mul (inv_nonneg.2 hw)

theorem EachFn.div_affine {F : (Fin N → ℝ) → List ℝ} (h : EachFn IsAffineFn F) (w : ℝ) :
    EachFn IsAffineFn fun x => (F x).map fun t => t / w :=
  h.map (fun _ t => t / w) fun f hf => by simpa only [div_eq_inv_mul] using hf.const_mul w⁻¹

/-- The inequality functions of a maximum. -/
theorem slackIneq_entries (v : Val) (w p : ℝ) (pd : Bool) : (Quantity.slackIneq v (.scalar w) (.scalar p) pd).entries =
    (v.entries.map fun t => t / w - p) ++ if pd then [] else v.entries.map fun t => -t / w - p := by
  cases pd <;> simp [Quantity.slackIneq, Val.map2, Val.map, Val.entries, Function.comp_def]

theorem smooth_sub {f : (Fin N → ℝ) → ℝ} (hf : SmoothConvex f) {w : ℝ} (hw : 0 ≤ w) (i : Fin N) :
    SmoothConvex fun x => f x / w - x i := by
  have := (hf.const_mul (inv_nonneg.2 hw)).add (IsAffineFn.coord i).neg.smoothConvex
  simpa only [div_eq_inv_mul, sub_eq_add_neg] using this

/-- What a use of a quantity gives: the value and the functions that come with it. -/
structure SmoothAdded (Q : FieldProblem) (D : (Fin N → ℝ) → Dofs) (A : Added FieldProblem) : Prop where
  val : EachFn SmoothConvex fun x => (A.val Q (D x)).entries
  g : ∀ g ∈ A.g, EachFn SmoothConvex fun x => (g Q (D x)).entries
  h : A.h = []

/-- The uses of quantities named in `SmoothUse` are smooth and convex functions of the flat vector, and their auxiliary variables are
numbers. -/
theorem smooth_use (Q : FieldProblem) (hp : 0 ≤ gridStep Q.plasma.phis * gridStep Q.plasma.thetas)
    (he : 0 ≤ gridStep Q.ePhis * gridStep Q.eThetas) {sm : Option String} (hsm : sm = none ∨ sm = some "slack") (sp : SmoothingParams)
    {name : String} (h : SmoothUse sm name) {q : Quantity FieldProblem} (hq : (shipped FieldProblem.fns).lookup name = some q)
    (F : FlatDofs L D ks) (hks : ∀ k ∈ auxOf sm q, k ∈ ks) (u : ℝ) :
    SmoothAdded Q D (addedOf q sm sp fun _ => .scalar |u|) ∧
      (name ∈ affineNames → EachFn IsAffineFn fun x => ((addedOf q sm sp fun _ => .scalar |u|).val Q (D x)).entries) ∧
      ∀ kv ∈ (addedOf q sm sp fun _ => .scalar |u|).slack, ∀ d, (kv.2 Q d).isScalar = true := by
  have hc2 : ∀ func comp, q = Quantity.generateC2 func comp → ∀ x, ((addedOf q sm sp fun _ => .scalar |u|).val Q (D x)).entries =
      (func Q (D x)).entries.map fun t => t / |u| := by
    rintro func comp rfl x
    rw [← map2_div_entries]
    rcases hsm with rfl | rfl <;> rfl
  have hc2' : ∀ func comp, q = Quantity.generateC2 func comp → (addedOf q sm sp fun _ => .scalar |u|).g = [] ∧
      (addedOf q sm sp fun _ => .scalar |u|).h = [] ∧ (addedOf q sm sp fun _ => .scalar |u|).slack = [] := by
    rintro func comp rfl
    rcases hsm with rfl | rfl <;> exact ⟨rfl, rfl, rfl⟩
  have hphi : ∀ func comp, q = Quantity.generateC2 func comp → PhiOnly func := by
    rintro func comp rfl
    exact shipped_phiOnly _ (mem_of_lookup hq)
  rcases h with h | h | ⟨rfl, h⟩
  · obtain ⟨func, comp, hq', hv⟩ := affine_smooth (L := L) Q name h
    rw [hq] at hq'
    have e := Option.some.inj hq'
    obtain ⟨e1, e2, e3⟩ := hc2' func comp e
    have hval : EachFn IsAffineFn fun x => ((addedOf q sm sp fun _ => .scalar |u|).val Q (D x)).entries := by
      simp only [hc2 func comp e]
      exact (F.affine (hphi func comp e) hv).div_affine _
    refine ⟨⟨hval.mono fun f hf => hf.smoothConvex, ?_, e2⟩, fun _ => hval, ?_⟩
    · rw [e1]
      simp
    · rw [e3]
      simp
  · obtain ⟨func, comp, hq', hv⟩ := quad_smooth (L := L) Q hp he name h
    rw [hq] at hq'
    have e := Option.some.inj hq'
    obtain ⟨e1, e2, e3⟩ := hc2' func comp e
    have hval : EachFn SmoothConvex fun x => ((addedOf q sm sp fun _ => .scalar |u|).val Q (D x)).entries := by
      simp only [hc2 func comp e]
      exact (F.smooth (hphi func comp e) hv).div_smooth (abs_nonneg _)
    refine ⟨⟨hval, ?_, e2⟩, fun h' => ?_, ?_⟩
    · rw [e1]
      simp
    · exfalso
      have : ∀ n ∈ quadNames, n ∉ affineNames := by decide
      exact this name h h'
    · rw [e3]
      simp
  · have hna : name ∉ affineNames := by
      have : ∀ n ∈ maxNames, n ∉ affineNames := by decide
      exact this name h
    have hB : EachFn IsAffineFn fun x => (arr FieldProblem.fns.Bnormal Q (D x)).entries := by
      obtain ⟨func, comp, hq', hv⟩ := affine_smooth (L := L) Q "Bnormal" (by decide)
      have e := congrArg Quantity.rawF (Option.some.inj hq'.symm)
      have e' : func = arr FieldProblem.fns.Bnormal := e
      subst e'
      exact F.affine (shipped_phiOnly _ (mem_of_lookup hq')) hv
    have hB2 : EachFn SmoothConvex fun x => (arr FieldProblem.fns.Bnormal2 Q (D x)).entries := by
      obtain ⟨func, comp, hq', hv⟩ := quad_smooth (L := L) Q hp he "Bnormal2" (by decide)
      have e := congrArg Quantity.rawF (Option.some.inj hq'.symm)
      have e' : func = arr FieldProblem.fns.Bnormal2 := e
      subst e'
      exact F.smooth (shipped_phiOnly _ (mem_of_lookup hq')) hv
    have hPhi : EachFn IsAffineFn fun x => (arr FieldProblem.fns.Phi Q (D x)).entries := by
      obtain ⟨func, comp, hq', hv⟩ := affine_smooth (L := L) Q "Phi" (by decide)
      have e := congrArg Quantity.rawF (Option.some.inj hq'.symm)
      have e' : func = arr FieldProblem.fns.Phi := e
      subst e'
      exact F.affine (shipped_phiOnly _ (mem_of_lookup hq')) hv
    have two : ∀ {f : FieldProblem → Dofs → List ℝ} (i : Fin N) {w : ℝ}, 0 ≤ w →
        (EachFn IsAffineFn fun x => (arr f Q (D x)).entries) →
        EachFn SmoothConvex fun x => ((arr f Q (D x)).entries.map fun t => t / w - x i) ++
          (arr f Q (D x)).entries.map fun t => -t / w - x i := by
      intro f i w hw hf
      refine EachFn.append (hf.map (fun x t => t / w - x i) fun f hf => ?_) (hf.map (fun x t => -t / w - x i) fun f hf => ?_)
      · exact smooth_sub hf.smoothConvex hw i
      · exact smooth_sub hf.neg.smoothConvex hw i
    simp only [maxNames, List.mem_cons, List.not_mem_nil, or_false] at h
    rcases h with rfl | rfl | rfl | rfl | rfl
    · cases hq
      obtain ⟨i, hi⟩ := F.aux "scaled max Bnormal" (hks _ (by simp [auxOf, Quantity.generateLinf]))
      refine ⟨⟨?_, fun g hg => ?_, rfl⟩, fun h' => absurd h' hna, fun kv hkv d => ?_⟩
      · simp only [addedOf, Quantity.generateLinf, if_true, Bool.false_eq_true, if_false, hi, Val.entries]
        exact EachFn.single (IsAffineFn.coord i).smoothConvex
      · simp only [addedOf, Quantity.generateLinf, if_true, Option.map_some, Option.toList_some, List.mem_singleton] at hg
        subst hg
        simp only [hi, Bool.false_eq_true, if_false, slackIneq_entries]
        exact two i (abs_nonneg u) hB
      · simp only [addedOf, Quantity.generateLinf, if_true, Option.getD_some, List.map_cons, List.map_nil, List.mem_singleton] at hkv
        subst hkv
        rfl
    · cases hq
      obtain ⟨i, hi⟩ := F.aux "scaled max Bnormal2" (hks _ (by simp [auxOf, Quantity.generateLinf]))
      refine ⟨⟨?_, fun g hg => ?_, rfl⟩, fun h' => absurd h' hna, fun kv hkv d => ?_⟩
      · simp only [addedOf, Quantity.generateLinf, if_true, Bool.false_eq_true, if_false, hi, Val.entries]
        exact EachFn.single (IsAffineFn.coord i).smoothConvex
      · simp only [addedOf, Quantity.generateLinf, if_true, Option.map_some, Option.toList_some, List.mem_singleton] at hg
        subst hg
        simp only [hi, Bool.false_eq_true, if_false, if_true, slackIneq_entries, List.append_nil]
        exact hB2.map (fun x t => t / |u| - x i) fun f hf => smooth_sub hf (abs_nonneg u) i
      · simp only [addedOf, Quantity.generateLinf, if_true, Option.getD_some, List.map_cons, List.map_nil, List.mem_singleton] at hkv
        subst hkv
        rfl
    · cases hq
      obtain ⟨i, hi⟩ := F.aux "scaled_max_Phi" (hks _ (by simp [auxOf, Quantity.generateLinf]))
      refine ⟨⟨?_, fun g hg => ?_, rfl⟩, fun h' => absurd h' hna, fun kv hkv d => ?_⟩
      · simp only [addedOf, Quantity.generateLinf, if_true, Bool.false_eq_true, if_false, hi, Val.entries]
        exact EachFn.single (IsAffineFn.coord i).smoothConvex
      · simp only [addedOf, Quantity.generateLinf, if_true, Option.map_some, Option.toList_some, List.mem_singleton] at hg
        subst hg
        simp only [hi, Bool.false_eq_true, if_false, slackIneq_entries]
        exact two i (abs_nonneg u) hPhi
      · simp only [addedOf, Quantity.generateLinf, if_true, Option.getD_some, List.map_cons, List.map_nil, List.mem_singleton] at hkv
        subst hkv
        rfl
    · cases hq
      obtain ⟨i, hi⟩ := F.aux "scaled_max_Phi_f_max_Phi2" (hks _ (by simp [auxOf, Quantity.generateLinf]))
      refine ⟨⟨?_, fun g hg => ?_, rfl⟩, fun h' => absurd h' hna, fun kv hkv d => ?_⟩
      · simp only [addedOf, Quantity.generateLinf, if_true, hi, Val.map, Val.entries]
        exact EachFn.single (IsAffineFn.coord i).sq
      · simp only [addedOf, Quantity.generateLinf, if_true, Option.map_some, Option.toList_some, List.mem_singleton] at hg
        subst hg
        simp only [hi, Val.map, slackIneq_entries, Bool.false_eq_true, if_false]
        exact two i (Real.sqrt_nonneg _) hPhi
      · simp only [addedOf, Quantity.generateLinf, if_true, Option.getD_some, List.map_cons, List.map_nil, List.mem_singleton] at hkv
        subst hkv
        rfl
    · cases hq
      obtain ⟨i, hi⟩ := F.aux "scaled_max_Phi2_f_max_Phi4" (hks _ (by simp [auxOf, Quantity.generateLinf4]))
      refine ⟨⟨?_, fun g hg => ?_, rfl⟩, fun h' => absurd h' hna, fun kv hkv d => ?_⟩
      · simp only [addedOf, Quantity.generateLinf4, if_true, hi, Val.map, Val.entries]
        exact EachFn.single (IsAffineFn.coord i).sq
      · simp only [addedOf, Quantity.generateLinf4, if_true, Option.map_some, Option.toList_some, List.mem_singleton] at hg
        subst hg
        have e : ∀ x : Fin N → ℝ, (Val.map2 (· - ·) (Val.map2 (· / ·) (Val.map (· ^ 2) (arr FieldProblem.fns.Phi Q (D x)))
            (Val.map Real.sqrt (.scalar |u|))) (D x "scaled_max_Phi2_f_max_Phi4")).entries =
            (arr FieldProblem.fns.Phi Q (D x)).entries.map fun t => t ^ 2 / Real.sqrt |u| - x i := by
          intro x
          simp [hi, arr, Val.map, Val.map2, Val.entries, Function.comp_def]
        simp only [e]
        exact hPhi.map (fun x t => t ^ 2 / Real.sqrt |u| - x i) fun f hf => smooth_sub hf.sq (Real.sqrt_nonneg _) i
      · simp only [addedOf, Quantity.generateLinf4, if_true, Option.getD_some, List.map_cons, List.map_nil, List.mem_singleton] at hkv
        subst hkv
        rfl

end

/-! ## The functions passed to the solver -/

section
variable {P : Type} [HasQp P]

/-- Where the constraint functions of the requests come from. -/
theorem parse_functions (reg : Registry P) (sm : Option String) (sp : SmoothingParams) (rs : List Request) (acc p : Parsed P)
    (h : rs.foldlM (parseStep reg sm sp) acc = .ok p) :
    ∃ As : List (Added P), List.Forall₂ (fun r A => addQuantity reg r.name r.unit r.type sm sp = .ok A) rs As ∧
      p.slack = As.foldl (fun s A => dictUnion s A.slack) acc.slack ∧
      (∀ g ∈ p.g, g ∈ acc.g ∨ ∃ rA ∈ rs.zip As, g ∈ rA.2.g ∨ (rA.1.type = "<=" ∧ g = consFunc rA.2 rA.1.value 1 sm sp) ∨
        (rA.1.type = ">=" ∧ g = consFunc rA.2 rA.1.value (-1) sm sp)) ∧
      ∀ k ∈ p.h, k ∈ acc.h ∨ ∃ rA ∈ rs.zip As, k ∈ rA.2.h ∨ rA.1.type = "==" := by
  induction rs generalizing acc with
  | nil =>
    rw [foldlM_except_nil] at h
    cases h
    exact ⟨[], List.Forall₂.nil, rfl, fun g hg => .inl hg, fun g hg => .inl hg⟩
  | cons r rs ih =>
    obtain ⟨b, hb, hrest⟩ := (foldlM_except_cons _ _ _ _ _).1 h
    obtain ⟨As, h1, h2, h3, h4⟩ := ih b hrest
    obtain ⟨A, hA, hc⟩ := parseStep_ok.1 hb
    have hm : (r, A) ∈ (r :: rs).zip (A :: As) := by simp
    refine ⟨A :: As, List.Forall₂.cons hA h1, ?_, fun g hg => ?_, fun k hk => ?_⟩
    · rw [h2]
      rcases hc with ⟨-, rfl⟩ | ⟨-, rfl⟩ | ⟨-, rfl⟩ <;> rfl
    · rcases h3 g hg with hg' | ⟨rA, hrA, h'⟩
      · rcases hc with ⟨ht, rfl⟩ | ⟨ht, rfl⟩ | ⟨ht, rfl⟩
        · rcases List.mem_append.1 hg' with hg' | hg'
          · exact .inl hg'
          · exact .inr ⟨_, hm, .inl hg'⟩
        · rcases List.mem_append.1 hg' with hg' | hg'
          · rcases List.mem_append.1 hg' with hg' | hg'
            · exact .inl hg'
            · exact .inr ⟨_, hm, .inl hg'⟩
          · exact .inr ⟨_, hm, .inr (.inl ⟨ht, List.mem_singleton.1 hg'⟩)⟩
        · rcases List.mem_append.1 hg' with hg' | hg'
          · rcases List.mem_append.1 hg' with hg' | hg'
            · exact .inl hg'
            · exact .inr ⟨_, hm, .inl hg'⟩
          · exact .inr ⟨_, hm, .inr (.inr ⟨ht, List.mem_singleton.1 hg'⟩)⟩
      · exact .inr ⟨rA, by simp [hrA], h'⟩
    · rcases h4 k hk with hk' | ⟨rA, hrA, h'⟩
      · rcases hc with ⟨ht, rfl⟩ | ⟨ht, rfl⟩ | ⟨ht, rfl⟩
        · exact .inr ⟨_, hm, .inr ht⟩
        · rcases List.mem_append.1 hk' with hk' | hk'
          · exact .inl hk'
          · exact .inr ⟨_, hm, .inl hk'⟩
        · rcases List.mem_append.1 hk' with hk' | hk'
          · exact .inl hk'
          · exact .inr ⟨_, hm, .inl hk'⟩
      · exact .inr ⟨rA, by simp [hrA], h'⟩

/-- Where the functions of the objectives come from. -/
theorem objLoop_functions (reg : Registry P) (sm : Option String) (sp : SmoothingParams) (ns : List String) (us : List UnitArg)
    (acc r : ObjAcc P) (h : parseObjLoop reg sm sp ns us acc = .ok r) :
    ∃ As : List (Added P), As.length = ns.length ∧ ns.length ≤ us.length ∧
      List.Forall₂ (fun nu A => addQuantity reg nu.1 nu.2 "f" sm sp = .ok A) (ns.zip us) As ∧
      r.f = acc.f ++ As.map (fun A => A.val) ∧
      r.slack = As.foldl (fun s A => dictUnion s A.slack) acc.slack ∧
      (∀ g ∈ r.g, g ∈ acc.g ∨ ∃ A ∈ As, g ∈ A.g) ∧ ∀ k ∈ r.h, k ∈ acc.h ∨ ∃ A ∈ As, k ∈ A.h := by
  induction ns generalizing us acc with
  | nil =>
    simp only [parseObjLoop, Except.ok.injEq] at h
    subst h
    exact ⟨[], rfl, by simp, List.Forall₂.nil, by simp, rfl, fun g hg => .inl hg, fun g hg => .inl hg⟩
  | cons n ns ih =>
    cases us with
    | nil => simp [parseObjLoop] at h
    | cons u us =>
      simp only [parseObjLoop] at h
      cases hA : addQuantity reg n u "f" sm sp with
      | error e => simp [hA, bind, Except.bind] at h
      | ok A =>
        simp only [hA, bind, Except.bind] at h
        obtain ⟨As, h0, h0', h1, h2, h3, h4, h5⟩ := ih us _ h
        refine ⟨A :: As, by simp [h0], by simpa using h0', List.Forall₂.cons hA h1, by simp [h2], by rw [h3]; rfl, fun g hg => ?_,
          fun k hk => ?_⟩
        · rcases h4 g hg with h' | ⟨B, hB, h'⟩
          · rcases List.mem_append.1 h' with h' | h'
            · exact .inl h'
            · exact .inr ⟨A, by simp, h'⟩
          · exact .inr ⟨B, by simp [hB], h'⟩
        · rcases h5 k hk with h' | ⟨B, hB, h'⟩
          · rcases List.mem_append.1 h' with h' | h'
            · exact .inl h'
            · exact .inr ⟨A, by simp, h'⟩
          · exact .inr ⟨B, by simp [hB], h'⟩

omit [HasQp P] in
/-- Every entry of a union of dictionaries comes from one of them. -/
theorem foldl_union_lookup (As : List (Added P)) (acc : List (String × (P → Dofs → Val))) (k : String) (fn : P → Dofs → Val)
    (h : (As.foldl (fun s A => dictUnion s A.slack) acc).lookup k = some fn) :
    acc.lookup k = some fn ∨ ∃ A ∈ As, A.slack.lookup k = some fn := by
  induction As generalizing acc with
  | nil => exact .inl h
  | cons A As ih =>
    rcases ih _ h with h' | ⟨B, hB, h'⟩
    · rw [C94_union_lookup] at h'
      cases hA : A.slack.lookup k with
      | none =>
        rw [hA] at h'
        exact .inl h'
      | some v =>
        rw [hA] at h'
        exact .inr ⟨A, by simp, hA.trans h'⟩
    · exact .inr ⟨B, by simp [hB], h'⟩

omit [HasQp P] in
/-- The keys of a union of dictionaries. -/
theorem foldl_union_key (As : List (Added P)) (acc : List (String × (P → Dofs → Val))) (k : String)
    (h : (acc.lookup k).isSome ∨ ∃ A ∈ As, (A.slack.lookup k).isSome) :
    ((As.foldl (fun s A => dictUnion s A.slack) acc).lookup k).isSome := by
  induction As generalizing acc with
  | nil => exact h.resolve_right (by simp)
  | cons A As ih =>
    refine ih _ ?_
    rw [C94_union_lookup]
    rcases h with h | ⟨B, hB, h⟩
    · refine .inl ?_
      cases A.slack.lookup k
      · exact h
      · rfl
    · rcases List.mem_cons.1 hB with rfl | hB
      · refine .inl ?_
        cases hl : B.slack.lookup k
        · rw [hl] at h
          simp at h
        · rfl
      · exact .inr ⟨B, hB, h⟩

end

/-- The value of an objective is a number. -/
theorem smooth_single (Q : FieldProblem) (hp : 0 ≤ gridStep Q.plasma.phis * gridStep Q.plasma.thetas)
    (he : 0 ≤ gridStep Q.ePhis * gridStep Q.eThetas) {N L : ℕ} {D : (Fin N → ℝ) → Dofs} {ks : List String} {sm : Option String}
    (hsm : sm = none ∨ sm = some "slack") (sp : SmoothingParams)
    {name : String} (h : SmoothUse sm name) (ho : name ∈ objectiveNames) {q : Quantity FieldProblem}
    (hq : (shipped FieldProblem.fns).lookup name = some q) (F : FlatDofs L D ks) (hks : ∀ k ∈ auxOf sm q, k ∈ ks) (u : ℝ)
    (x : Fin N → ℝ) : ∃ y, ((addedOf q sm sp fun _ => .scalar |u|).val Q (D x)).entries = [y] := by
  obtain ⟨q', hq', hval⟩ := objective_value Q hp he name ho
  rw [hq] at hq'
  obtain rfl := Option.some.inj hq'
  obtain ⟨y, hy, -⟩ := hval (List.ofFn fun l => x (F.pos l) * F.unit)
  have hraw : (q.rawF Q (D x)).entries = [y] := by
    rw [valuesOf, call_phiOnly] at hy
    rw [← hy, shipped_phiOnly _ (mem_of_lookup hq) Q (D x) (phiOnly (.array (List.ofFn fun l => x (F.pos l) * F.unit)))
      (by simp [phiOnly, F.phi])]
  have hc2 : ∀ func comp, q = Quantity.generateC2 func comp → ((addedOf q sm sp fun _ => .scalar |u|).val Q (D x)).entries = [y / |u|] := by
    rintro func comp rfl
    have : ((addedOf (Quantity.generateC2 func comp) sm sp fun _ => Val.scalar |u|).val Q (D x)).entries =
        ((Quantity.generateC2 func comp).rawF Q (D x)).entries.map fun t => t / |u| := by
      rw [← map2_div_entries]
      rcases hsm with rfl | rfl <;> rfl
    rw [this, hraw]
    rfl
  rcases h with h | h | ⟨rfl, h⟩
  · obtain ⟨func, comp, hq', -⟩ := affine_smooth (L := L) Q name h
    exact ⟨_, hc2 func comp (Option.some.inj (hq.symm.trans hq'))⟩
  · obtain ⟨func, comp, hq', -⟩ := quad_smooth (L := L) Q hp he name h
    exact ⟨_, hc2 func comp (Option.some.inj (hq.symm.trans hq'))⟩
  · simp only [maxNames, List.mem_cons, List.not_mem_nil, or_false] at h
    rcases h with rfl | rfl | rfl | rfl | rfl <;> cases hq
    · obtain ⟨i, hi⟩ := F.aux "scaled max Bnormal" (hks _ (by simp [auxOf, Quantity.generateLinf]))
      exact ⟨x i, by simp [addedOf, Quantity.generateLinf, hi, Val.entries]⟩
    · obtain ⟨i, hi⟩ := F.aux "scaled max Bnormal2" (hks _ (by simp [auxOf, Quantity.generateLinf]))
      exact ⟨x i, by simp [addedOf, Quantity.generateLinf, hi, Val.entries]⟩
    · obtain ⟨i, hi⟩ := F.aux "scaled_max_Phi" (hks _ (by simp [auxOf, Quantity.generateLinf]))
      exact ⟨x i, by simp [addedOf, Quantity.generateLinf, hi, Val.entries]⟩
    · obtain ⟨i, hi⟩ := F.aux "scaled_max_Phi_f_max_Phi2" (hks _ (by simp [auxOf, Quantity.generateLinf]))
      exact ⟨x i ^ 2, by simp [addedOf, Quantity.generateLinf, hi, Val.entries, Val.map]⟩
    · obtain ⟨i, hi⟩ := F.aux "scaled_max_Phi2_f_max_Phi4" (hks _ (by simp [auxOf, Quantity.generateLinf4]))
      exact ⟨x i ^ 2, by simp [addedOf, Quantity.generateLinf4, hi, Val.entries, Val.map]⟩

/-- The dictionary of a flat vector, if all auxiliary variables are numbers. -/
theorem setup_flatDofs {reg : Registry FieldProblem} (hreg : AuxNames reg) {Q : FieldProblem} {slack : List (String × (FieldProblem → Dofs → Val))}
    (hok : SlackOk reg slack) {p : List ℝ} (u : ℝ) {N : ℕ} (hN : (ravel (xTemplate Q p u slack)).length = N)
    (hsc : ∀ k fn, slack.lookup k = some fn → (fn Q (phiOnly (.array p))).isScalar = true) :
    ∃ F : FlatDofs p.length (fun x : Fin N → ℝ => dofsOf (xTemplate Q p u slack) u (List.ofFn x)) (slack.map Prod.fst), F.unit = u := by
  have hphi := xTemplate_phi hreg hok Q p u
  obtain ⟨j, hj, hx⟩ := unravel_array_fin hphi hN (by simp : _ = p.length)
  refine ⟨⟨u, j, hj, fun x => ?_, fun k hk => ?_⟩, rfl⟩
  · rw [dofsOf_phi (hx x), Val.map, map_ofFn']
  · obtain ⟨fn, hfn⟩ := Option.isSome_iff_exists.1 ((lookup_isSome_iff slack k).2 hk)
    obtain ⟨h1, h2, -⟩ := dofsOf_aux hreg hok Q p u [] hfn
    have hl := xTemplate_lookup hreg hok Q p u k h2
    rw [hfn, Option.map_some] at hl
    have hs := hsc k fn hfn
    cases hv : fn Q (phiOnly (.array p)) with
    | array v => simp [hv, Val.isScalar] at hs
    | scalar v =>
      rw [hv] at hl
      obtain ⟨i, hi⟩ := unravel_scalar_fin hl hN
      exact ⟨i, fun x => by rw [dofsOf_other hphi h1 h2, hi x, Option.getD_some]⟩

/-- A call with smooth convex objectives and constraints. -/
structure SmoothCall (a : QuadcoilArgs) : Prop where
  mode : a.smoothing = none ∨ a.smoothing = some "slack"
  merge : a.mergeConstraints = false
  objectives : ConvexObjectives a.objectives
  objective_smooth : ∀ o ∈ a.objectives, SmoothUse a.smoothing o.1
  constraints : ∀ r ∈ a.requests, SmoothUse a.smoothing r.name ∧ ∃ u, r.unit = .scalar u ∧ u ≠ 0

theorem SmoothUse.lookup {sm : Option String} {name : String} (h : SmoothUse sm name) :
    name ∈ affineNames ++ convexNames := by
  have h1 : ∀ n ∈ quadNames, n ∈ affineNames ++ convexNames := by decide
  have h2 : ∀ n ∈ maxNames, n ∈ affineNames ++ convexNames := by decide
  rcases h with h | h | ⟨-, h⟩
  · exact List.mem_append_left _ h
  · exact h1 _ h
  · exact h2 _ h

theorem smooth_registered (Q : FieldProblem) (hp : 0 ≤ gridStep Q.plasma.phis * gridStep Q.plasma.thetas)
    (he : 0 ≤ gridStep Q.ePhis * gridStep Q.eThetas) {sm : Option String} {name : String} (h : SmoothUse sm name) :
    ∃ q, (shipped FieldProblem.fns).lookup name = some q := by
  rcases List.mem_append.1 h.lookup with h | h
  · obtain ⟨q, hq, -⟩ := C124_affine_partial (n := 0) Q name h
    exact ⟨q, hq⟩
  · obtain ⟨q, hq, -⟩ := C124_convex_partial (n := 0) Q hp he name h
    exact ⟨q, hq⟩

theorem EachFn.head {N : ℕ} {p : ((Fin N → ℝ) → ℝ) → Prop} {F : (Fin N → ℝ) → List ℝ} (hF : EachFn p F)
    (h : ∀ x, ∃ y, F x = [y]) : p fun x => (F x).headD 0 := by
  obtain ⟨fs, e, hf⟩ := hF
  obtain ⟨y, hy⟩ := h 0
  rw [e] at hy
  match fs, hy with
  | [f], _ =>
    have : (fun x => (F x).headD 0) = f := by
      funext x
      rw [e]
      rfl
    rw [this]
    exact hf f (by simp)

/-- What the parsers produce for such a call: the functions that were added for the objectives and the constraints, and their values as
functions of the flat vector. -/
structure SmoothData (Q : FieldProblem) (others : List String) (a : QuadcoilArgs) (phiUnit : ℝ) (S : Setup) where
  ns : List String
  us : List UnitArg
  ws : List ℝ
  acc : ObjAcc FieldProblem
  c : Parsed FieldProblem
  As : List (Added FieldProblem)
  Bs : List (Added FieldProblem)
  objective_parse : parseObjectives (shippedRegistry FieldProblem.fns others) a.objectiveName a.objectiveUnit
    (match a.objectiveName with | .one _ => .one 1 | .many _ => a.objectiveWeight) a.smoothing a.sp =
      .ok ⟨fTot acc.f ws, acc.g, acc.h, acc.slack⟩
  constraint_parse : a.requests.foldlM (parseStep (shippedRegistry FieldProblem.fns others) a.smoothing a.sp) ⟨[], [], []⟩ = .ok c
  loop : parseObjLoop (shippedRegistry FieldProblem.fns others) a.smoothing a.sp ns us ⟨[], [], [], []⟩ = .ok acc
  slackOk : SlackOk (shippedRegistry FieldProblem.fns others) (dictUnion acc.slack c.slack)
  template : S.template = xTemplate Q (a.phiInit.getD (List.replicate (HasQp.ndofs Q) 0)) phiUnit (dictUnion acc.slack c.slack)
  flat : FlatDofs (a.phiInit.getD (List.replicate (HasQp.ndofs Q) 0)).length
    (fun x : Fin S.x0.length → ℝ => dofsOf S.template phiUnit (List.ofFn x)) ((dictUnion acc.slack c.slack).map Prod.fst)
  x0 : S.x0 = ravel S.template
  flat_unit : flat.unit = phiUnit
  objectives : a.objectives = ns.zip (us.zip ws)
  ws_length : As.length = ws.length
  ns_length : As.length = ns.length
  us_length : As.length ≤ us.length
  aux_scalar : ∀ k fn, (dictUnion acc.slack c.slack).lookup k = some fn → ∀ d, (fn Q d).isScalar = true
  keys : ∀ A ∈ As ++ Bs, ∀ k ∈ A.slack.map Prod.fst, k ∈ (dictUnion acc.slack c.slack).map Prod.fst
  as : List.Forall₂ (fun nu A => addQuantity (shippedRegistry FieldProblem.fns others) nu.1 nu.2 "f" a.smoothing a.sp = .ok A)
    (ns.zip us) As
  bs : List.Forall₂ (fun r A => addQuantity (shippedRegistry FieldProblem.fns others) r.name r.unit r.type a.smoothing a.sp = .ok A)
    a.requests Bs
  useA : ∀ (i : ℕ) (hi : i < As.length), ∃ name q u w, SmoothUse a.smoothing name ∧ name ∈ objectiveNames ∧
    (shipped FieldProblem.fns).lookup name = some q ∧ As[i] = addedOf q a.smoothing a.sp (fun _ => .scalar |u|) ∧ ws[i]? = some w ∧ 0 ≤ w ∧
      ns[i]? = some name ∧ us[i]? = some (.scalar u)
  useB : ∀ rA ∈ a.requests.zip Bs, ∃ q u, SmoothUse a.smoothing rA.1.name ∧ (shipped FieldProblem.fns).lookup rA.1.name = some q ∧
    rA.2 = addedOf q a.smoothing a.sp (fun _ => .scalar |u|) ∧ rA.1.type ∈ q.compatibility ∧ u ≠ 0
  used : ∀ A ∈ As ++ Bs, ∃ name q u, SmoothUse a.smoothing name ∧ (shipped FieldProblem.fns).lookup name = some q ∧
    A = addedOf q a.smoothing a.sp (fun _ => .scalar |u|)
  smooth : ∀ A ∈ As ++ Bs, SmoothAdded Q (fun x : Fin S.x0.length → ℝ => dofsOf S.template phiUnit (List.ofFn x)) A
  gform : ∀ g ∈ acc.g ++ c.g, (∃ A ∈ As ++ Bs, g ∈ A.g) ∨ ∃ rA ∈ a.requests.zip Bs,
    (rA.1.type = "<=" ∧ g = consFunc rA.2 rA.1.value 1 a.smoothing a.sp) ∨
      (rA.1.type = ">=" ∧ g = consFunc rA.2 rA.1.value (-1) a.smoothing a.sp)
  gsmooth : ∀ g ∈ acc.g ++ c.g, EachFn SmoothConvex fun x : Fin S.x0.length → ℝ => (g Q (dofsOf S.template phiUnit (List.ofFn x))).entries
  single : ∀ A ∈ As, ∀ x : Fin S.x0.length → ℝ, ∃ y, (A.val Q (dofsOf S.template phiUnit (List.ofFn x))).entries = [y]
  gvalue : ∀ x : List ℝ, S.problem.g x = (acc.g ++ c.g).flatMap fun g => (g Q (dofsOf S.template phiUnit x)).entries
  hvalue : ∀ x : List ℝ, S.problem.h x = []
  fvalue : ∀ x : Fin S.x0.length → ℝ, S.problem.f (List.ofFn x) =
      ((((As.map fun A => A.val).zip ws).map fun fw (x : Fin S.x0.length → ℝ) =>
        fw.2 * (fw.1 Q (dofsOf S.template phiUnit (List.ofFn x))).entries.headD 0).map fun f => f x).sum
  muInit : S.problem.muInit.length = (S.problem.g S.x0).length

theorem smooth_data (Q : FieldProblem) (others : List String)
    (hp : 0 ≤ gridStep Q.plasma.phis * gridStep Q.plasma.thetas) (he : 0 ≤ gridStep Q.ePhis * gridStep Q.eThetas)
    {a : QuadcoilArgs} (ha : SmoothCall a) {phiUnit : ℝ} {S : Setup}
    (hs : quadcoilSetup (shippedRegistry FieldProblem.fns others) Q a phiUnit = .ok S) :
    Nonempty (SmoothData Q others a phiUnit S) := by
  obtain ⟨o, c, ho, hc, hpu, ht, hx0, -, ⟨l0, hl0, hmu⟩, -, hf, hg, hh⟩ := quadcoilSetup_ok hs
  have hreg := shipped_auxNames FieldProblem.fns others
  have hok : SlackOk (shippedRegistry FieldProblem.fns others) (joinParsed o c).slack :=
    slackOk_union (slackOk_objectives hreg ho) (slackOk_constraints hreg hc)
  obtain ⟨ns, us, ws, acc, hnw, hacc, rfl, hobj⟩ := parseObjectives_ok ho
  have hobj := (objectiveList_weight a).symm.trans hobj
  obtain ⟨As, hAlen, hnu, hA, hAf, hAs, hAg, hAh⟩ := objLoop_functions _ _ _ _ _ _ _ hacc
  unfold parseConstraints at hc
  rw [zipRequests_value] at hc
  have hc : a.requests.foldlM (parseStep (shippedRegistry FieldProblem.fns others) a.smoothing a.sp) ⟨[], [], []⟩ = .ok c := by
    by_cases hlen : a.constraintName.length ≠ a.constraintType.length ∨ a.constraintName.length ≠ a.constraintUnit.length ∨
        a.constraintName.length ≠ (if a.constraintName.length > 0 then a.constraintValue else []).length
    · rw [if_pos hlen] at hc
      cases hc
    · rwa [if_neg hlen] at hc
  obtain ⟨Bs, hBf, hBs, hBg, hBh⟩ := parse_functions _ _ _ _ _ _ hc
  have hAlen' := hA.length_eq
  -- the uses of quantities
  have useA : ∀ (i : ℕ) (hi : i < As.length), ∃ name q u w, SmoothUse a.smoothing name ∧ name ∈ objectiveNames ∧
      (shipped FieldProblem.fns).lookup name = some q ∧ As[i] = addedOf q a.smoothing a.sp (fun _ => .scalar |u|) ∧ ws[i]? = some w ∧ 0 ≤ w ∧
        ns[i]? = some name ∧ us[i]? = some (.scalar u) := by
    intro i hi
    have h1 : i < ns.length := by omega
    have h2 : i < us.length := by omega
    have h3 : i < ws.length := by omega
    have hmem : (ns[i], us[i], ws[i]) ∈ a.objectives := by
      rw [hobj]
      refine List.mem_iff_getElem.2 ⟨i, by simp; omega, by simp⟩
    obtain ⟨hn, ⟨u, hu, -⟩, hw⟩ := ha.objectives _ hmem
    have hsu := ha.objective_smooth _ hmem
    obtain ⟨q, hq⟩ := smooth_registered Q hp he hsu
    have hadd := List.forall₂_iff_get.1 hA |>.2 i (by simp; omega) hi
    simp only [List.get_eq_getElem, List.getElem_zip] at hadd
    simp only at hu hn hsu hw hq
    rw [hu] at hadd
    obtain ⟨hA', -⟩ := addQuantity_scalar (q := q) (by simp [shippedRegistry, hq]) hadd
    exact ⟨ns[i], q, u, ws[i], hsu, hn, hq, hA', by simp [h3], hw, by simp [h1], by simp [h2, hu]⟩
  have useB : ∀ rA ∈ a.requests.zip Bs, ∃ q u, SmoothUse a.smoothing rA.1.name ∧ (shipped FieldProblem.fns).lookup rA.1.name = some q ∧
      rA.2 = addedOf q a.smoothing a.sp (fun _ => .scalar |u|) ∧ rA.1.type ∈ q.compatibility ∧ u ≠ 0 := by
    intro rA hrA
    have hadd := (List.forall₂_zip hBf (a := rA.1) (b := rA.2) hrA)
    obtain ⟨hsu, u, hu, hu0⟩ := ha.constraints rA.1 (List.of_mem_zip hrA).1
    obtain ⟨q, hq⟩ := smooth_registered Q hp he hsu
    rw [hu] at hadd
    obtain ⟨hA', hcomp⟩ := addQuantity_scalar (q := q) (by simp [shippedRegistry, hq]) hadd
    exact ⟨q, u, hsu, hq, hA', hcomp, hu0⟩
  have memB : ∀ B ∈ Bs, ∃ r, (r, B) ∈ a.requests.zip Bs := by
    intro B hB
    obtain ⟨i, hi, rfl⟩ := List.mem_iff_getElem.1 hB
    have := hBf.length_eq
    exact ⟨a.requests[i], List.mem_iff_getElem.2 ⟨i, by simp; omega, by simp⟩⟩
  have used : ∀ A ∈ As ++ Bs, ∃ name q u, SmoothUse a.smoothing name ∧ (shipped FieldProblem.fns).lookup name = some q ∧
      A = addedOf q a.smoothing a.sp (fun _ => .scalar |u|) := by
    intro A hA
    rcases List.mem_append.1 hA with h | h
    · obtain ⟨i, hi, rfl⟩ := List.mem_iff_getElem.1 h
      obtain ⟨name, q, u, w, h1, -, h2, h3, -⟩ := useA i hi
      exact ⟨name, q, u, h1, h2, h3⟩
    · obtain ⟨r, hr⟩ := memB A h
      obtain ⟨q, u, h1, h2, h3, -⟩ := useB _ hr
      exact ⟨r.name, q, u, h1, h2, h3⟩
  -- the auxiliary variables are numbers
  have hslack : (joinParsed ⟨fTot acc.f ws, acc.g, acc.h, acc.slack⟩ c).slack = dictUnion acc.slack c.slack := rfl
  have hsc : ∀ k fn, (joinParsed ⟨fTot acc.f ws, acc.g, acc.h, acc.slack⟩ c).slack.lookup k = some fn → ∀ d, (fn Q d).isScalar = true := by
    intro k fn hfn d
    have : ∃ A ∈ As ++ Bs, A.slack.lookup k = some fn := by
      rw [hslack, C94_union_lookup] at hfn
      rw [hAs, hBs] at hfn
      cases hl : (Bs.foldl (fun s A => dictUnion s A.slack) ([] : List (String × (FieldProblem → Dofs → Val)))).lookup k with
      | some v =>
        rw [hl] at hfn
        obtain rfl : v = fn := by simpa using hfn
        rcases foldl_union_lookup _ _ _ _ hl with h | ⟨A, hA, h⟩
        · simp at h
        · exact ⟨A, List.mem_append_right _ hA, h⟩
      | none =>
        rw [hl, Option.none_or] at hfn
        rcases foldl_union_lookup _ _ _ _ hfn with h | ⟨A, hA, h⟩
        · simp at h
        · exact ⟨A, List.mem_append_left _ hA, h⟩
    obtain ⟨A, hA, hl⟩ := this
    obtain ⟨name, q, u, hsu, hq, rfl⟩ := used A hA
    let F0 : FlatDofs (N := 1) 0 (fun x k => if k = "phi" then .array [] else .scalar (x 0)) (auxOf a.smoothing q) := {
      unit := 1
      pos := Fin.elim0
      inj := fun i => i.elim0
      phi := fun x => by simp
      aux := fun k hk => by
        refine ⟨0, fun x => if_neg ?_⟩
        rintro rfl
        refine (hreg name q (by simp [shippedRegistry, hq])).2.1 ?_
        unfold auxOf at hk
        split at hk
        · exact hk
        · simp at hk }
    exact (smooth_use Q hp he ha.mode a.sp hsu hq F0 (fun k hk => hk) u).2.2 _ (mem_of_lookup hl) d
  have hkeys : ∀ A ∈ As ++ Bs, ∀ k ∈ A.slack.map Prod.fst, k ∈ (joinParsed ⟨fTot acc.f ws, acc.g, acc.h, acc.slack⟩ c).slack.map Prod.fst := by
    intro A hA k hk
    rw [← lookup_isSome_iff] at hk ⊢
    rw [hslack, C94_union_lookup, hAs, hBs]
    rcases List.mem_append.1 hA with h | h
    · have := foldl_union_key As [] k (.inr ⟨A, h, hk⟩)
      rw [Option.isSome_or, this, Bool.or_true]
    · have := foldl_union_key Bs [] k (.inr ⟨A, h, hk⟩)
      rw [Option.isSome_or, this, Bool.true_or]
  obtain ⟨F, hF⟩ := setup_flatDofs hreg hok (p := a.phiInit.getD (List.replicate (HasQp.ndofs Q) 0)) phiUnit (N := S.x0.length)
    (by rw [hx0, ht]) fun k fn h => hsc k fn h _
  obtain ⟨F, hF⟩ : ∃ F : FlatDofs (a.phiInit.getD (List.replicate (HasQp.ndofs Q) 0)).length
      (fun x : Fin S.x0.length → ℝ => dofsOf S.template phiUnit (List.ofFn x))
      ((joinParsed ⟨fTot acc.f ws, acc.g, acc.h, acc.slack⟩ c).slack.map Prod.fst), F.unit = phiUnit := by
    rw [ht]
    exact ⟨F, hF⟩
  let D : (Fin S.x0.length → ℝ) → Dofs := fun x => dofsOf S.template phiUnit (List.ofFn x)
  have smooth : ∀ A ∈ As ++ Bs, SmoothAdded Q D A := by
    intro A hA
    obtain ⟨name, q, u, hsu, hq, rfl⟩ := used A hA
    exact (smooth_use Q hp he ha.mode a.sp hsu hq F (fun k hk => hkeys _ hA k (by rw [addedOf_slack_keys]; exact hk)) u).1
  have hmode : a.smoothing ≠ some "approx" := by
    rcases ha.mode with h | h <;> rw [h] <;> decide
  -- the constraints
  have hgfn : ∀ g ∈ acc.g ++ c.g, EachFn SmoothConvex fun x => (g Q (D x)).entries := by
    intro g hg
    rcases List.mem_append.1 hg with h | h
    · rcases hAg g h with h | ⟨A, hA, h⟩
      · simp at h
      · exact (smooth A (List.mem_append_left _ hA)).g g h
    · rcases hBg g h with h | ⟨rA, hrA, h⟩
      · simp at h
      · have hB : rA.2 ∈ As ++ Bs := List.mem_append_right _ (List.of_mem_zip hrA).2
        rcases h with h | ⟨-, rfl⟩ | ⟨htype, rfl⟩
        · exact (smooth _ hB).g g h
        · obtain ⟨q, u, hsu, hq, he', -⟩ := useB rA hrA
          have hunit : rA.2.unit Q = .scalar |u| := by
            rw [he']
            rcases ha.mode with h | h <;> rw [h] <;> rfl
          simp only [consFunc_entries hmode hunit]
          refine (smooth _ hB).val.map (fun _ y => 1 * (y - rA.1.value / |u|)) fun f hf => ?_
          simpa only [one_mul, sub_eq_add_neg] using hf.add_const (-(rA.1.value / |u|))
        · obtain ⟨q, u, hsu, hq, he', hcomp, -⟩ := useB rA hrA
          have hunit : rA.2.unit Q = .scalar |u| := by
            rw [he']
            rcases ha.mode with h | h <;> rw [h] <;> rfl
          rw [htype] at hcomp
          have haff : rA.1.name ∈ affineNames := by
            rcases List.mem_append.1 hsu.lookup with h | h
            · exact h
            · exact absurd hcomp (convex_compat _ h q hq).1
          have hval := (smooth_use Q hp he ha.mode a.sp hsu hq F
            (fun k hk => hkeys _ hB k (by rw [he', addedOf_slack_keys]; exact hk)) u).2.1 haff
          rw [← he'] at hval
          simp only [consFunc_entries hmode hunit]
          refine hval.map (fun _ y => -1 * (y - rA.1.value / |u|)) fun f hf => ?_
          have := ((hf.const_mul (-1)).add (IsAffineFn.const (rA.1.value / |u|))).smoothConvex
          refine (congrArg SmoothConvex (funext fun x => ?_)).mp this
          ring
  have hhnil : acc.h ++ c.h = [] := by
    refine List.eq_nil_iff_forall_not_mem.2 fun k hk => ?_
    rcases List.mem_append.1 hk with h | h
    · rcases hAh k h with h | ⟨A, hA, h⟩
      · simp at h
      · rw [(smooth A (List.mem_append_left _ hA)).h] at h
        simp at h
    · rcases hBh k h with h | ⟨rA, hrA, h | h⟩
      · simp at h
      · rw [(smooth _ (List.mem_append_right _ (List.of_mem_zip hrA).2)).h] at h
        simp at h
      · obtain ⟨q, u, hsu, hq, -, hcomp, -⟩ := useB rA hrA
        rw [h] at hcomp
        rcases List.mem_append.1 hsu.lookup with h | h
        · exact affine_compat _ h q hq hcomp
        · exact (convex_compat _ h q hq).2 hcomp
  -- the objective
  have hval : ∀ A ∈ As, ∀ x, ∃ y, (A.val Q (D x)).entries = [y] := by
    intro A hA x
    obtain ⟨i, hi, rfl⟩ := List.mem_iff_getElem.1 hA
    obtain ⟨name, q, u, w, hsu, hon, hq, he', -⟩ := useA i hi
    rw [he']
    exact smooth_single Q hp he ha.mode a.sp hsu hon hq F
      (fun k hk => hkeys _ (List.mem_append_left _ hA) k (by rw [he', addedOf_slack_keys]; exact hk)) u x
  have hfx : ∀ x : Fin S.x0.length → ℝ, S.problem.f (List.ofFn x) =
      ((((As.map fun A => A.val).zip ws).map fun fw (x : Fin S.x0.length → ℝ) => fw.2 * (fw.1 Q (D x)).entries.headD 0).map
        fun f => f x).sum := by
    intro x
    rw [hf]
    show ((fTot acc.f ws Q (D x)).entries).headD 0 = _
    rw [hAf, List.nil_append, fTot_entries]
    · rw [List.map_map]
      rfl
    · intro f hfm
      obtain ⟨A, hA, rfl⟩ := List.mem_map.1 hfm
      exact hval A hA x
  have hgx : ∀ x : List ℝ, S.problem.g x = (acc.g ++ c.g).flatMap fun g => (g Q (dofsOf S.template phiUnit x)).entries := by
    intro x
    rw [hg, ha.merge, okList_merge]
    rfl
  refine ⟨{
    ns := ns, us := us, ws := ws, acc := acc, c := c, As := As, Bs := Bs
    objective_parse := ho
    constraint_parse := hc
    loop := hacc
    slackOk := hok
    template := ht
    flat := F
    x0 := hx0
    flat_unit := hF
    objectives := hobj
    ws_length := by omega
    ns_length := hAlen
    us_length := by omega
    aux_scalar := hsc
    keys := hkeys
    as := hA
    bs := hBf
    useA := useA
    useB := useB
    used := used
    smooth := smooth
    gform := ?_
    gsmooth := hgfn
    single := hval
    gvalue := hgx
    hvalue := ?_
    fvalue := hfx
    muInit := ?_ }⟩
  · intro g hg
    rcases List.mem_append.1 hg with h | h
    · rcases hAg g h with h | ⟨A, hA, h⟩
      · simp at h
      · exact .inl ⟨A, List.mem_append_left _ hA, h⟩
    · rcases hBg g h with h | ⟨rA, hrA, h⟩
      · simp at h
      · rcases h with h | h
        · exact .inl ⟨rA.2, List.mem_append_right _ (List.of_mem_zip hrA).2, h⟩
        · exact .inr ⟨rA, hrA, h⟩
  · intro x
    rw [hh, okList_merge]
    have : (joinParsed ⟨fTot acc.f ws, acc.g, acc.h, acc.slack⟩ c).h = [] := hhnil
    rw [this]
    simp
  · rw [hmu, List.length_replicate, hg, hl0]
    rfl

/-- The weighted objectives are smooth and convex. -/
theorem SmoothData.objective_terms {Q : FieldProblem} {others : List String} {a : QuadcoilArgs} {phiUnit : ℝ} {S : Setup}
    (T : SmoothData Q others a phiUnit S) : ∀ f ∈ ((T.As.map fun A => A.val).zip T.ws).map fun fw (x : Fin S.x0.length → ℝ) =>
        fw.2 * (fw.1 Q (dofsOf S.template phiUnit (List.ofFn x))).entries.headD 0, SmoothConvex f := by
  intro f hfm
  obtain ⟨fw, hfw, rfl⟩ := List.mem_map.1 hfm
  obtain ⟨i, hi, rfl⟩ := List.mem_iff_getElem.1 hfw
  simp only [List.length_zip, List.length_map] at hi
  have hiA : i < T.As.length := by omega
  obtain ⟨name, q, u, w, -, -, -, -, hw, hw0, -⟩ := T.useA i hiA
  have hwi : T.ws[i]'(by omega) = w := by
    rw [List.getElem?_eq_getElem (by omega)] at hw
    exact Option.some.inj hw
  simp only [List.getElem_zip, List.getElem_map, hwi]
  exact ((T.smooth _ (List.mem_append_left _ (List.getElem_mem hiA))).val.head (T.single _ (List.getElem_mem hiA))).const_mul hw0

/-- The objective as a function of the flat vector. -/
theorem SmoothData.objective {Q : FieldProblem} {others : List String} {a : QuadcoilArgs} {phiUnit : ℝ} {S : Setup}
    (T : SmoothData Q others a phiUnit S) : SmoothConvex fun x : Fin S.x0.length → ℝ => S.problem.f (List.ofFn x) := by
  rw [funext T.fvalue]
  exact SmoothConvex.list_sum _ T.objective_terms

/-- **C130.** For such a call the problem passed to the solver is convex and differentiable: the objective and all inequality functions
are convex differentiable functions of the flat vector, and there are no equality functions. -/
theorem C130_smooth_convex_partial (Q : FieldProblem) (others : List String)
    (hp : 0 ≤ gridStep Q.plasma.phis * gridStep Q.plasma.thetas) (he : 0 ≤ gridStep Q.ePhis * gridStep Q.eThetas)
    {a : QuadcoilArgs} (ha : SmoothCall a) {phiUnit : ℝ} {S : Setup}
    (hs : quadcoilSetup (shippedRegistry FieldProblem.fns others) Q a phiUnit = .ok S) :
    IsConvexProblem S.x0.length 0 S.problem.muInit.length S.problem := by
  obtain ⟨T⟩ := smooth_data Q others hp he ha hs
  have hG := EachFn.flatMap (T.acc.g ++ T.c.g)
    (fun g (x : Fin S.x0.length → ℝ) => (g Q (dofsOf S.template phiUnit (List.ofFn x))).entries) T.gsmooth
  obtain ⟨n, G, hGe, hGs⟩ := hG.tuple
  have hgx : ∀ x : Fin S.x0.length → ℝ, S.problem.g (List.ofFn x) = List.ofFn (G x) := fun x => (T.gvalue _).trans (hGe x)
  have hn : S.problem.muInit.length = n := by
    obtain ⟨y, hy⟩ := exists_ofFn (l := S.x0) rfl
    rw [T.muInit, hy, hgx, List.length_ofFn]
  subst hn
  refine ⟨G, fun i => i.elim0, fun i => i.elim0, hgx, fun x => ?_, T.objective.convex.on, T.objective.diff, fun j => (hGs j).convex.on,
    fun j => (hGs j).diff⟩
  rw [T.hvalue]
  simp

end Verif
