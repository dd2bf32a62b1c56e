import Verif.Props.Shipped
import Verif.Model.Io
import Verif.Props.Surface
import Verif.Props.Api

/-! # Interfaces (C57, C58, C69, C80, C81, C82) -/

namespace Verif

open Real

/-! ## C57: keywords -/

theorem mem_partialKwargs {V : Type} (kwargs : List (String × V)) (k : String) (v : V) :
    (k, v) ∈ partialKwargs kwargs ↔ (k, v) ∈ kwargs ∧ k ∉ quadcoilDiffArgs := by
  simp [partialKwargs]

/-- **C57.** Unless the user passes `value_only` (which is refused), a call of the generated function reaches `quadcoil` with: the
given `value_only`; the eight differentiable arguments of the call; and exactly the other keywords of the user. -/
theorem C57_forwarded_keywords {V : Type} (valueOnly : V) (kwargs : List (String × V)) (args : String → V)
    (hv : "value_only" ∉ kwargs.map Prod.fst) :
    ∃ r : List (String × V), calledKwargs valueOnly kwargs args = .ok r ∧ ∀ k v, (k, v) ∈ r ↔
      (k = "value_only" ∧ v = valueOnly) ∨ (k ∈ quadcoilDiffArgs ∧ v = args k) ∨ ((k, v) ∈ kwargs ∧ k ∉ quadcoilDiffArgs) := by
  have hv2 : "value_only" ∉ (partialKwargs kwargs).map Prod.fst := by
    intro h
    obtain ⟨⟨k', v'⟩, hk, he⟩ := List.mem_map.1 h
    exact hv (List.mem_map.2 ⟨(k', v'), ((mem_partialKwargs kwargs k' v').1 hk).1, he⟩)
  refine ⟨_, by rw [calledKwargs, boundKwargs, if_neg hv2]; rfl, fun k v => ?_⟩
  have hd : "value_only" ∉ quadcoilDiffArgs := by decide
  rw [List.mem_append, List.mem_filter, List.mem_cons, mem_partialKwargs, List.mem_map]
  constructor
  · rintro (⟨h | h, h2⟩ | ⟨a, ha, he⟩)
    · simp only [Prod.mk.injEq] at h
      exact Or.inl h
    · exact Or.inr (Or.inr h)
    · simp only [Prod.mk.injEq] at he
      obtain ⟨rfl, rfl⟩ := he
      exact Or.inr (Or.inl ⟨ha, rfl⟩)
  · rintro (⟨rfl, rfl⟩ | ⟨h, rfl⟩ | h)
    · exact Or.inl ⟨Or.inl rfl, by simpa using hd⟩
    · exact Or.inr ⟨k, h, rfl⟩
    · exact Or.inl ⟨Or.inr h, by simpa using h.2⟩

/-- Two user keywords, one of them differentiable. -/
example : calledKwargs "True" [("nfp", "2"), ("plasma_dofs", "x")] (fun _ => "y") =
    .ok ([("value_only", "True"), ("nfp", "2")] ++ quadcoilDiffArgs.map fun k => (k, "y")) := rfl

/-- **C57.** Passing `value_only` is refused. -/
theorem C57_value_only_refused {V : Type} (valueOnly : V) (kwargs : List (String × V)) (args : String → V)
    (hv : "value_only" ∈ kwargs.map Prod.fst) : calledKwargs valueOnly kwargs args = .error .typeError := by
  have hv2 : "value_only" ∈ (partialKwargs kwargs).map Prod.fst := by
    obtain ⟨⟨k, v⟩, hk, hkv⟩ := List.mem_map.1 hv
    refine List.mem_map.2 ⟨(k, v), (mem_partialKwargs kwargs k v).2 ⟨hk, ?_⟩, hkv⟩
    simp only at hkv
    subst hkv
    decide
  rw [calledKwargs, boundKwargs, if_pos hv2]
  rfl

example : calledKwargs "True" [("value_only", "False")] (fun _ => "y") = .error .typeError :=
  C57_value_only_refused _ _ _ (by simp)

/-! ## C57: the derivative rule -/

/-- The tangent that enters the derivative for an argument: the one of the same name, except that the tangents of a scalar
objective weight and of an empty sequence of constraint values do not enter. -/
def Tangents.get (T : Tangents) (name : String) : Option (List ℝ) :=
  if name = "plasma_dofs" then T.plasmaDofs
  else if name = "net_poloidal_current_amperes" then T.netPoloidal
  else if name = "net_toroidal_current_amperes" then T.netToroidal
  else if name = "Bnormal_plasma" then T.bnormalPlasma
  else if name = "plasma_coil_distance" then T.plasmaCoilDistance
  else if name = "winding_dofs" then T.windingDofs
  else if name = "objective_weight" then T.objectiveWeight.bind fun w => match w with
    | .array t => some t
    | .scalar _ => none
  else if name = "constraint_value" then T.constraintValue.filter fun t => t ≠ []
  else none

/-- Inner product of two arrays, 0 if one is missing. -/
noncomputable def pairing : Option (List ℝ) → Option (List ℝ) → ℝ
  | some g, some t => (List.zipWith (· * ·) g t).sum
  | _, _ => 0

theorem addTerm_ok (grad : List (String × List ℝ)) (key : String) (d : Option (List ℝ)) (acc : ℝ)
    (h : d.isSome → (grad.lookup key).isSome) : addTerm grad key d acc = .ok (acc + pairing (grad.lookup key) d) := by
  cases d with
  | none => simp [addTerm, pairing]
  | some t =>
    obtain ⟨g, hg⟩ := Option.isSome_iff_exists.1 (h rfl)
    simp only [addTerm, gradEntry, hg]
    rfl

theorem get_weight (T : Tangents) : T.get "objective_weight" = weightTangent T.objectiveWeight := by
  rcases hT : T.objectiveWeight with _ | (t | t) <;> simp [Tangents.get, weightTangent, hT]

theorem get_constraint (T : Tangents) : T.get "constraint_value" = constraintTangent T.constraintValue := by
  rcases hT : T.constraintValue with _ | (_ | ⟨a, t⟩) <;> simp [Tangents.get, constraintTangent, hT]

/-- **C57.** If every tangent that enters has a gradient entry, the tangent output is the sum over the eight differentiable
arguments of the inner products of the gradient entry of that name with the tangent of that name. -/
theorem C57_tangent_formula (grad : List (String × List ℝ)) (T : Tangents)
    (h : ∀ name ∈ quadcoilDiffArgs, (T.get name).isSome → (grad.lookup ("df_d" ++ name)).isSome) :
    jvpMetric grad T
      = .ok ((quadcoilDiffArgs.map fun name => pairing (grad.lookup ("df_d" ++ name)) (T.get name)).sum) := by
  have hs : (quadcoilDiffArgs.map fun name => pairing (grad.lookup ("df_d" ++ name)) (T.get name)).sum
      = 0 + pairing (grad.lookup "df_dplasma_dofs") T.plasmaDofs
        + pairing (grad.lookup "df_dnet_poloidal_current_amperes") T.netPoloidal
        + pairing (grad.lookup "df_dnet_toroidal_current_amperes") T.netToroidal
        + pairing (grad.lookup "df_dBnormal_plasma") T.bnormalPlasma
        + pairing (grad.lookup "df_dplasma_coil_distance") T.plasmaCoilDistance
        + pairing (grad.lookup "df_dwinding_dofs") T.windingDofs
        + pairing (grad.lookup "df_dobjective_weight") (weightTangent T.objectiveWeight)
        + pairing (grad.lookup "df_dconstraint_value") (constraintTangent T.constraintValue) := by
    rw [← get_weight, ← get_constraint]
    simp only [quadcoilDiffArgs, List.map_cons, List.map_nil, List.sum_cons, List.sum_nil]
    simp only [show "df_d" ++ "plasma_dofs" = "df_dplasma_dofs" from rfl,
      show "df_d" ++ "net_poloidal_current_amperes" = "df_dnet_poloidal_current_amperes" from rfl,
      show "df_d" ++ "net_toroidal_current_amperes" = "df_dnet_toroidal_current_amperes" from rfl,
      show "df_d" ++ "Bnormal_plasma" = "df_dBnormal_plasma" from rfl,
      show "df_d" ++ "plasma_coil_distance" = "df_dplasma_coil_distance" from rfl,
      show "df_d" ++ "winding_dofs" = "df_dwinding_dofs" from rfl,
      show "df_d" ++ "objective_weight" = "df_dobjective_weight" from rfl,
      show "df_d" ++ "constraint_value" = "df_dconstraint_value" from rfl,
      show T.get "plasma_dofs" = T.plasmaDofs from rfl,
      show T.get "net_poloidal_current_amperes" = T.netPoloidal from rfl,
      show T.get "net_toroidal_current_amperes" = T.netToroidal from rfl,
      show T.get "Bnormal_plasma" = T.bnormalPlasma from rfl,
      show T.get "plasma_coil_distance" = T.plasmaCoilDistance from rfl,
      show T.get "winding_dofs" = T.windingDofs from rfl]
    ring
  rw [hs, jvpMetric]
  rw [addTerm_ok grad "df_dplasma_dofs" T.plasmaDofs 0 (h "plasma_dofs" (by decide))]
  simp only [bind, Except.bind]
  rw [addTerm_ok grad "df_dnet_poloidal_current_amperes" T.netPoloidal _ (h "net_poloidal_current_amperes" (by decide))]
  simp only []
  rw [addTerm_ok grad "df_dnet_toroidal_current_amperes" T.netToroidal _ (h "net_toroidal_current_amperes" (by decide))]
  simp only []
  rw [addTerm_ok grad "df_dBnormal_plasma" T.bnormalPlasma _ (h "Bnormal_plasma" (by decide))]
  simp only []
  rw [addTerm_ok grad "df_dplasma_coil_distance" T.plasmaCoilDistance _ (h "plasma_coil_distance" (by decide))]
  simp only []
  rw [addTerm_ok grad "df_dwinding_dofs" T.windingDofs _ (h "winding_dofs" (by decide))]
  simp only []
  rw [addTerm_ok grad "df_dobjective_weight" (weightTangent T.objectiveWeight) _
    (get_weight T ▸ h "objective_weight" (by decide))]
  simp only []
  rw [addTerm_ok grad "df_dconstraint_value" (constraintTangent T.constraintValue) _
    (get_constraint T ▸ h "constraint_value" (by decide))]

theorem addTerm_missing (grad : List (String × List ℝ)) (key : String) (d : Option (List ℝ)) (acc : ℝ) (h : d.isSome)
    (hk : grad.lookup key = none) : addTerm grad key d acc = .error .keyError := by
  obtain ⟨t, rfl⟩ := Option.isSome_iff_exists.1 h
  simp only [addTerm, gradEntry, hk]
  rfl

theorem addTerm_cases (grad : List (String × List ℝ)) (key : String) (d : Option (List ℝ)) (acc : ℝ) :
    (d.isSome ∧ grad.lookup key = none ∧ addTerm grad key d acc = .error .keyError) ∨
      (¬ (d.isSome ∧ grad.lookup key = none) ∧ ∃ r, addTerm grad key d acc = .ok r) := by
  by_cases h : d.isSome ∧ grad.lookup key = none
  · exact Or.inl ⟨h.1, h.2, addTerm_missing grad key d acc h.1 h.2⟩
  · refine Or.inr ⟨h, _, addTerm_ok grad key d acc fun hd => ?_⟩
    rw [Option.isSome_iff_ne_none]
    exact fun hk => h ⟨hd, hk⟩

/-- **C57.** If a tangent enters whose gradient entry is missing, the rule raises `KeyError`. -/
theorem C57_missing_entry (grad : List (String × List ℝ)) (T : Tangents) (name : String) (hn : name ∈ quadcoilDiffArgs)
    (ht : (T.get name).isSome) (hg : grad.lookup ("df_d" ++ name) = none) : jvpMetric grad T = .error .keyError := by
  have step : ∀ (key : String) (d : Option (List ℝ)) (acc : ℝ) (rest : ℝ → Except PyErr ℝ),
      ((d.isSome ∧ grad.lookup key = none) ∨ ∀ j, rest j = .error .keyError) →
      (addTerm grad key d acc >>= rest) = .error .keyError := by
    intro key d acc rest h
    rcases addTerm_cases grad key d acc with ⟨-, -, h3⟩ | ⟨h1, r, h2⟩
    · rw [h3]; rfl
    · rw [h2]
      rcases h with h | h
      · exact absurd h h1
      · exact h r
  have hw := get_weight T
  have hc := get_constraint T
  have hm : name = "plasma_dofs" ∨ name = "net_poloidal_current_amperes" ∨ name = "net_toroidal_current_amperes" ∨
      name = "Bnormal_plasma" ∨ name = "plasma_coil_distance" ∨ name = "winding_dofs" ∨ name = "objective_weight" ∨
      name = "constraint_value" := by
    simpa [quadcoilDiffArgs] using hn
  unfold jvpMetric
  rcases hm with rfl | rfl | rfl | rfl | rfl | rfl | rfl | rfl
  · exact step _ _ _ _ (Or.inl ⟨ht, hg⟩)
  · exact step _ _ _ _ (Or.inr fun _ => step _ _ _ _ (Or.inl ⟨ht, hg⟩))
  · exact step _ _ _ _ (Or.inr fun _ => step _ _ _ _ (Or.inr fun _ => step _ _ _ _ (Or.inl ⟨ht, hg⟩)))
  · exact step _ _ _ _ (Or.inr fun _ => step _ _ _ _ (Or.inr fun _ => step _ _ _ _ (Or.inr fun _ =>
      step _ _ _ _ (Or.inl ⟨ht, hg⟩))))
  · exact step _ _ _ _ (Or.inr fun _ => step _ _ _ _ (Or.inr fun _ => step _ _ _ _ (Or.inr fun _ =>
      step _ _ _ _ (Or.inr fun _ => step _ _ _ _ (Or.inl ⟨ht, hg⟩)))))
  · exact step _ _ _ _ (Or.inr fun _ => step _ _ _ _ (Or.inr fun _ => step _ _ _ _ (Or.inr fun _ =>
      step _ _ _ _ (Or.inr fun _ => step _ _ _ _ (Or.inr fun _ => step _ _ _ _ (Or.inl ⟨ht, hg⟩))))))
  · rw [hw] at ht
    exact step _ _ _ _ (Or.inr fun _ => step _ _ _ _ (Or.inr fun _ => step _ _ _ _ (Or.inr fun _ =>
      step _ _ _ _ (Or.inr fun _ => step _ _ _ _ (Or.inr fun _ => step _ _ _ _ (Or.inr fun _ =>
        step _ _ _ _ (Or.inl ⟨ht, hg⟩)))))))
  · rw [hc] at ht
    exact step _ _ _ _ (Or.inr fun _ => step _ _ _ _ (Or.inr fun _ => step _ _ _ _ (Or.inr fun _ =>
      step _ _ _ _ (Or.inr fun _ => step _ _ _ _ (Or.inr fun _ => step _ _ _ _ (Or.inr fun _ =>
        step _ _ _ _ (Or.inr fun _ => addTerm_missing _ _ _ _ ht hg)))))))

/-- The tangent of the winding surface enters and its gradient entry is missing. -/
example : jvpMetric [("df_dplasma_dofs", [2])] ⟨some [1], none, none, none, none, some [5], none, some []⟩ = .error .keyError :=
  C57_missing_entry _ _ "winding_dofs" (by decide) rfl rfl

/-- Two tangents: `2 * 1 + 3 * 5 = 17`. -/
example : jvpMetric [("df_dplasma_dofs", [2]), ("df_dwinding_dofs", [3]), ("df_dobjective_weight", [7])]
    ⟨some [1], none, none, none, none, some [5], some (.scalar 1), some []⟩ = .ok 17 := by
  simp [jvpMetric, addTerm, gradEntry, List.lookup, weightTangent, constraintTangent, sumMul, bind, Except.bind]
  norm_num

/-- Linear combination of tangents of the same kinds of arguments. -/
def combOpt (a : ℝ) : Option (List ℝ) → Option (List ℝ) → Option (List ℝ)
  | some s, some t => some (List.zipWith (fun x y => a * x + y) s t)
  | _, _ => none

/-- Two tangents are compatible: both missing, or arrays of the same length as the gradient entry. -/
def Compat (g s t : Option (List ℝ)) : Prop :=
  (s = none ∧ t = none) ∨ ∃ g' s' t', g = some g' ∧ s = some s' ∧ t = some t' ∧ s'.length = g'.length ∧ t'.length = g'.length

theorem pairing_comb (a : ℝ) (g s t : Option (List ℝ)) (h : Compat g s t) :
    pairing g (combOpt a s t) = a * pairing g s + pairing g t := by
  rcases h with ⟨rfl, rfl⟩ | ⟨g, s, t, rfl, rfl, rfl, hs, ht⟩
  · cases g <;> simp [pairing, combOpt]
  · simp only [pairing, combOpt]
    induction g generalizing s t with
    | nil => simp
    | cons x g ih =>
      cases s with
      | nil => simp at hs
      | cons y s =>
        cases t with
        | nil => simp at ht
        | cons z t =>
          simp only [List.zipWith_cons_cons, List.sum_cons]
          rw [ih s t (by simpa using hs) (by simpa using ht)]
          ring

/-- **C57.** The tangent output is linear in the tangents: if all tangents of `U` are `a` times those of `S` plus those of `T`,
so is the output. -/
theorem C57_tangent_linear (grad : List (String × List ℝ)) (S T U : Tangents) (a : ℝ)
    (hc : ∀ name ∈ quadcoilDiffArgs, Compat (grad.lookup ("df_d" ++ name)) (S.get name) (T.get name))
    (hU : ∀ name ∈ quadcoilDiffArgs, U.get name = combOpt a (S.get name) (T.get name)) :
    ∃ x y, jvpMetric grad S = .ok x ∧ jvpMetric grad T = .ok y ∧ jvpMetric grad U = .ok (a * x + y) := by
  have hS : ∀ name ∈ quadcoilDiffArgs, (S.get name).isSome → (grad.lookup ("df_d" ++ name)).isSome := by
    intro n hn hs
    rcases hc n hn with ⟨h1, _⟩ | ⟨g', s', t', h1, h2, h3, _⟩
    · rw [h1] at hs; simp at hs
    · rw [h1]; rfl
  have hT : ∀ name ∈ quadcoilDiffArgs, (T.get name).isSome → (grad.lookup ("df_d" ++ name)).isSome := by
    intro n hn hs
    rcases hc n hn with ⟨_, h1⟩ | ⟨g', s', t', h1, h2, h3, _⟩
    · rw [h1] at hs; simp at hs
    · rw [h1]; rfl
  have hU' : ∀ name ∈ quadcoilDiffArgs, (U.get name).isSome → (grad.lookup ("df_d" ++ name)).isSome := by
    intro n hn hs
    rcases hc n hn with ⟨h1, h2⟩ | ⟨g', s', t', h1, h2, h3, _⟩
    · rw [hU n hn, h1, h2] at hs; simp [combOpt] at hs
    · rw [h1]; rfl
  refine ⟨_, _, C57_tangent_formula grad S hS, C57_tangent_formula grad T hT, ?_⟩
  rw [C57_tangent_formula grad U hU', ← List.sum_map_mul_left, ← List.sum_map_add]
  congr 2
  refine List.map_congr_left fun n hn => ?_
  rw [hU n hn, pairing_comb a _ _ _ (hc n hn)]

/-- The hypotheses hold for tangents of one argument. -/
example : ∃ x y, jvpMetric [("df_dplasma_dofs", [2])] ⟨some [1], none, none, none, none, none, none, none⟩ = .ok x ∧
    jvpMetric [("df_dplasma_dofs", [2])] ⟨some [4], none, none, none, none, none, none, none⟩ = .ok y ∧
    jvpMetric [("df_dplasma_dofs", [2])] ⟨some [3 * 1 + 4], none, none, none, none, none, none, none⟩ = .ok (3 * x + y) := by
  refine C57_tangent_linear _ _ _ _ 3 ?_ ?_
  · intro n hn
    simp only [quadcoilDiffArgs, List.mem_cons, List.not_mem_nil, or_false] at hn
    rcases hn with rfl | rfl | rfl | rfl | rfl | rfl | rfl | rfl
    · exact Or.inr ⟨[2], [1], [4], rfl, rfl, rfl, rfl, rfl⟩
    all_goals exact Or.inl ⟨rfl, rfl⟩
  · intro n hn
    simp only [quadcoilDiffArgs, List.mem_cons, List.not_mem_nil, or_false] at hn
    rcases hn with rfl | rfl | rfl | rfl | rfl | rfl | rfl | rfl <;> rfl

/-- **C57.** The gradient entries needed are the ones `quadcoil` returns: if the arguments that were `None` have no tangents, the
objective weights have an array tangent only for several objectives, and there are constraint tangents only if there are
constraints, no entry is missing. -/
theorem C57_no_missing_entry (a : YArgs) (T : Tangents) (grad : List (String × List ℝ))
    (hg : grad.map Prod.fst = (yKeys a).map fun k => "df_d" ++ k)
    (hb : a.bnormalPlasmaGiven = false → T.bnormalPlasma = none)
    (hp : a.plasmaCoilDistanceGiven = false → T.plasmaCoilDistance = none)
    (hw : a.plasmaCoilDistanceGiven = true → T.windingDofs = none)
    (ho : a.objectiveIsString = true → ∀ t, T.objectiveWeight ≠ some (.array t))
    (hc : a.nConstraints = 0 → T.constraintValue = none ∨ T.constraintValue = some []) :
    jvpMetric grad T
      = .ok ((quadcoilDiffArgs.map fun name => pairing (grad.lookup ("df_d" ++ name)) (T.get name)).sum) := by
  refine C57_tangent_formula grad T fun name hn hs => ?_
  have key : name ∈ yKeys a → (grad.lookup ("df_d" ++ name)).isSome := by
    intro hy
    have hm : "df_d" ++ name ∈ grad.map Prod.fst := by
      rw [hg]; exact List.mem_map.2 ⟨name, hy, rfl⟩
    obtain ⟨⟨k, v⟩, hkv, hk⟩ := List.mem_map.1 hm
    by_contra hne
    rw [Option.not_isSome_iff_eq_none, List.lookup_eq_none_iff] at hne
    have := hne (k, v) hkv
    simp only at hk
    simp [hk] at this
  apply key
  simp only [quadcoilDiffArgs, List.mem_cons, List.not_mem_nil, or_false] at hn
  simp only [yKeys, List.mem_append, List.mem_cons, List.not_mem_nil, or_false]
  rcases hn with rfl | rfl | rfl | rfl | rfl | rfl | rfl | rfl
  · simp
  · simp
  · simp
  · rcases hbb : a.bnormalPlasmaGiven with _ | _
    · rw [show T.get "Bnormal_plasma" = T.bnormalPlasma from rfl, hb hbb] at hs; simp at hs
    · simp
  · rcases hbb : a.plasmaCoilDistanceGiven with _ | _
    · rw [show T.get "plasma_coil_distance" = T.plasmaCoilDistance from rfl, hp hbb] at hs; simp at hs
    · simp
  · rcases hbb : a.plasmaCoilDistanceGiven with _ | _
    · simp
    · rw [show T.get "winding_dofs" = T.windingDofs from rfl, hw hbb] at hs; simp at hs
  · rcases hbb : a.objectiveIsString with _ | _
    · simp
    · rw [get_weight] at hs
      rcases hT : T.objectiveWeight with _ | (t | t)
      · rw [hT] at hs; simp [weightTangent] at hs
      · rw [hT] at hs; simp [weightTangent] at hs
      · exact absurd hT (ho hbb t)
  · rcases Nat.eq_zero_or_pos a.nConstraints with h0 | h0
    · rw [get_constraint] at hs
      rcases hc h0 with h | h <;> rw [h] at hs <;> simp [constraintTangent] at hs
    · simp [h0]

/-- The hypotheses hold for a problem with one objective and a distance. -/
example : jvpMetric (((yKeys ⟨true, 0, false, true⟩).map fun k => ("df_d" ++ k, [(1 : ℝ)])))
    ⟨some [1], some [2], some [3], none, some [4], none, some (.scalar 1), some []⟩ = .ok 10 := by
  rw [C57_no_missing_entry ⟨true, 0, false, true⟩ _ _ (by simp) (by simp) (by simp) (by simp) (by simp) (by simp)]
  simp [quadcoilDiffArgs, yKeys, List.lookup, Tangents.get, pairing]
  norm_num

/-! ## C96, C97 -/

/-- **C96 fails.** Loading a DESC current potential field never returns a problem: an undefined name is reached in every case, whatever the
field, the grids and the surface are. If the coefficients can be converted, the error is `NameError`. -/
theorem C96_never_loads_violated_partial {α β γ : Type} (convert : Except PyErr α) (grids : α → Except PyErr β)
    (surface : β → Except PyErr γ) :
    (∀ phi, loadCurrentPotential convert grids surface ≠ .ok phi) ∧
      ∀ phi, convert = .ok phi → loadCurrentPotential convert grids surface = .error .nameError := by
  constructor
  · intro phi
    cases convert with
    | error e => simp [loadCurrentPotential, bind, Except.bind]
    | ok c => simp [loadCurrentPotential, bind, Except.bind, evalName, evalGlobal, loadLocals, descGlobals]
  · rintro phi rfl
    simp [loadCurrentPotential, bind, Except.bind, evalName, evalGlobal, loadLocals, descGlobals]

/-- **C96, further errors.** Two more undefined names follow: even with the condition of line 177 repaired the function would not
return. -/
theorem C96_further_names_violated_partial :
    evalName (loadLocals ++ ["winding_quadpoints_phi_temp", "winding_quadpoints_theta_temp"]) descGlobals "scf_nescoil"
        = .error .nameError ∧
      evalName (loadLocals ++ ["winding_quadpoints_phi_temp", "winding_quadpoints_theta_temp", "winding_surface"]) descGlobals "qp"
        = .error .nameError := by
  simp [evalName, evalGlobal, loadLocals, descGlobals]

/-- The same look-up succeeds for the names that are defined. -/
example : evalName loadLocals descGlobals "scf" = .ok () ∧ evalName loadLocals descGlobals "SurfaceRZFourierJAX" = .ok () := by
  simp [evalName, evalGlobal, loadLocals, descGlobals]

/-- **C97 fails.** The quantity `f_max_phi_dof` of regularization.py cannot be requested by its name, in any role and with any unit, and
its DESC unit raises `NameError`. (`others` are the attributes of `quadcoil.quantity` that are not quantities.) -/
theorem C97_violated_partial {P : Type} [HasQp P] (F : FieldFns P) (others : List String) (unit : UnitArg) (role : String)
    (sm : Option String) (sp : SmoothingParams) (mu0 : ℝ) (s : Scales) :
    addQuantity (shippedRegistry F others) "f_max_phi_dof" unit role sm sp = .error .valueError ∧
      phiCoeffUnit mu0 s = .error .nameError := by
  constructor
  · refine C92_unknown_name_value_error _ _ (fun q => ?_) _ _ _ _
    simp only [shippedRegistry, shipped, List.lookup, String.reduceBEq]
    split_ifs <;> simp
  · simp [phiCoeffUnit, evalGlobal, regularizationGlobals, bind, Except.bind]

/-- The other quantities are found under the same hypotheses. -/
example {P : Type} [HasQp P] (F : FieldFns P) (others : List String) : ∃ q,
    getQuantity (shippedRegistry F others) "f_max_Phi" = .ok q :=
  ⟨_, C93_every_name_found F others "f_max_Phi" _ (by simp [shipped]; rfl)⟩

end Verif
