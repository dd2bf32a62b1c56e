import Verif.Props.Call
import Verif.Props.CallExamples
import Verif.Props.LiftedWitness

/-!
# C172: what is reported does not influence what is computed
-/

namespace Verif

/-- The same call with other metrics and another mode of reporting. -/
def CallArgs.reporting (names : OneOrMany String) (valueOnly : Bool) (a : CallArgs) : CallArgs :=
  { a with metricName := names, valueOnly := valueOnly }

section

variable {opt : Optimizer ℝ} {gradOp : (List ℝ → ℝ) → List ℝ → List ℝ} {reg : Registry FieldProblem} {a : CallArgs}

theorem reporting_setup (n : OneOrMany String) (v : Bool) : (a.reporting n v).setup reg = a.setup reg := rfl

/-- What a call does before the metrics are evaluated. -/
noncomputable def solvedPart (opt : Optimizer ℝ) (gradOp : (List ℝ → ℝ) → List ℝ → List ℝ) (reg : Registry FieldProblem) (a : CallArgs) :
    Except PyErr (Option (FieldProblem × Fgh FieldProblem × SolveResults × Dofs)) := do
  let (Q, S) ← a.setup reg
  let p ← fghFromY reg Q a.opts
  .ok ((quadcoilSolve opt gradOp S).map fun r => (Q, p, r.1, r.2))

theorem quadcoilCall_reporting (n : OneOrMany String) (v : Bool) : quadcoilCall opt gradOp reg (a.reporting n v) =
    (solvedPart opt gradOp reg a).bind fun
      | none => .ok none
      | some (Q, p, r, d) => ((a.reporting n v).outDict reg Q p d).map fun out => some ⟨out, Q, d, r⟩ := by
  unfold quadcoilCall solvedPart
  rw [reporting_setup]
  cases a.setup reg with
  | error e => rfl
  | ok s =>
    obtain ⟨Q, S⟩ := s
    simp only [bind, Except.bind]
    have e : fghFromY reg Q (a.reporting n v).opts = fghFromY reg Q a.opts := rfl
    rw [e]
    cases fghFromY reg Q a.opts with
    | error e => rfl
    | ok p =>
      cases quadcoilSolve opt gradOp S with
      | none => rfl
      | some r =>
        obtain ⟨r, d⟩ := r
        simp only [Option.map_some]
        cases (a.reporting n v).outDict reg Q p d <;> rfl

/-- **C172.** Two calls that differ only in what they report: if both return, they return the same problem, the same potential and the same results
of the solver, and if one of them does not stop, neither does the other one unless it fails. -/
theorem C172_same_solution {n1 n2 : OneOrMany String} {v1 v2 : Bool} {o1 o2 : Option CallOut}
    (h1 : quadcoilCall opt gradOp reg (a.reporting n1 v1) = .ok o1) (h2 : quadcoilCall opt gradOp reg (a.reporting n2 v2) = .ok o2) :
    o1.map (fun o => (o.qp, o.dofs, o.results)) = o2.map (fun o => (o.qp, o.dofs, o.results)) := by
  rw [quadcoilCall_reporting] at h1 h2
  cases hs : solvedPart opt gradOp reg a with
  | error e => simp [hs, Except.bind] at h1
  | ok s =>
    rw [hs] at h1 h2
    cases s with
    | none =>
      simp only [Except.bind, Except.ok.injEq] at h1 h2
      rw [← h1, ← h2]
    | some q =>
      obtain ⟨Q, p, r, d⟩ := q
      simp only [Except.bind] at h1 h2
      cases e1 : (a.reporting n1 v1).outDict reg Q p d with
      | error e => simp [e1, Except.map] at h1
      | ok x1 =>
        cases e2 : (a.reporting n2 v2).outDict reg Q p d with
        | error e => simp [e2, Except.map] at h2
        | ok x2 =>
          simp only [e1, e2, Except.map, Except.ok.injEq] at h1 h2
          rw [← h1, ← h2]
          rfl

/-- The value that an entry of the dictionary has. -/
theorem outDict_value {n : OneOrMany String} {v : Bool} {Q : FieldProblem} {p : Fgh FieldProblem} {d : Dofs} {out : List (String × MetricOut Val)}
    (h : (a.reporting n v).outDict reg Q p d = .ok out) {m : String} {e : MetricOut Val} (hm : out.lookup m = some e) :
    if m = "f_obj" then e.value = p.f d else metricValue reg Q d m = .ok e.value := by
  unfold CallArgs.outDict at h
  split at h
  · obtain ⟨h1, h2⟩ := valueOnlyOut_lookup _ _ [] _ h m
    by_cases hf : m = "f_obj"
    · rw [h2 (.inr hf)] at hm
      simp at hm
    · rw [if_neg hf]
      by_cases hn : m ∈ (a.reporting n v).metrics
      · obtain ⟨w, hw, hv⟩ := h1 hn hf
        rw [hm, Option.some.injEq] at hw
        rw [hw, hv]
      · rw [h2 (.inl hn)] at hm
        simp at hm
  · obtain ⟨h1, h2⟩ := gradientOut_lookup _ _ _ _ [] _ h m
    by_cases hn : m ∈ (a.reporting n v).metrics
    · obtain ⟨w, hw, hv⟩ := h1 hn
      rw [hm, Option.some.injEq] at hw
      rw [hw]
      exact hv
    · rw [h2 hn] at hm
      simp at hm

/-- **C172.** A metric that both calls report has the same value in both. -/
theorem C172_same_values {n1 n2 : OneOrMany String} {v1 v2 : Bool} {o1 o2 : CallOut}
    (h1 : quadcoilCall opt gradOp reg (a.reporting n1 v1) = .ok (some o1)) (h2 : quadcoilCall opt gradOp reg (a.reporting n2 v2) = .ok (some o2))
    {m : String} {e1 e2 : MetricOut Val} (hm1 : o1.out.lookup m = some e1) (hm2 : o2.out.lookup m = some e2) : e1.value = e2.value := by
  rw [quadcoilCall_reporting] at h1 h2
  cases hs : solvedPart opt gradOp reg a with
  | error e => simp [hs, Except.bind] at h1
  | ok s =>
    rw [hs] at h1 h2
    cases s with
    | none => simp [Except.bind] at h1
    | some q =>
      obtain ⟨Q, p, r, d⟩ := q
      simp only [Except.bind] at h1 h2
      cases k1 : (a.reporting n1 v1).outDict reg Q p d with
      | error e => simp [k1, Except.map] at h1
      | ok x1 =>
        cases k2 : (a.reporting n2 v2).outDict reg Q p d with
        | error e => simp [k2, Except.map] at h2
        | ok x2 =>
          simp only [k1, k2, Except.map, Except.ok.injEq, Option.some.injEq] at h1 h2
          rw [← h1] at hm1
          rw [← h2] at hm2
          have w1 := outDict_value k1 hm1
          have w2 := outDict_value k2 hm2
          by_cases hf : m = "f_obj"
          · rw [if_pos hf] at w1 w2
            rw [w1, w2]
          · rw [if_neg hf] at w1 w2
            rw [w1] at w2
            exact Except.ok.inj w2

theorem metricValue_error {Q : FieldProblem} {d : Dofs} {m : String} {e : PyErr} (h : metricValue reg Q d m = .error e) :
    getQuantity reg m = .error e := by
  unfold metricValue at h
  cases hq : getQuantity reg m with
  | error e' =>
    simp only [hq, bind, Except.bind, Except.error.injEq] at h
    rw [h]
  | ok q => simp [hq, bind, Except.bind] at h

theorem foldlM_error {β : Type} {step : β → String → Except PyErr β} {P : String → PyErr → Prop}
    (hstep : ∀ b m e, step b m = .error e → P m e) {l : List String} {b : β} {e : PyErr} (h : l.foldlM step b = .error e) :
    ∃ m ∈ l, P m e := by
  induction l generalizing b with
  | nil => simp [pure, Except.pure] at h
  | cons m l ih =>
    rw [List.foldlM_cons] at h
    cases hs : step b m with
    | error e' =>
      simp only [hs, bind, Except.bind, Except.error.injEq] at h
      exact ⟨m, List.mem_cons_self .., h ▸ hstep b m e' hs⟩
    | ok b' =>
      simp only [hs, bind, Except.bind] at h
      obtain ⟨m', hm, hp⟩ := ih h
      exact ⟨m', List.mem_cons_of_mem _ hm, hp⟩

theorem outDict_error {n : OneOrMany String} {v : Bool} {Q : FieldProblem} {p : Fgh FieldProblem} {d : Dofs} {e : PyErr}
    (h : (a.reporting n v).outDict reg Q p d = .error e) : ∃ m ∈ (a.reporting n v).metrics, m ≠ "f_obj" ∧ getQuantity reg m = .error e := by
  unfold CallArgs.outDict at h
  split at h
  · refine foldlM_error (P := fun m e => m ≠ "f_obj" ∧ getQuantity reg m = .error e) (fun b m e hs => ?_) h
    unfold valueOnlyStep at hs
    by_cases hf : m = "f_obj"
    · simp [hf] at hs
    · rw [if_neg hf] at hs
      cases hv : metricValue reg Q d m with
      | error e' =>
        simp only [hv, bind, Except.bind, Except.error.injEq] at hs
        exact ⟨hf, hs ▸ metricValue_error hv⟩
      | ok w => simp [hv, bind, Except.bind] at hs
  · refine foldlM_error (P := fun m e => m ≠ "f_obj" ∧ getQuantity reg m = .error e) (fun b m e hs => ?_) h
    unfold gradientStep at hs
    by_cases hf : m = "f_obj"
    · simp [hf, bind, Except.bind] at hs
    · rw [if_neg hf] at hs
      cases hv : metricValue reg Q d m with
      | error e' =>
        simp only [hv, bind, Except.bind, Except.error.injEq] at hs
        exact ⟨hf, hs ▸ metricValue_error hv⟩
      | ok w => simp [hv, bind, Except.bind] at hs

/-- **C172.** If one of the two calls fails and the other one does not, the first one asks for a metric that does not exist. -/
theorem C172_failures {n1 n2 : OneOrMany String} {v1 v2 : Bool} {e : PyErr} {o : Option CallOut}
    (h1 : quadcoilCall opt gradOp reg (a.reporting n1 v1) = .error e) (h2 : quadcoilCall opt gradOp reg (a.reporting n2 v2) = .ok o) :
    ∃ m ∈ (a.reporting n1 v1).metrics, m ≠ "f_obj" ∧ getQuantity reg m = .error e := by
  rw [quadcoilCall_reporting] at h1 h2
  cases hs : solvedPart opt gradOp reg a with
  | error e => simp [hs, Except.bind] at h2
  | ok s =>
    rw [hs] at h1
    cases s with
    | none => simp [Except.bind] at h1
    | some q =>
      obtain ⟨Q, p, r, d⟩ := q
      simp only [Except.bind] at h1
      cases k1 : (a.reporting n1 v1).outDict reg Q p d with
      | error e' =>
        simp only [k1, Except.map, Except.error.injEq] at h1
        exact h1 ▸ outDict_error k1
      | ok x1 => simp [k1, Except.map] at h1

/-- **C172.** If a call returns, it also returns when other existing metrics are asked for, with the same problem, potential and results. -/
theorem C172_returns {n : OneOrMany String} {v : Bool} {R : CallOut} (h : quadcoilCall opt gradOp reg a = .ok (some R))
    (hn : ∀ m ∈ (a.reporting n v).metrics, m = "f_obj" ∨ ∃ q, getQuantity reg m = .ok q) :
    ∃ R', quadcoilCall opt gradOp reg (a.reporting n v) = .ok (some R') ∧ R'.qp = R.qp ∧ R'.dofs = R.dofs ∧ R'.results = R.results := by
  have h' : quadcoilCall opt gradOp reg (a.reporting a.metricName a.valueOnly) = .ok (some R) := h
  cases hc : quadcoilCall opt gradOp reg (a.reporting n v) with
  | error e =>
    obtain ⟨m, hm, hf, hq⟩ := C172_failures hc h'
    rcases hn m hm with k | ⟨q, k⟩
    · exact absurd k hf
    · rw [k] at hq
      simp at hq
  | ok o =>
    have := C172_same_solution hc h'
    cases o with
    | none => simp at this
    | some R' =>
      simp only [Option.map_some, Option.some.injEq, Prod.mk.injEq] at this
      exact ⟨R', rfl, this⟩

/-- **C172.** If all metrics exist, a call fails with the same error whatever it reports. -/
theorem C172_same_error {n1 n2 : OneOrMany String} {v1 v2 : Bool} {e : PyErr}
    (hn : ∀ m ∈ (a.reporting n1 v1).metrics ++ (a.reporting n2 v2).metrics, m = "f_obj" ∨ ∃ q, getQuantity reg m = .ok q) :
    quadcoilCall opt gradOp reg (a.reporting n1 v1) = .error e ↔ quadcoilCall opt gradOp reg (a.reporting n2 v2) = .error e := by
  have key : ∀ {n : OneOrMany String} {v : Bool}, (∀ m ∈ (a.reporting n v).metrics, m = "f_obj" ∨ ∃ q, getQuantity reg m = .ok q) →
      (quadcoilCall opt gradOp reg (a.reporting n v) = .error e ↔ solvedPart opt gradOp reg a = .error e) := by
    intro n v hn
    rw [quadcoilCall_reporting]
    cases hs : solvedPart opt gradOp reg a with
    | error e' => simp [Except.bind]
    | ok s =>
      refine ⟨fun h => ?_, fun h => by simp at h⟩
      cases s with
      | none => simp [Except.bind] at h
      | some q =>
        obtain ⟨Q, p, r, d⟩ := q
        simp only [Except.bind] at h
        cases k1 : (a.reporting n v).outDict reg Q p d with
        | error e' =>
          obtain ⟨m, hm, hf, hq⟩ := outDict_error k1
          rcases hn m hm with h' | ⟨q, h'⟩
          · exact absurd h' hf
          · rw [h'] at hq
            simp at hq
        | ok x1 => simp [k1, Except.map] at h
  rw [key fun m hm => hn m (List.mem_append_left _ hm), key fun m hm => hn m (List.mem_append_right _ hm)]

end

/-! ## Examples -/

/-- A call that returns, and its other forms: one with gradients, one with values only. -/
example : ∃ b, ∀ w > 0, ∃ R R' : CallOut,
    quadcoilCall (gradientDescent realGrad (1 / 4)) realGrad (shippedRegistry FieldProblem.fns []) ((torusCall b).standard w) = .ok (some R) ∧
    quadcoilCall (gradientDescent realGrad (1 / 4)) realGrad (shippedRegistry FieldProblem.fns [])
      (((torusCall b).standard w).reporting (.many ["K", "f_obj"]) false) = .ok (some R') ∧ R'.dofs = R.dofs ∧ R'.results = R.results := by
  obtain ⟨b, hb⟩ := torusCall_field
  obtain ⟨μ, hμ, h⟩ := C142_standard_call_partial (a := torusCall b) [] (torusCall_grids b) (by simp [torusCall])
    (by simp [torusCall, SurfaceShape.size]) (by simp [torusCall, CallArgs.described, SurfaceShape.size])
    (fun q _ => torus_normal 2 (1 / 2) q.1 q.2 (by norm_num) (by norm_num)) hb (.inl (by simp [torusCall]))
    (.inr ⟨rfl, by simp [torusCall], fun _ => by norm_num [torusCall, minorRadius]⟩) (torusCall_metrics b)
  refine ⟨b, fun w hw => ?_⟩
  obtain ⟨c, hc, hall⟩ := h hw
  obtain ⟨R, i, k, S, h1, -⟩ := hall (gradientDescent_count _ _) (gradientDescent_value _ _) (fun _ _ _ _ _ => rfl)
    (gradientDescent_shape realGrad (fun f p => by simp [realGrad]) (1 / 4))
  obtain ⟨R', h', -, hd, hr⟩ := C172_returns (n := .many ["K", "f_obj"]) (v := false) h1 (fun m hm => by
    have : m = "K" ∨ m = "f_obj" := by simpa [CallArgs.reporting, CallArgs.metrics] using hm
    rcases this with rfl | rfl
    · exact .inr ⟨_, rfl⟩
    · exact .inl rfl)
  exact ⟨R, R', h1, h', hd, hr⟩

/-- The hypothesis of the last theorem is met by shipped metrics. -/
example (b : ℝ) (opt : Optimizer ℝ) (others : List String) (e : PyErr) :
    quadcoilCall opt realGrad (shippedRegistry FieldProblem.fns others) ((torusCall b).reporting (.many ["f_B", "f_obj"]) false) = .error e ↔
    quadcoilCall opt realGrad (shippedRegistry FieldProblem.fns others) ((torusCall b).reporting (.one "K") true) = .error e := by
  refine C172_same_error fun m hm => ?_
  have : m = "f_B" ∨ m = "f_obj" ∨ m = "K" := by simpa [CallArgs.reporting, CallArgs.metrics] using hm
  rcases this with rfl | rfl | rfl
  · exact .inr ⟨_, rfl⟩
  · exact .inl rfl
  · exact .inr ⟨_, rfl⟩

end Verif
