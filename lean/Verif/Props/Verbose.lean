import Verif.Model.Verbose
import Verif.Props.Api
import Verif.Props.Io

/-!
# Printing does not change what is returned (C169)
-/

namespace Verif

variable {verbose : ℕ} {unconstrained : Bool} {H : HessianInfo} {evalMetric : String → Except PyErr MetricResult}

/-- The loop succeeds exactly if every metric can be evaluated. -/
theorem verboseLoop_ok (names : List String) (acc : List (String × OutEntry)) :
    (∃ out, names.foldlM (verboseStep verbose unconstrained H evalMetric) acc = .ok out) ↔ ∀ n ∈ names, ∃ r, evalMetric n = .ok r := by
  induction names generalizing acc with
  | nil => simp [pure, Except.pure]
  | cons m names ih =>
    simp only [List.foldlM_cons, verboseStep, List.forall_mem_cons]
    cases hm : evalMetric m with
    | error e => simp [bind, Except.bind]
    | ok r =>
      simp only [Except.ok.injEq, exists_eq', true_and]
      exact ih _

theorem verboseLoop_error (names : List String) (acc acc' : List (String × OutEntry)) (v v' : ℕ) (u : Bool) (e : PyErr)
    (h : names.foldlM (verboseStep v u H evalMetric) acc = .error e) :
    names.foldlM (verboseStep v' u H evalMetric) acc' = .error e := by
  induction names generalizing acc acc' with
  | nil => simp [pure, Except.pure] at h
  | cons m names ih =>
    simp only [List.foldlM_cons, verboseStep] at h ⊢
    cases hm : evalMetric m with
    | error e' => rw [hm] at h; simpa [bind, Except.bind] using h
    | ok r => rw [hm] at h; exact ih _ _ h

theorem verboseLoop_lookup (names : List String) (acc out : List (String × OutEntry))
    (h : names.foldlM (verboseStep verbose unconstrained H evalMetric) acc = .ok out) (n : String) :
    (n ∈ names → ∃ r, evalMetric n = .ok r ∧
      out.lookup n = some (.metric r.value r.grad (verboseEntries verbose unconstrained H n r))) ∧
    (n ∉ names → out.lookup n = acc.lookup n) := by
  induction names generalizing acc with
  | nil =>
    simp only [List.foldlM_nil, pure, Except.pure, Except.ok.injEq] at h
    subst h
    simp
  | cons m names ih =>
    simp only [List.foldlM_cons, verboseStep] at h
    cases hm : evalMetric m with
    | error e => rw [hm] at h; simp [bind, Except.bind] at h
    | ok r =>
      rw [hm] at h
      obtain ⟨ih1, ih2⟩ := ih _ h
      constructor
      · intro hn
        by_cases hn' : n ∈ names
        · exact ih1 hn'
        · have : n = m := by simpa [hn'] using hn
          subst this
          exact ⟨r, hm, by rw [ih2 hn', mem_dictSet_lookup, if_pos rfl]⟩
      · intro hn
        simp only [List.mem_cons, not_or] at hn
        rw [ih2 hn.2, mem_dictSet_lookup, if_neg hn.1]

/-- The value and the gradients in an entry; nothing for an array. -/
def OutEntry.reported : OutEntry → Option (ℝ × List (String × List ℝ))
  | .array _ => none
  | .metric v g _ => some (v, g)

/-- **C169.** At every level of printing the same calls fail, with the same error, and the value and the gradients of every requested
metric are the same. -/
theorem C169_same_values_partial (v v' : ℕ) (u : Bool) (H : HessianInfo) (evalMetric : String → Except PyErr MetricResult)
    (names : List String) :
    (∀ e, verboseOut v u H evalMetric names = .error e → verboseOut v' u H evalMetric names = .error e) ∧
    ∀ out, verboseOut v u H evalMetric names = .ok out → ∃ out', verboseOut v' u H evalMetric names = .ok out' ∧
      ∀ n ∈ names, (out.lookup n).bind OutEntry.reported = (out'.lookup n).bind OutEntry.reported ∧
        ∃ r, evalMetric n = .ok r ∧ (out.lookup n).bind OutEntry.reported = some (r.value, r.grad) := by
  refine ⟨fun e h => verboseLoop_error names _ _ v v' u e h, fun out h => ?_⟩
  obtain ⟨out', h'⟩ := (verboseLoop_ok (verbose := v') (unconstrained := u) (H := H) names (verboseStart v' u H)).2
    ((verboseLoop_ok names _).1 ⟨out, h⟩)
  refine ⟨out', h', fun n hn => ?_⟩
  obtain ⟨r, hr, h1⟩ := (verboseLoop_lookup names _ out h n).1 hn
  obtain ⟨r', hr', h2⟩ := (verboseLoop_lookup names _ out' h' n).1 hn
  rw [hr] at hr'
  cases hr'
  exact ⟨by rw [h1, h2]; rfl, r, hr, by rw [h1]; rfl⟩

/-- Two metrics that can be evaluated, one of which is `f_B`, meet the hypothesis. -/
example : verboseOut 0 true ⟨0, 0, 0, 0, fun _ => 0, fun _ => 0⟩ (fun _ => .ok ⟨3, [("df_dplasma_dofs", [1, 2])], [5]⟩) ["f_B", "f_K"] =
    .ok [("f_B", .metric 3 [("df_dplasma_dofs", [1, 2])] []), ("f_K", .metric 3 [("df_dplasma_dofs", [1, 2])] [])] := rfl

/-- **C169.** Other entries than the requested metrics appear only with `verbose > 0` in calls without constraints, and then the only one
is `hess_cond`. -/
theorem C169_other_entries_partial (names : List String) (out : List (String × OutEntry))
    (h : verboseOut verbose unconstrained H evalMetric names = .ok out) (n : String) (hn : n ∉ names) :
    out.lookup n = if 0 < verbose ∧ unconstrained = true ∧ n = "hess_cond" then some (.array [H.cond]) else none := by
  rw [(verboseLoop_lookup names _ out h n).2 hn, verboseStart]
  by_cases hv : verbose > 0 ∧ unconstrained = true
  · rw [if_pos hv, mem_dictSet_lookup]
    by_cases hc : n = "hess_cond"
    · rw [if_pos hc, if_pos ⟨hv.1, hv.2, hc⟩]
    · rw [if_neg hc, if_neg fun h => hc h.2.2]; rfl
  · rw [if_neg hv, if_neg fun h => hv ⟨h.1, h.2.1⟩]; rfl

theorem mapM_ok_iff {α β : Type} (f : α → Except PyErr β) (l : List α) :
    (∃ r, l.mapM f = .ok r) ↔ ∀ x ∈ l, ∃ y, f x = .ok y := by
  induction l with
  | nil => simp [pure, Except.pure]
  | cons a l ih =>
    rw [List.mapM_cons, List.forall_mem_cons]
    cases ha : f a with
    | error e => simp [bind, Except.bind]
    | ok y =>
      simp only [bind, Except.bind, Except.ok.injEq, exists_eq', true_and]
      rw [← ih]
      cases hl : l.mapM f with
      | error e => simp
      | ok r => simp [pure, Except.pure]

theorem verboseLoop_head (names : List String) (x : String × OutEntry) (hx : x.1 ∉ names) (acc out : List (String × OutEntry))
    (h : names.foldlM (verboseStep verbose unconstrained H evalMetric) (x :: acc) = .ok out) : ∃ rest, out = x :: rest := by
  induction names generalizing acc with
  | nil =>
    simp only [List.foldlM_nil, pure, Except.pure, Except.ok.injEq] at h
    exact ⟨acc, h.symm⟩
  | cons m names ih =>
    simp only [List.mem_cons, not_or] at hx
    simp only [List.foldlM_cons, verboseStep] at h
    cases hm : evalMetric m with
    | error e => rw [hm] at h; simp [bind, Except.bind] at h
    | ok r =>
      rw [hm] at h
      have hd : ∀ e : OutEntry, dictSet (x :: acc) m e = x :: dictSet acc m e := by
        intro e
        simp [dictSet, hx.1]
      simp only [bind, Except.bind, hd] at h
      exact ih hx.2 _ h

/-- **C169, violated.** Without constraints and with `verbose > 0` the differentiable function cannot be differentiated: the rule for the
derivative takes `hess_cond` for a metric and raises `TypeError`. -/
theorem C169_differentiation_fails_partial (hv : 0 < verbose) (hu : unconstrained = true) (names : List String)
    (hn : "hess_cond" ∉ names) (out : List (String × OutEntry)) (h : verboseOut verbose unconstrained H evalMetric names = .ok out)
    (T : Tangents) : jvpRule out T = .error .typeError := by
  rw [verboseOut, verboseStart, if_pos ⟨hv, hu⟩] at h
  obtain ⟨rest, rfl⟩ := verboseLoop_head names ("hess_cond", .array [H.cond]) hn [] out h
  rw [jvpRule, List.mapM_cons]
  rfl

/-- **C169.** Silent calls and calls with constraints can be differentiated whenever the tangents fit, at every level of printing. -/
theorem C169_differentiation_works_partial (hv : verbose = 0 ∨ unconstrained = false) (names : List String)
    (out : List (String × OutEntry)) (h : verboseOut verbose unconstrained H evalMetric names = .ok out) (T : Tangents)
    (ht : ∀ n ∈ names, ∀ r, evalMetric n = .ok r → ∃ j, jvpMetric r.grad T = .ok j) : ∃ r, jvpRule out T = .ok r := by
  have hout : ∀ kv ∈ out, ∃ n ∈ names, ∃ r, evalMetric n = .ok r ∧ kv.2.fields = .ok (r.value, r.grad) := by
    have hstart : verboseStart verbose unconstrained H = [] := by
      rw [verboseStart, if_neg]
      rintro ⟨h1, h2⟩
      rcases hv with hv | hv
      · omega
      · rw [hv] at h2; cases h2
    rw [verboseOut, hstart] at h
    have key : ∀ (names' : List String) (acc out : List (String × OutEntry)), (∀ n ∈ names', n ∈ names) →
        (∀ kv ∈ acc, ∃ n ∈ names, ∃ r, evalMetric n = .ok r ∧ kv.2.fields = .ok (r.value, r.grad)) →
        names'.foldlM (verboseStep verbose unconstrained H evalMetric) acc = .ok out →
        ∀ kv ∈ out, ∃ n ∈ names, ∃ r, evalMetric n = .ok r ∧ kv.2.fields = .ok (r.value, r.grad) := by
      intro names'
      induction names' with
      | nil =>
        intro acc out _ hacc h
        simp only [List.foldlM_nil, pure, Except.pure, Except.ok.injEq] at h
        subst h
        exact hacc
      | cons m names' ih =>
        intro acc out hsub hacc h
        simp only [List.foldlM_cons, verboseStep] at h
        cases hm : evalMetric m with
        | error e => rw [hm] at h; simp [bind, Except.bind] at h
        | ok r =>
          rw [hm] at h
          refine ih _ out (fun n hn => hsub n (List.mem_cons_of_mem _ hn)) ?_ h
          intro kv hkv
          rcases List.mem_append.1 hkv with hkv | hkv
          · exact hacc kv (List.mem_filter.1 hkv).1
          · rw [List.mem_singleton] at hkv
            subst hkv
            exact ⟨m, hsub m List.mem_cons_self, r, hm, rfl⟩
    exact key names [] out (fun _ h => h) (by simp) h
  refine (mapM_ok_iff _ out).2 fun kv hkv => ?_
  obtain ⟨n, hn, r, hr, hf⟩ := hout kv hkv
  obtain ⟨j, hj⟩ := ht n hn r hr
  exact ⟨(kv.1, r.value, j), by simp only [hf, bind, Except.bind, hj]⟩

/-- The same call, differentiated: it works silently and fails with `verbose = 1`. -/
example : let f : String → Except PyErr MetricResult := fun _ => .ok ⟨3, [("df_dplasma_dofs", [1, 2])], [5]⟩
    let H : HessianInfo := ⟨0, 0, 7, 0, fun _ => 0, fun _ => 0⟩
    let T : Tangents := ⟨some [1, 1], none, none, none, none, none, none, none⟩
    (∃ out r, verboseOut 0 true H f ["f_B"] = .ok out ∧ jvpRule out T = .ok r) ∧
    ∃ out, verboseOut 1 true H f ["f_B"] = .ok out ∧ jvpRule out T = .error .typeError := by
  intro f H T
  constructor
  · obtain ⟨r, hr⟩ := C169_differentiation_works_partial (H := H) (evalMetric := f) (Or.inl rfl) ["f_B"] _ rfl T (unconstrained := true)
      (fun n _ r hr => by
        cases hr
        exact ⟨_, rfl⟩)
    exact ⟨_, r, rfl, hr⟩
  · exact ⟨_, rfl, C169_differentiation_fails_partial (H := H) (evalMetric := f) (verbose := 1) (by norm_num) rfl ["f_B"] (by simp)
      _ rfl T⟩

/-- **C169 (names).** The entries that `verbose` adds to the dictionary of a metric have different names, none of them `value` or `grad`,
so they replace nothing. -/
theorem C169_extra_names_partial (v : ℕ) (u : Bool) (H : HessianInfo) (name : String) (r : MetricResult) :
    ((verboseEntries v u H name r).map Prod.fst).Nodup ∧ "value" ∉ (verboseEntries v u H name r).map Prod.fst ∧
      "grad" ∉ (verboseEntries v u H name r).map Prod.fst ∧
      (0 < v → (verboseEntries v u H name r).lookup "vihp" = some r.vihp) := by
  unfold verboseEntries
  by_cases hv : v > 0
  · cases u <;> simp [hv, List.lookup]
  · simp [hv]

/-- With constraints seven entries are added. -/
example (H : HessianInfo) (r : MetricResult) : (verboseEntries 1 false H "f_B" r).length = 7 := by simp [verboseEntries]

end Verif
