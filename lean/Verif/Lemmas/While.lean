import Verif.Model.While
import Mathlib.Tactic.Cases
import Mathlib.Tactic.Linarith

/-! Helper lemmas about `whileLoop`. -/

namespace Verif

variable {σ : Type} {cond : σ → Bool} {body : σ → Option σ}

theorem iterM_succ' (n : ℕ) (s : σ) : iterM body (n + 1) s = (iterM body n s).bind body := by
  induction n generalizing s with
  | zero => simp [iterM]
  | succ n ih =>
    rw [iterM]
    cases h : body s with
    | none => simp [iterM, h]
    | some t => simp only [Option.bind_some]; rw [ih]; simp [iterM, h]

theorem whileLoop_spec {s r : σ} (h : whileLoop cond body s = some r) :
    cond r = false ∧ ∃ n, iterM body n s = some r ∧ ∀ m < n, ∃ t, iterM body m s = some t ∧ cond t = true := by
  classical
  unfold whileLoop at h
  split at h
  · rename_i hex
    obtain ⟨t, ht, hc⟩ := Nat.find_spec hex
    have hrt : r = t := by
      have := h.symm.trans ht
      exact Option.some.inj this
    subst hrt
    refine ⟨hc, Nat.find hex, ht, ?_⟩
    intro m hm
    have hnm := Nat.find_min hex hm
    -- the m-th state exists because the n-th does
    have hex' : ∀ k n, ∀ s r : σ, iterM body (k + n) s = some r → ∃ t, iterM body k s = some t := by
      intro k
      induction k with
      | zero => intro n s r _; exact ⟨s, rfl⟩
      | succ k ih =>
        intro n s r hr
        have : k + 1 + n = (k + n) + 1 := by omega
        rw [this, iterM] at hr
        cases hb : body s with
        | none => simp [hb] at hr
        | some u =>
          simp only [hb, Option.bind_some] at hr
          obtain ⟨t, ht⟩ := ih n u r hr
          exact ⟨t, by simp [iterM, hb, ht]⟩
    obtain ⟨t, ht'⟩ := hex' m (Nat.find hex - m) s r (by rw [Nat.add_sub_cancel' hm.le]; exact ht)
    refine ⟨t, ht', ?_⟩
    by_contra hne
    exact hnm ⟨t, ht', by simpa using hne⟩
  · exact absurd h (by simp)

theorem whileLoop_eq_of {s r : σ} {n : ℕ} (hr : iterM body n s = some r) (hc : cond r = false)
    (hm : ∀ m < n, ∃ t, iterM body m s = some t ∧ cond t = true) : whileLoop cond body s = some r := by
  classical
  have hex : ∃ n, HaltsAt cond body s n := ⟨n, r, hr, hc⟩
  have hfind : Nat.find hex = n := by
    rw [Nat.find_eq_iff]
    refine ⟨⟨r, hr, hc⟩, ?_⟩
    rintro m hmn ⟨t, ht, hct⟩
    obtain ⟨u, hu, hcu⟩ := hm m hmn
    rw [hu] at ht
    cases ht
    simp [hcu] at hct
  unfold whileLoop
  rw [dif_pos hex, hfind, hr]

/-- The usual unfolding equation of a while loop. -/
theorem whileLoop_unfold (s : σ) :
    whileLoop cond body s = if cond s then (body s).bind (whileLoop cond body) else some s := by
  classical
  split
  · rename_i hc
    cases hb : body s with
    | none =>
      simp only [Option.bind_none]
      unfold whileLoop
      rw [dif_neg]
      rintro ⟨n, t, ht, hct⟩
      cases n with
      | zero => simp [iterM] at ht; subst ht; simp [hc] at hct
      | succ n => simp [iterM, hb] at ht
    | some u =>
      simp only [Option.bind_some]
      cases hw : whileLoop cond body u with
      | none =>
        unfold whileLoop
        rw [dif_neg]
        rintro ⟨n, t, ht, hct⟩
        cases n with
        | zero => simp [iterM] at ht; subst ht; simp [hc] at hct
        | succ n =>
          simp only [iterM, hb, Option.bind_some] at ht
          have hex : ∃ n, HaltsAt cond body u n := ⟨n, t, ht, hct⟩
          unfold whileLoop at hw
          rw [dif_pos hex] at hw
          obtain ⟨v, hv, _⟩ := Nat.find_spec hex
          rw [hv] at hw
          exact absurd hw (by simp)
      | some r =>
        obtain ⟨hcr, n, hn, hm⟩ := whileLoop_spec hw
        refine whileLoop_eq_of (n := n + 1) (by simp [iterM, hb, hn]) hcr ?_
        intro m hmn
        cases m with
        | zero => exact ⟨s, rfl, hc⟩
        | succ m =>
          obtain ⟨t, ht, hct⟩ := hm m (by omega)
          exact ⟨t, by simp [iterM, hb, ht], hct⟩
  · rename_i hc
    exact whileLoop_eq_of (n := 0) rfl (by simpa using hc) (by intro m hm; omega)

/-- Loop invariant rule. -/
theorem whileLoop_invariant (P : σ → Prop) {s r : σ} (h : whileLoop cond body s = some r) (h0 : P s)
    (hstep : ∀ s t, P s → cond s = true → body s = some t → P t) : P r := by
  obtain ⟨_, n, hn, hm⟩ := whileLoop_spec h
  have : ∀ k ≤ n, ∀ t, iterM body k s = some t → P t := by
    intro k
    induction k with
    | zero => intro _ t ht; simp [iterM] at ht; subst ht; exact h0
    | succ k ih =>
      intro hk t ht
      rw [iterM_succ'] at ht
      obtain ⟨u, hu, hcu⟩ := hm k (by omega)
      rw [hu, Option.bind_some] at ht
      exact hstep u t (ih (by omega) u hu) hcu ht
  exact this n le_rfl r hn

/-- Termination rule: an invariant and a decreasing measure. -/
theorem whileLoop_terminates (P : σ → Prop) (μ : σ → ℕ) {s : σ} (h0 : P s)
    (hstep : ∀ s, P s → cond s = true → ∃ t, body s = some t ∧ P t ∧ μ t < μ s) :
    ∃ r, whileLoop cond body s = some r := by
  induction hk : μ s using Nat.strong_induction_on generalizing s with
  | _ k ih =>
    rw [whileLoop_unfold]
    by_cases hc : cond s = true
    · obtain ⟨t, ht, hPt, hμ⟩ := hstep s h0 hc
      rw [if_pos hc, ht, Option.bind_some]
      exact ih (μ t) (by omega) hPt rfl
    · rw [if_neg hc]; exact ⟨s, rfl⟩

end Verif
