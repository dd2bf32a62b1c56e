import Verif.Props.Certificate
import Verif.Spec.UserProblem

/-!
# C106: the slack form of a whole problem is exact
-/

namespace Verif

set_option linter.unusedSectionVars false

/-! ## Blocks with their own unknowns -/

/-- Conditions and a summand that involve the potential and the auxiliary variables `keys`, and what they mean for the potential. -/
structure Block where
  keys : List String
  feas : Dofs → Prop
  val : Dofs → ℝ
  ok : Prop
  uval : ℝ

/-- At the potential `phi` the block is an exact reformulation. -/
structure Block.Exact (b : Block) (phi : Val) : Prop where
  phi_not : "phi" ∉ b.keys
  feas_local : ∀ d d', d "phi" = d' "phi" → (∀ k ∈ b.keys, d k = d' k) → b.feas d → b.feas d'
  val_local : ∀ d d', d "phi" = d' "phi" → (∀ k ∈ b.keys, d k = d' k) → b.val d = b.val d'
  sound : ∀ d, d "phi" = phi → b.feas d → b.ok ∧ b.uval ≤ b.val d
  complete : b.ok → ∃ d, d "phi" = phi ∧ b.feas d ∧ b.val d = b.uval

theorem blocks_sound {bs : List Block} {phi : Val} (h : ∀ b ∈ bs, b.Exact phi) {d : Dofs} (hd : d "phi" = phi)
    (hf : ∀ b ∈ bs, b.feas d) : (∀ b ∈ bs, b.ok) ∧ (bs.map fun b => b.uval).sum ≤ (bs.map fun b => b.val d).sum := by
  refine ⟨fun b hb => ((h b hb).sound d hd (hf b hb)).1, ?_⟩
  exact List.sum_le_sum fun b hb => ((h b hb).sound d hd (hf b hb)).2

theorem blocks_complete {bs : List Block} {phi : Val} (h : ∀ b ∈ bs, b.Exact phi)
    (hdis : bs.Pairwise fun a b => ∀ k ∈ a.keys, k ∉ b.keys) (hok : ∀ b ∈ bs, b.ok) :
    ∃ d, d "phi" = phi ∧ (∀ b ∈ bs, b.feas d) ∧ (bs.map fun b => b.val d).sum = (bs.map fun b => b.uval).sum := by
  induction bs with
  | nil => exact ⟨fun _ => phi, rfl, by simp, by simp⟩
  | cons b bs ih =>
    rw [List.pairwise_cons] at hdis
    obtain ⟨d2, hd2, hf2, hv2⟩ := ih (fun b hb => h b (List.mem_cons_of_mem _ hb)) hdis.2
      (fun b hb => hok b (List.mem_cons_of_mem _ hb))
    have hb := h b List.mem_cons_self
    obtain ⟨d1, hd1, hf1, hv1⟩ := hb.complete (hok b List.mem_cons_self)
    let d : Dofs := fun k => if k ∈ b.keys then d1 k else d2 k
    have hphi : d "phi" = phi := by simp [d, hb.phi_not, hd2]
    have e1 : ∀ k ∈ b.keys, d1 k = d k := fun k hk => by simp [d, hk]
    have e2 : ∀ c ∈ bs, ∀ k ∈ c.keys, d2 k = d k := fun c hc k hk => by
      have : k ∉ b.keys := fun hk' => hdis.1 c hc k hk' hk
      simp [d, this]
    refine ⟨d, hphi, ?_, ?_⟩
    · intro c hc
      rcases List.mem_cons.1 hc with rfl | hc
      · exact hb.feas_local d1 d (hd1.trans hphi.symm) e1 hf1
      · exact (h c (List.mem_cons_of_mem _ hc)).feas_local d2 d (hd2.trans hphi.symm) (e2 c hc) (hf2 c hc)
    · rw [List.map_cons, List.map_cons, List.sum_cons, List.sum_cons, ← hv2, ← hv1]
      congr 1
      · exact (hb.val_local d1 d (hd1.trans hphi.symm) e1).symm
      · congr 1
        apply List.map_congr_left
        intro c hc
        exact ((h c (List.mem_cons_of_mem _ hc)).val_local d2 d (hd2.trans hphi.symm) (e2 c hc)).symm

/-! ## Exact quantities -/

variable {P : Type} [HasQp P]

/-- The potential is an array with one entry for each coefficient. -/
def Pot (qp : P) (d : Dofs) : Prop := ∃ phi, d "phi" = .array phi ∧ phi.length = HasQp.ndofs qp

/-- The auxiliary variables have the shapes of their initial values. -/
def Conf (slack : List (String × (P → Dofs → Val))) (qp : P) (d0 d : Dofs) : Prop :=
  ∀ kv ∈ slack, SameShape (d kv.1) (kv.2 qp d0)

/-- A quantity whose reformulation in this mode is exact. -/
structure ExactQuantity (q : Quantity P) (sm : Option String) (sp : SmoothingParams) (qp : P) : Prop where
  phiOnly : PhiOnly q.rawF
  phi_not : "phi" ∉ auxOf sm q
  locality : ∀ (u : ℝ) (d d' : Dofs), d "phi" = d' "phi" → (∀ k ∈ auxOf sm q, d k = d' k) →
    (addedOf q sm sp fun _ => Val.scalar |u|).val qp d = (addedOf q sm sp fun _ => Val.scalar |u|).val qp d' ∧
    (∀ g ∈ (addedOf q sm sp fun _ => Val.scalar |u|).g, g qp d = g qp d') ∧
    (∀ k ∈ (addedOf q sm sp fun _ => Val.scalar |u|).h, k qp d = k qp d')
  sound : ∀ (u : ℝ) (d0 d : Dofs), u ≠ 0 → Pot qp d0 → Pot qp d → Conf (addedOf q sm sp fun _ => Val.scalar |u|).slack qp d0 d →
    (∀ g ∈ (addedOf q sm sp fun _ => Val.scalar |u|).g, AllNonpos (g qp d).entries) →
    (∀ k ∈ (addedOf q sm sp fun _ => Val.scalar |u|).h, AllZero (k qp d).entries) →
    List.Forall₂ (fun x y => x / |u| ≤ y) (q.rawF qp d).entries
      ((addedOf q sm sp fun _ => Val.scalar |u|).val qp d).entries
  complete : ∀ (u : ℝ) (d0 d : Dofs), u ≠ 0 → Pot qp d0 → Pot qp d → ∃ d', d' "phi" = d "phi" ∧
    Conf (addedOf q sm sp fun _ => Val.scalar |u|).slack qp d0 d' ∧
    (∀ g ∈ (addedOf q sm sp fun _ => Val.scalar |u|).g, AllNonpos (g qp d').entries) ∧
    (∀ k ∈ (addedOf q sm sp fun _ => Val.scalar |u|).h, AllZero (k qp d').entries) ∧
    ((addedOf q sm sp fun _ => Val.scalar |u|).val qp d').entries = (q.rawF qp d).entries.map fun x => x / |u|
  onesided : (∀ c ∈ q.compatibility, c = "f" ∨ c = "<=") ∨
    ∀ (u : ℝ) (d : Dofs), ((addedOf q sm sp fun _ => Val.scalar |u|).val qp d).entries = (q.rawF qp d).entries.map fun x => x / |u|

theorem map2_div_entries (v : Val) (w : ℝ) : (Val.map2 (· / ·) v (Val.scalar w)).entries = v.entries.map fun x => x / w := by
  cases v <;> rfl

/-- A quantity that is only divided by its unit. -/
theorem exactQuantity_direct (q : Quantity P) (sm : Option String) (sp : SmoothingParams) (qp : P) (hq : PhiOnly q.rawF)
    (hval : ∀ u : ℝ, (addedOf q sm sp fun _ => Val.scalar |u|).val = fun qp d => Val.map2 (· / ·) (q.rawF qp d) (Val.scalar |u|))
    (hg : ∀ u : ℝ, (addedOf q sm sp fun _ => Val.scalar |u|).g = []) (hh : ∀ u : ℝ, (addedOf q sm sp fun _ => Val.scalar |u|).h = [])
    (hsl : ∀ u : ℝ, (addedOf q sm sp fun _ => Val.scalar |u|).slack = []) : ExactQuantity q sm sp qp where
  phiOnly := hq
  phi_not := by
    rw [← addedOf_slack_keys q sm sp fun _ => Val.scalar |(0 : ℝ)|, hsl]
    simp
  locality u d d' h _ := by
    rw [hval, hg, hh]
    simp [hq qp d d' h]
  sound u d0 d hu _ _ _ _ _ := by
    rw [hval]
    simp only [map2_div_entries]
    rw [List.forall₂_map_right_iff, List.forall₂_same]
    exact fun _ _ => le_rfl
  complete u d0 d hu _ _ := ⟨d, rfl, by simp [Conf, hsl], by simp [hg], by simp [hh], by rw [hval]; exact map2_div_entries _ _⟩
  onesided := Or.inr fun u d => by rw [hval]; exact map2_div_entries _ _

/-- Without smoothing every quantity is exact. -/
theorem exactQuantity_none (q : Quantity P) (sp : SmoothingParams) (qp : P) (hq : PhiOnly q.rawF) : ExactQuantity q none sp qp :=
  exactQuantity_direct q none sp qp hq (fun _ => rfl) (fun _ => rfl) (fun _ => rfl) (fun _ => rfl)

/-- Quantities without auxiliary variables. -/
theorem exactQuantity_c2 (func : P → Dofs → Val) (comp : List String) (sp : SmoothingParams) (qp : P) (hf : PhiOnly func) :
    ExactQuantity (Quantity.generateC2 func comp) (some "slack") sp qp :=
  exactQuantity_direct _ _ sp qp hf (fun _ => rfl) (fun _ => rfl) (fun _ => rfl) (fun _ => rfl)

/-- A single auxiliary number `p` with one inequality function. -/
theorem exactQuantity_number {q : Quantity P} {sp : SmoothingParams} {qp : P} {aux : String} {func : P → Dofs → Val}
    (hf : PhiOnly func) (haux : aux ≠ "phi") (raw : Val → ℝ) (hraw : ∀ qp d, q.rawF qp d = .scalar (raw (func qp d)))
    (f : Val → Val) (hslackF : q.slackF = fun _ d _ => f (d aux)) (g : Val → Val → Val → Val)
    (hslackG : q.slackG = some fun qp d unit => g (func qp d) unit (d aux)) (hslackH : q.slackH = none)
    (init : P → Dofs → Val → Val) (hinit : q.slackInit = some [(aux, init)])
    (hscal : ∀ qp d w, (init qp d (.scalar w)).isScalar = true) (hcomp : ∀ c ∈ q.compatibility, c = "f" ∨ c = "<=")
    (hsound : ∀ (d : Dofs) (w p : ℝ), Pot qp d → 0 < w → AllNonpos (g (func qp d) (.scalar w) (.scalar p)).entries →
      ∃ v, f (.scalar p) = .scalar v ∧ raw (func qp d) / w ≤ v)
    (hcomplete : ∀ (d : Dofs) (w : ℝ), Pot qp d → 0 < w → ∃ p, AllNonpos (g (func qp d) (.scalar w) (.scalar p)).entries ∧
      f (.scalar p) = .scalar (raw (func qp d) / w)) :
    ExactQuantity q (some "slack") sp qp := by
  have hA : ∀ u : ℝ, addedOf q (some "slack") sp (fun _ => Val.scalar |u|) =
      ⟨fun _ d => f (d aux), [fun qp d => g (func qp d) (.scalar |u|) (d aux)], [], fun _ => Val.scalar |u|,
        [(aux, fun qp d => init qp d (.scalar |u|))]⟩ := by
    intro u
    simp [addedOf, hslackF, hslackG, hslackH, hinit]
  have hkeys : auxOf (some "slack") q = [aux] := by simp [auxOf, hinit]
  have hsc : ∀ {qp : P} {u : ℝ} {d0 d : Dofs}, Conf [(aux, fun qp d => init qp d (.scalar |u|))] qp d0 d ↔ ∃ p, d aux = .scalar p := by
    intro qp u d0 d
    have := hscal qp d0 |u|
    simp only [Conf, List.mem_singleton, forall_eq]
    cases hi : init qp d0 (.scalar |u|) with
    | array _ => simp [hi, Val.isScalar] at this
    | scalar y => cases d aux <;> simp [SameShape]
  refine ⟨?_, by rw [hkeys]; simpa using haux.symm, ?_, ?_, ?_, Or.inl hcomp⟩
  · intro qp d d' h
    rw [hraw, hraw, hf qp d d' h]
  · intro u d d' h1 h2
    rw [hkeys] at h2
    rw [hA]
    simp [hf qp d d' h1, h2 aux (by simp)]
  · intro u d0 d hu _ hd hc hg _
    rw [hA] at hc hg ⊢
    obtain ⟨p, hp⟩ := hsc.1 hc
    simp only [List.mem_singleton, forall_eq, hp] at hg
    obtain ⟨v, hv, hle⟩ := hsound d |u| p hd (abs_pos.2 hu) hg
    simp only [hraw, hp, hv, Val.entries]
    exact List.Forall₂.cons hle List.Forall₂.nil
  · intro u d0 d hu _ hd
    obtain ⟨p, hp, hv⟩ := hcomplete d |u| hd (abs_pos.2 hu)
    have hfd : func qp (setAux d aux (.scalar p)) = func qp d := hf.setAux haux qp d _
    refine ⟨setAux d aux (.scalar p), by simp [setAux, haux.symm], ?_, ?_, ?_, ?_⟩
    · rw [hA]
      exact hsc.2 ⟨p, setAux_self _ _ _⟩
    · rw [hA]
      simpa [setAux_self, hfd] using hp
    · rw [hA]
      simp
    · rw [hA]
      simp [setAux_self, hv, hraw, Val.entries]

theorem maxAbs_spec {v : Val} (hne : v.entries ≠ []) (t : ℝ) : Quantity.maxAbs v ≤ t ↔ ∀ x ∈ v.entries, |x| ≤ t := by
  unfold Quantity.maxAbs
  rw [jmax_le_iff (by simpa using hne)]
  simp

theorem maxAbs_nonneg {v : Val} (hne : v.entries ≠ []) : 0 ≤ Quantity.maxAbs v := by
  obtain ⟨x, hx⟩ := List.exists_mem_of_ne_nil _ hne
  exact (abs_nonneg x).trans ((maxAbs_spec hne _).1 le_rfl x hx)

/-- Maxima in slack form. -/
theorem exactQuantity_linf (func : P → Dofs → Val) (aux : String) (pd : Bool) (sp : SmoothingParams) (qp : P) (hf : PhiOnly func)
    (haux : aux ≠ "phi") (hne : ∀ d, Pot qp d → (func qp d).entries ≠ [])
    (hpd : pd = true → ∀ d, Pot qp d → ∀ x ∈ (func qp d).entries, 0 ≤ x) :
    ExactQuantity (Quantity.generateLinf func aux pd false) (some "slack") sp qp := by
  refine exactQuantity_number (func := func) (aux := aux) hf haux Quantity.maxAbs (fun _ _ => rfl) (fun v => v) rfl
    (fun v unit p => Quantity.slackIneq v unit p pd) rfl rfl _ rfl (fun _ _ _ => rfl) (by simp [Quantity.generateLinf]) ?_ ?_
  · intro d w p hd hw hg
    refine ⟨p, rfl, (div_le_iff₀ hw).2 ?_⟩
    exact (maxAbs_spec (hne d hd) _).2 ((slackIneq_nonpos _ w p hw pd (fun h => hpd h d hd) fun _ => hne d hd).1 hg)
  · intro d w hd hw
    refine ⟨_, (slackIneq_nonpos _ w _ hw pd (fun h => hpd h d hd) fun _ => hne d hd).2 ?_, rfl⟩
    rw [div_mul_cancel₀ _ hw.ne']
    exact (maxAbs_spec (hne d hd) _).1 le_rfl

/-- Squares of maxima in slack form. -/
theorem exactQuantity_linf_square (func : P → Dofs → Val) (aux : String) (pd : Bool) (sp : SmoothingParams) (qp : P)
    (hf : PhiOnly func) (haux : aux ≠ "phi") (hne : ∀ d, Pot qp d → (func qp d).entries ≠ [])
    (hpd : pd = true → ∀ d, Pot qp d → ∀ x ∈ (func qp d).entries, 0 ≤ x) :
    ExactQuantity (Quantity.generateLinf func aux pd true) (some "slack") sp qp := by
  refine exactQuantity_number (func := func) (aux := aux) hf haux (fun v => Quantity.maxAbs v ^ 2) (fun _ _ => rfl)
    (fun v => Val.map (· ^ 2) v) rfl
    (fun v unit p => Quantity.slackIneq v (Val.map Real.sqrt unit) p pd) rfl rfl _ rfl (fun _ _ _ => rfl)
    (by simp [Quantity.generateLinf]) ?_ ?_
  · intro d w p hd hw hg
    have hs := Real.sqrt_pos.2 hw
    refine ⟨p ^ 2, rfl, (div_le_iff₀ hw).2 ?_⟩
    have h1 := (maxAbs_spec (hne d hd) _).2 ((slackIneq_nonpos _ (Real.sqrt w) p hs pd (fun h => hpd h d hd) fun _ => hne d hd).1 hg)
    have h2 := pow_le_pow_left₀ (maxAbs_nonneg (hne d hd)) h1 2
    rwa [mul_pow, Real.sq_sqrt hw.le] at h2
  · intro d w hd hw
    have hs := Real.sqrt_pos.2 hw
    refine ⟨Quantity.maxAbs (func qp d) / Real.sqrt w,
      (slackIneq_nonpos _ (Real.sqrt w) _ hs pd (fun h => hpd h d hd) fun _ => hne d hd).2 ?_, ?_⟩
    · rw [div_mul_cancel₀ _ hs.ne']
      exact (maxAbs_spec (hne d hd) _).1 le_rfl
    · simp only [Val.map, div_pow, Real.sq_sqrt hw.le]

theorem map2_sub_nonpos {v : Val} {w p : ℝ} (hw : 0 < w) :
    AllNonpos (Val.map2 (· - ·) (Val.map2 (· / ·) (Val.map (· ^ 2) v) (.scalar w)) (.scalar p)).entries ↔
      ∀ x ∈ v.entries, x ^ 2 ≤ p * w := by
  cases v <;> simp [Val.map2, Val.map, Val.entries, AllNonpos, div_le_iff₀ hw]

/-- Fourth powers of maxima in slack form. -/
theorem exactQuantity_linf4 (func : P → Dofs → Val) (aux : String) (sp : SmoothingParams) (qp : P) (hf : PhiOnly func)
    (haux : aux ≠ "phi") (hne : ∀ d, Pot qp d → (func qp d).entries ≠ []) :
    ExactQuantity (Quantity.generateLinf4 func aux) (some "slack") sp qp := by
  refine exactQuantity_number (func := func) (aux := aux) hf haux (fun v => jmax (v.entries.map fun x => x ^ 4)) (fun _ _ => rfl)
    (fun v => Val.map (· ^ 2) v) rfl
    (fun v unit p => Val.map2 (· - ·) (Val.map2 (· / ·) (Val.map (· ^ 2) v) (Val.map Real.sqrt unit)) p) rfl rfl _ rfl
    (fun _ _ _ => rfl) (by simp [Quantity.generateLinf4]) ?_ ?_
  · intro d w p hd hw hg
    have hs := Real.sqrt_pos.2 hw
    have h1 := (map2_sub_nonpos hs).1 hg
    refine ⟨p ^ 2, rfl, (div_le_iff₀ hw).2 ?_⟩
    rw [jmax_le_iff (by simpa using hne d hd)]
    simp only [List.mem_map, forall_exists_index, and_imp, forall_apply_eq_imp_iff₂]
    intro x hx
    have h2 := pow_le_pow_left₀ (sq_nonneg x) (h1 x hx) 2
    rw [mul_pow, Real.sq_sqrt hw.le] at h2
    calc x ^ 4 = (x ^ 2) ^ 2 := by ring
      _ ≤ _ := h2
  · intro d w hd hw
    have hs := Real.sqrt_pos.2 hw
    obtain ⟨y, hy⟩ := List.exists_mem_of_ne_nil _ (hne d hd)
    have hle : ∀ x ∈ (func qp d).entries, x ^ 4 ≤ jmax ((func qp d).entries.map fun x => x ^ 4) :=
      fun x hx => le_jmax (List.mem_map.2 ⟨x, hx, rfl⟩)
    have h0 : 0 ≤ jmax ((func qp d).entries.map fun x => x ^ 4) := le_trans (by positivity) (hle y hy)
    refine ⟨Real.sqrt (jmax ((func qp d).entries.map fun x => x ^ 4)) / Real.sqrt w, (map2_sub_nonpos hs).2 ?_, ?_⟩
    · intro x hx
      rw [div_mul_cancel₀ _ hs.ne']
      refine Real.le_sqrt_of_sq_le ?_
      calc (x ^ 2) ^ 2 = x ^ 4 := by ring
        _ ≤ _ := hle x hx
    · simp only [Val.map, div_pow, Real.sq_sqrt hw.le, Real.sq_sqrt h0]

theorem l1Integral_abs (qp : P) (xs : List ℝ) : Quantity.l1Integral qp (xs.map fun x => |x|) = l1Norm qp xs := by
  simp [Quantity.l1Integral, l1Norm, List.zipWith_map_right]

/-- L1 norms of scalar fields in slack form. -/
theorem exactQuantity_l1 (func : P → Dofs → Val) (aux : String) (pd : Bool) (sp : SmoothingParams) (qp : P) (hf : PhiOnly func)
    (haux : aux ≠ "phi") (hda : ∀ d ∈ HasQp.da qp, 0 ≤ d) (hnfp : 0 ≤ HasQp.nfp qp)
    (hlen : ∀ d d', Pot qp d → Pot qp d' → (func qp d).entries.length = (func qp d').entries.length)
    (hpd : pd = true → ∀ d, Pot qp d → ∀ x ∈ (func qp d).entries, 0 ≤ x) :
    ExactQuantity (Quantity.generateL1 func aux pd) (some "slack") sp qp := by
  let reg : Registry P := fun _ => some (.quantity (Quantity.generateL1 func aux pd))
  have hadd : ∀ u : ℝ, addQuantity reg "" (.scalar u) "f" (some "slack") sp =
      .ok (addedOf (Quantity.generateL1 func aux pd) (some "slack") sp fun _ => Val.scalar |u|) := fun u =>
    addQuantity_ok.2 ⟨_, _, rfl, by simp [knownSmoothing], by simp [Quantity.generateL1], rfl, rfl⟩
  have hexact := fun (u : ℝ) (hu : u ≠ 0) (d : Dofs) (hd : Pot qp d) => C22_slack_l1_exact reg "" "f" aux func pd rfl hf haux u hu sp _
    (hadd u) qp d hda hnfp (fun h => hpd h d hd)
  have hkeys : auxOf (some "slack") (Quantity.generateL1 func aux pd) = [aux] := by simp [auxOf, Quantity.generateL1]
  have hconf : ∀ {u : ℝ} {d0 d : Dofs}, Conf (addedOf (Quantity.generateL1 func aux pd) (some "slack") sp
      fun _ => Val.scalar |u|).slack qp d0 d ↔ ∃ ps, d aux = .array ps ∧ ps.length = (func qp d0).entries.length := by
    intro u d0 d
    simp only [addedOf, if_true, Quantity.generateL1, Option.getD_some, List.map_cons, List.map_nil, Conf, List.mem_singleton,
      forall_eq, Val.map, Val.map2]
    cases d aux <;> simp [SameShape]
  have hset : ∀ {d : Dofs} {v : Val}, d aux = v → setAux d aux v = d := by
    intro d v h
    funext k
    by_cases hk : k = aux
    · simp [setAux, hk, h]
    · simp [setAux, hk]
  have hscal : ∀ (u : ℝ) (d : Dofs), ∃ v, (addedOf (Quantity.generateL1 func aux pd) (some "slack") sp
      fun _ => Val.scalar |u|).val qp d = .scalar v := fun _ _ => ⟨_, rfl⟩
  have hsound : ∀ (u : ℝ) (d0 d : Dofs), u ≠ 0 → Pot qp d0 → Pot qp d →
      Conf (addedOf (Quantity.generateL1 func aux pd) (some "slack") sp fun _ => Val.scalar |u|).slack qp d0 d →
      (∀ g ∈ (addedOf (Quantity.generateL1 func aux pd) (some "slack") sp fun _ => Val.scalar |u|).g, AllNonpos (g qp d).entries) →
      ∀ v, (addedOf (Quantity.generateL1 func aux pd) (some "slack") sp fun _ => Val.scalar |u|).val qp d = .scalar v →
      l1Norm qp (func qp d).entries / |u| ≤ v := by
    intro u d0 d hu hd0 hd hc hg v hv
    obtain ⟨ps, hps, hl⟩ := hconf.1 hc
    refine (hexact u hu d hd v).1 ⟨ps, v, hl.trans (hlen d0 d hd0 hd), ?_⟩
    rw [hset hps]
    exact ⟨hg, by simp [addedOf, Quantity.generateL1], hv, le_rfl⟩
  refine ⟨?_, by rw [hkeys]; simpa using haux.symm, ?_, ?_, ?_, Or.inl (by simp [Quantity.generateL1])⟩
  · intro qp d d' h
    simp only [Quantity.generateL1, hf qp d d' h]
  · intro u d d' h1 h2
    rw [hkeys] at h2
    simp [addedOf, Quantity.generateL1, hf qp d d' h1, h2 aux (by simp)]
  · intro u d0 d hu hd0 hd hc hg _
    obtain ⟨v, hv⟩ := hscal u d
    have := hsound u d0 d hu hd0 hd hc hg v hv
    rw [hv]
    refine List.Forall₂.cons ?_ List.Forall₂.nil
    rwa [l1Integral_abs]
  · intro u d0 d hu hd0 hd
    obtain ⟨ps, v, hl, hg, -, hv, hle⟩ := (hexact u hu d hd _).2 le_rfl
    have hphi : setAux d aux (.array ps) "phi" = d "phi" := by simp [setAux, haux.symm]
    have hd' : Pot qp (setAux d aux (.array ps)) := by
      obtain ⟨phi, h1, h2⟩ := hd
      exact ⟨phi, hphi.trans h1, h2⟩
    have hc : Conf (addedOf (Quantity.generateL1 func aux pd) (some "slack") sp fun _ => Val.scalar |u|).slack qp d0
        (setAux d aux (.array ps)) := hconf.2 ⟨ps, setAux_self _ _ _, hl.trans (hlen d d0 hd hd0)⟩
    refine ⟨_, hphi, hc, hg, by simp [addedOf, Quantity.generateL1], ?_⟩
    have hge := hsound u d0 _ hu hd0 hd' hc hg v hv
    rw [hf.setAux haux] at hge
    rw [hv, le_antisymm hle hge]
    simp only [Val.entries, Quantity.generateL1, List.map_cons, List.map_nil]
    rw [l1Integral_abs]

/-! ## The parsed problem as a list of blocks -/

/-- The constraint function of a request is satisfied. -/
def ReqOk (sm : Option String) (sp : SmoothingParams) (r : Request) (A : Added P) (qp : P) (d : Dofs) : Prop :=
  (r.type = "==" ∧ AllZero (consFunc A r.value 1 sm sp qp d).entries) ∨
    (r.type = "<=" ∧ AllNonpos (consFunc A r.value 1 sm sp qp d).entries) ∨
    (r.type = ">=" ∧ AllNonpos (consFunc A r.value (-1) sm sp qp d).entries)

/-- The functions that come with a quantity are satisfied. -/
def OwnOk (A : Added P) (qp : P) (d : Dofs) : Prop :=
  (∀ g ∈ A.g, AllNonpos (g qp d).entries) ∧ ∀ k ∈ A.h, AllZero (k qp d).entries

/-- All functions of a parsed problem are satisfied. -/
def GHOk (g h : List (P → Dofs → Val)) (qp : P) (d : Dofs) : Prop :=
  (∀ f ∈ g, AllNonpos (f qp d).entries) ∧ ∀ k ∈ h, AllZero (k qp d).entries

theorem parse_blocks (reg : Registry P) (sm : Option String) (sp : SmoothingParams) (rs : List Request) (acc p : Parsed P)
    (h : rs.foldlM (parseStep reg sm sp) acc = .ok p) :
    ∃ As : List (Added P), List.Forall₂ (fun r A => addQuantity reg r.name r.unit r.type sm sp = .ok A) rs As ∧
      p.slack = As.foldl (fun s A => dictUnion s A.slack) acc.slack ∧
      ∀ qp d, GHOk p.g p.h qp d ↔ GHOk acc.g acc.h qp d ∧ ∀ rA ∈ rs.zip As, OwnOk rA.2 qp d ∧ ReqOk sm sp rA.1 rA.2 qp d := by
  induction rs generalizing acc with
  | nil =>
    rw [foldlM_except_nil] at h
    cases h
    exact ⟨[], List.Forall₂.nil, rfl, by simp⟩
  | cons r rs ih =>
    obtain ⟨b, hb, hrest⟩ := (foldlM_except_cons _ _ _ _ _).1 h
    obtain ⟨As, h1, h2, h3⟩ := ih b hrest
    obtain ⟨A, hA, hc⟩ := parseStep_ok.1 hb
    refine ⟨A :: As, List.Forall₂.cons hA h1, ?_, fun qp d => ?_⟩
    · rw [h2]
      rcases hc with ⟨-, rfl⟩ | ⟨-, rfl⟩ | ⟨-, rfl⟩ <;> rfl
    · rw [h3, List.zip_cons_cons, List.forall_mem_cons, ← and_assoc]
      refine and_congr_left fun _ => ?_
      rcases hc with ⟨ht, rfl⟩ | ⟨ht, rfl⟩ | ⟨ht, rfl⟩
      · simp only [GHOk, OwnOk, ReqOk, ht, List.mem_append, List.mem_singleton, or_imp, forall_and, forall_eq, true_and,
          String.reduceEq, false_and, or_false]
        tauto
      · simp only [GHOk, OwnOk, ReqOk, ht, List.mem_append, List.mem_singleton, or_imp, forall_and, forall_eq, true_and,
          String.reduceEq, false_and, or_false, false_or]
        tauto
      · simp only [GHOk, OwnOk, ReqOk, ht, List.mem_append, List.mem_singleton, or_imp, forall_and, forall_eq, true_and,
          String.reduceEq, false_and, or_false, false_or]
        tauto

theorem objLoop_blocks (reg : Registry P) (sm : Option String) (sp : SmoothingParams) (ns : List String) (us : List UnitArg)
    (acc r : ObjAcc P) (h : parseObjLoop reg sm sp ns us acc = .ok r) :
    ∃ As : List (Added P), As.length = ns.length ∧ ns.length ≤ us.length ∧
      List.Forall₂ (fun nu A => addQuantity reg nu.1 nu.2 "f" sm sp = .ok A) (ns.zip us) As ∧
      r.f = acc.f ++ As.map (fun A => A.val) ∧
      r.slack = As.foldl (fun s A => dictUnion s A.slack) acc.slack ∧
      ∀ qp d, GHOk r.g r.h qp d ↔ GHOk acc.g acc.h qp d ∧ ∀ A ∈ As, OwnOk A qp d := by
  induction ns generalizing us acc with
  | nil =>
    simp only [parseObjLoop, Except.ok.injEq] at h
    subst h
    exact ⟨[], rfl, by simp, List.Forall₂.nil, by simp, rfl, by simp⟩
  | cons n ns ih =>
    cases us with
    | nil => simp [parseObjLoop] at h
    | cons u us =>
      simp only [parseObjLoop] at h
      cases hA : addQuantity reg n u "f" sm sp with
      | error e => simp [hA, bind, Except.bind] at h
      | ok A =>
        simp only [hA, bind, Except.bind] at h
        obtain ⟨As, h0, h0', h1, h2, h3, h4⟩ := ih us _ h
        refine ⟨A :: As, by simp [h0], by simpa using h0', List.Forall₂.cons hA h1, by simp [h2], by rw [h3]; rfl, fun qp d => ?_⟩
        rw [h4, List.forall_mem_cons, ← and_assoc]
        refine and_congr_left fun _ => ?_
        simp only [GHOk, OwnOk, List.mem_append, or_imp, forall_and]
        tauto

theorem dictUnion_disjoint {β : Type} {a b : List (String × β)} (h : ∀ k ∈ a.map Prod.fst, k ∉ b.map Prod.fst) :
    dictUnion a b = a ++ b := by
  unfold dictUnion
  congr 1
  · conv_rhs => rw [← List.map_id a]
    apply List.map_congr_left
    rintro ⟨k, v⟩ hkv
    have : b.lookup k = none := by
      cases hl : b.lookup k with
      | none => rfl
      | some w =>
        have := (lookup_isSome_iff b k).1 (by rw [hl]; rfl)
        exact absurd this (h k (List.mem_map.2 ⟨_, hkv, rfl⟩))
    simp [this]
  · rw [List.filter_eq_self]
    rintro ⟨k, v⟩ hkv
    cases hl : a.lookup k with
    | none => rfl
    | some w =>
      have := (lookup_isSome_iff a k).1 (by rw [hl]; rfl)
      exact absurd (List.mem_map.2 ⟨_, hkv, rfl⟩) (h k this)

theorem foldl_dictUnion {As : List (Added P)} {acc : List (String × (P → Dofs → Val))}
    (h : (acc.map Prod.fst ++ As.flatMap fun A => A.slack.map Prod.fst).Nodup) :
    As.foldl (fun s A => dictUnion s A.slack) acc = acc ++ As.flatMap fun A => A.slack := by
  induction As generalizing acc with
  | nil => simp
  | cons A As ih =>
    rw [List.flatMap_cons, ← List.append_assoc] at h
    rw [List.foldl_cons, List.flatMap_cons, dictUnion_disjoint, ih, List.append_assoc]
    · rwa [List.map_append]
    · intro k hk hk'
      rw [List.nodup_append] at h
      have h1 := h.1
      rw [List.nodup_append] at h1
      exact h1.2.2 k hk k hk' rfl

/-! ## The whole problem -/

/-- The auxiliary variables of the quantity with this name. -/
def auxNames (reg : Registry P) (sm : Option String) (name : String) : List String :=
  match reg name with
  | some (.quantity q) => auxOf sm q
  | _ => []

/-- A problem to which the statement applies: exact quantities with non-zero units, numbers with non-negative weights as
objectives, and no auxiliary variable used twice. -/
structure WellPosed (reg : Registry P) (objs : List (String × UnitArg × ℝ)) (rs : List Request) (sm : Option String)
    (sp : SmoothingParams) (qp : P) : Prop where
  mode : sm ≠ some "approx"
  objective : ∀ o ∈ objs, ∃ q u, reg o.1 = some (.quantity q) ∧ o.2.1 = .scalar u ∧ u ≠ 0 ∧ 0 ≤ o.2.2 ∧
    ExactQuantity q sm sp qp ∧ ∀ d, Pot qp d → ∃ y, (q.rawF qp d).entries = [y]
  constraint : ∀ r ∈ rs, ∃ q u, reg r.name = some (.quantity q) ∧ r.unit = .scalar u ∧ u ≠ 0 ∧ ExactQuantity q sm sp qp
  aux_nodup : ((objs.map fun o => o.1) ++ rs.map fun r => r.name).flatMap (auxNames reg sm) |>.Nodup

theorem addQuantity_scalar {reg : Registry P} {name uc : String} {u : ℝ} {sm : Option String} {sp : SmoothingParams} {A : Added P}
    {q : Quantity P} (hq : reg name = some (.quantity q)) (h : addQuantity reg name (.scalar u) uc sm sp = .ok A) :
    A = addedOf q sm sp (fun _ => Val.scalar |u|) ∧ uc ∈ q.compatibility := by
  obtain ⟨q', u', hq', -, hc, hu, rfl⟩ := addQuantity_ok.1 h
  rw [hq] at hq'
  cases hq'
  simp only [unitCallable, Except.ok.injEq] at hu
  rw [← hu]
  exact ⟨rfl, hc⟩

theorem addedOf_unit (q : Quantity P) (sm : Option String) (sp : SmoothingParams) (u : P → Val) : (addedOf q sm sp u).unit = u := by
  unfold addedOf
  split
  · rfl
  · split <;> rfl

theorem consFunc_entries {A : Added P} {value sign w : ℝ} {sm : Option String} {sp : SmoothingParams} {qp : P} {d : Dofs}
    (hsm : sm ≠ some "approx") (hu : A.unit qp = .scalar w) :
    (consFunc A value sign sm sp qp d).entries = (A.val qp d).entries.map fun y => sign * (y - value / w) := by
  rw [← consOut_entries hu]
  unfold consFunc
  simp [hsm]

theorem conf_local {slack : List (String × (P → Dofs → Val))} {qp : P} {d0 d d' : Dofs} (h : ∀ k ∈ slack.map Prod.fst, d k = d' k)
    (hc : Conf slack qp d0 d) : Conf slack qp d0 d' := by
  intro kv hkv
  rw [← h kv.1 (List.mem_map.2 ⟨kv, hkv, rfl⟩)]
  exact hc kv hkv

theorem ownOk_local {q : Quantity P} {sm : Option String} {sp : SmoothingParams} {qp : P} (hE : ExactQuantity q sm sp qp) {u : ℝ}
    {d d' : Dofs} (h1 : d "phi" = d' "phi") (h2 : ∀ k ∈ auxOf sm q, d k = d' k)
    (h : OwnOk (addedOf q sm sp fun _ => Val.scalar |u|) qp d) : OwnOk (addedOf q sm sp fun _ => Val.scalar |u|) qp d' := by
  obtain ⟨-, hg, hh⟩ := hE.locality u d d' h1 h2
  exact ⟨fun g hm => hg g hm ▸ h.1 g hm, fun k hm => hh k hm ▸ h.2 k hm⟩

/-- An objective as a block. -/
noncomputable def objBlock (reg : Registry P) (qp : P) (d0 d : Dofs) (o : String × UnitArg × ℝ) (A : Added P) : Block where
  keys := A.slack.map Prod.fst
  feas := fun e => Conf A.slack qp d0 e ∧ OwnOk A qp e
  val := fun e => o.2.2 * (A.val qp e).entries.headD 0
  ok := True
  uval := o.2.2 * ((rawOf reg o.1 qp d).entries.headD 0 / o.2.1.size)

/-- A constraint as a block. -/
noncomputable def consBlock (reg : Registry P) (sm : Option String) (sp : SmoothingParams) (qp : P) (d0 d : Dofs) (r : Request)
    (A : Added P) : Block where
  keys := A.slack.map Prod.fst
  feas := fun e => Conf A.slack qp d0 e ∧ OwnOk A qp e ∧ ReqOk sm sp r A qp e
  val := fun _ => 0
  ok := FieldConstraint r.type r.value (rawOf reg r.name qp d).entries
  uval := 0

theorem rawOf_eq {reg : Registry P} {name : String} {q : Quantity P} (h : reg name = some (.quantity q)) (qp : P) (d : Dofs) :
    rawOf reg name qp d = q.rawF qp d := by
  simp [rawOf, h]

theorem pot_of_eq {qp : P} {d d' : Dofs} (h : d' "phi" = d "phi") (hd : Pot qp d) : Pot qp d' := by
  obtain ⟨phi, h1, h2⟩ := hd
  exact ⟨phi, h.trans h1, h2⟩

theorem objBlock_exact {reg : Registry P} {sm : Option String} {sp : SmoothingParams} {qp : P} {d0 d : Dofs}
    {o : String × UnitArg × ℝ} {A : Added P} {q : Quantity P} {u : ℝ} (hq : reg o.1 = some (.quantity q)) (hu : o.2.1 = .scalar u)
    (hu0 : u ≠ 0) (hw : 0 ≤ o.2.2) (hE : ExactQuantity q sm sp qp) (hnum : ∀ d, Pot qp d → ∃ y, (q.rawF qp d).entries = [y])
    (hA : addQuantity reg o.1 o.2.1 "f" sm sp = .ok A) (hd0 : Pot qp d0) (hd : Pot qp d) :
    (objBlock reg qp d0 d o A).Exact (d "phi") ∧ (objBlock reg qp d0 d o A).keys = auxNames reg sm o.1 ∧
      ∀ e, e "phi" = d "phi" → Conf A.slack qp d0 e → OwnOk A qp e → ∃ y, (A.val qp e).entries = [y] := by
  rw [hu] at hA
  obtain ⟨rfl, -⟩ := addQuantity_scalar hq hA
  have hkeys := addedOf_slack_keys q sm sp fun _ => Val.scalar |u|
  obtain ⟨x, hx⟩ := hnum d hd
  have hsound : ∀ e, e "phi" = d "phi" → Conf (addedOf q sm sp fun _ => Val.scalar |u|).slack qp d0 e →
      OwnOk (addedOf q sm sp fun _ => Val.scalar |u|) qp e →
      ∃ y, ((addedOf q sm sp fun _ => Val.scalar |u|).val qp e).entries = [y] ∧ x / |u| ≤ y := by
    intro e he hc ho
    have h2 := hE.sound u d0 e hu0 hd0 (pot_of_eq he hd) hc ho.1 ho.2
    rw [hE.phiOnly qp e d he, hx] at h2
    obtain ⟨y, l, hle, hl, hy⟩ := List.forall₂_cons_left_iff.1 h2
    rw [List.forall₂_nil_left_iff] at hl
    rw [hl] at hy
    exact ⟨y, hy, hle⟩
  refine ⟨⟨?_, ?_, ?_, ?_, ?_⟩, ?_, ?_⟩
  · show "phi" ∉ List.map Prod.fst _
    rw [hkeys]
    exact hE.phi_not
  · rintro e e' h1 h2 ⟨hc, ho⟩
    have h2' := h2
    simp only [objBlock] at h2 h2'
    rw [hkeys] at h2'
    exact ⟨conf_local h2 hc, ownOk_local hE h1 h2' ho⟩
  · intro e e' h1 h2
    simp only [objBlock] at h2 ⊢
    rw [hkeys] at h2
    rw [(hE.locality u e e' h1 h2).1]
  · rintro e he ⟨hc, ho⟩
    refine ⟨trivial, ?_⟩
    obtain ⟨y, hy, hle⟩ := hsound e he hc ho
    simp only [objBlock, rawOf_eq hq, hx, hy, hu, UnitArg.size, List.headD_cons]
    exact mul_le_mul_of_nonneg_left hle hw
  · intro _
    obtain ⟨e, he, hc, hg, hh, hv⟩ := hE.complete u d0 d hu0 hd0 hd
    refine ⟨e, he, ⟨hc, hg, hh⟩, ?_⟩
    simp only [objBlock, rawOf_eq hq, hx, hv, hu, UnitArg.size, List.map_cons, List.headD_cons]
  · show List.map Prod.fst _ = _
    rw [hkeys]
    simp [auxNames, hq]
  · intro e he hc ho
    obtain ⟨y, hy, -⟩ := hsound e he hc ho
    exact ⟨y, hy⟩

theorem consBlock_exact {reg : Registry P} {sm : Option String} {sp : SmoothingParams} {qp : P} {d0 d : Dofs}
    {r : Request} {A : Added P} {q : Quantity P} {u : ℝ} (hsm : sm ≠ some "approx") (hq : reg r.name = some (.quantity q))
    (hu : r.unit = .scalar u) (hu0 : u ≠ 0) (hE : ExactQuantity q sm sp qp)
    (hA : addQuantity reg r.name r.unit r.type sm sp = .ok A) (htype : r.type = "==" ∨ r.type = "<=" ∨ r.type = ">=")
    (hd0 : Pot qp d0) (hd : Pot qp d) :
    (consBlock reg sm sp qp d0 d r A).Exact (d "phi") ∧ (consBlock reg sm sp qp d0 d r A).keys = auxNames reg sm r.name := by
  rw [hu] at hA
  obtain ⟨rfl, hcomp⟩ := addQuantity_scalar hq hA
  have hkeys := addedOf_slack_keys q sm sp fun _ => Val.scalar |u|
  have hw : 0 < |u| := abs_pos.2 hu0
  have hunit : (addedOf q sm sp fun _ => Val.scalar |u|).unit qp = .scalar |u| := by rw [addedOf_unit]
  have hreq : ∀ e, ReqOk sm sp r (addedOf q sm sp fun _ => Val.scalar |u|) qp e ↔
      FieldConstraint r.type (r.value / |u|) ((addedOf q sm sp fun _ => Val.scalar |u|).val qp e).entries := by
    intro e
    simp only [ReqOk, FieldConstraint, consFunc_entries hsm hunit, AllZero, AllNonpos, List.mem_map, forall_exists_index, and_imp,
      forall_apply_eq_imp_iff₂]
    rcases htype with h | h | h <;> simp [h, sub_nonpos, sub_eq_zero]
  have hscale : FieldConstraint r.type (r.value / |u|) ((q.rawF qp d).entries.map fun x => x / |u|) ↔
      FieldConstraint r.type r.value (q.rawF qp d).entries := by
    simp only [FieldConstraint, List.mem_map, forall_exists_index, and_imp, forall_apply_eq_imp_iff₂,
      div_le_div_iff_of_pos_right hw, div_left_inj' hw.ne']
  refine ⟨⟨?_, ?_, ?_, ?_, ?_⟩, ?_⟩
  · show "phi" ∉ List.map Prod.fst _
    rw [hkeys]
    exact hE.phi_not
  · rintro e e' h1 h2 ⟨hc, ho, hr⟩
    have h2' := h2
    simp only [consBlock] at h2 h2'
    rw [hkeys] at h2'
    refine ⟨conf_local h2 hc, ownOk_local hE h1 h2' ho, ?_⟩
    rw [hreq] at hr ⊢
    rwa [← (hE.locality u e e' h1 h2').1]
  · intro e e' _ _
    rfl
  · rintro e he ⟨hc, ho, hr⟩
    refine ⟨?_, le_rfl⟩
    rw [hreq] at hr
    simp only [consBlock, rawOf_eq hq]
    rw [← hscale]
    rcases hE.onesided with h1 | h1
    · have ht : r.type = "<=" := by
        rcases h1 _ hcomp with h | h
        · rw [h] at htype
          simp at htype
        · exact h
      have h2 := hE.sound u d0 e hu0 hd0 (pot_of_eq he hd) hc ho.1 ho.2
      rw [hE.phiOnly qp e d he] at h2
      refine ⟨fun _ x hx => ?_, fun h => absurd (ht.symm.trans h) (by decide), fun h => absurd (ht.symm.trans h) (by decide)⟩
      obtain ⟨x', hx', rfl⟩ := List.mem_map.1 hx
      obtain ⟨i, hi, rfl⟩ := List.mem_iff_getElem.1 hx'
      have hl := h2.length_eq
      have h3 := (List.forall₂_iff_get.1 h2).2 i hi (hl ▸ hi)
      exact h3.trans (hr.1 ht _ (List.get_mem _ _))
    · rw [h1, hE.phiOnly qp e d he] at hr
      exact hr
  · intro hok
    obtain ⟨e, he, hc, hg, hh, hv⟩ := hE.complete u d0 d hu0 hd0 hd
    refine ⟨e, he, ⟨hc, ⟨hg, hh⟩, ?_⟩, rfl⟩
    rw [hreq, hv, hscale]
    simpa only [consBlock, rawOf_eq hq] using hok
  · show List.map Prod.fst _ = _
    rw [hkeys]
    simp [auxNames, hq]

theorem fTot_entries {fs : List (P → Dofs → Val)} {ws : List ℝ} {qp : P} {d : Dofs} (h : ∀ f ∈ fs, ∃ y, (f qp d).entries = [y]) :
    (fTot fs ws qp d).entries = [((fs.zip ws).map fun fw => fw.2 * (fw.1 qp d).entries.headD 0).sum] := by
  have key : ∀ (l : List ((P → Dofs → Val) × ℝ)) (v : Val) (s : ℝ), v.entries = [s] → (∀ fw ∈ l, ∃ y, (fw.1 qp d).entries = [y]) →
      (l.foldl (fun out fw => Val.map2 (· + ·) out (Val.map (fun x => x * fw.2) (fw.1 qp d))) v).entries =
        [s + (l.map fun fw => fw.2 * (fw.1 qp d).entries.headD 0).sum] := by
    intro l
    induction l with
    | nil => intro v s hv _; simpa using hv
    | cons fw l ih =>
      intro v s hv hl
      obtain ⟨y, hy⟩ := hl fw List.mem_cons_self
      rw [List.foldl_cons, ih _ (s + y * fw.2) _ fun fw h => hl fw (List.mem_cons_of_mem _ h)]
      · simp only [List.map_cons, List.sum_cons, hy, List.headD_cons]
        congr 1
        ring
      · revert hv hy
        generalize fw.1 qp d = v'
        cases v <;> cases v' <;> simp only [Val.entries, Val.map, Val.map2, List.cons.injEq, and_true] <;> intro hv hy <;>
          simp [hv, hy]
  unfold fTot
  rw [key _ (.scalar 0) 0 rfl, zero_add]
  rintro ⟨f, w⟩ hfw
  exact h f (List.of_mem_zip hfw).1

theorem forall₂_mem_zip {α β : Type} {R : α → β → Prop} {l : List α} {m : List β} (h : List.Forall₂ R l m) :
    ∀ ab ∈ l.zip m, R ab.1 ab.2 := by
  induction h with
  | nil => simp
  | cons hab _ ih =>
    rw [List.zip_cons_cons, List.forall_mem_cons]
    exact ⟨hab, ih⟩

theorem forall_snd_zip {α β : Type} {l : List α} {m : List β} (h : m.length ≤ l.length) {Q : β → Prop} :
    (∀ b ∈ m, Q b) ↔ ∀ ab ∈ l.zip m, Q ab.2 := by
  constructor
  · exact fun hb ab hab => hb _ (List.of_mem_zip hab).2
  · intro hb b hbm
    rw [← List.map_snd_zip h] at hbm
    obtain ⟨ab, hab, rfl⟩ := List.mem_map.1 hbm
    exact hb ab hab

theorem forall_fst_zip {α β : Type} {l : List α} {m : List β} (h : l.length ≤ m.length) {Q : α → Prop} :
    (∀ a ∈ l, Q a) ↔ ∀ ab ∈ l.zip m, Q ab.1 := by
  constructor
  · exact fun hb ab hab => hb _ (List.of_mem_zip hab).1
  · intro hb b hbm
    rw [← List.map_fst_zip h] at hbm
    obtain ⟨ab, hab, rfl⟩ := List.mem_map.1 hbm
    exact hb ab hab

theorem forall_blocks {α β γ : Type} {l : List α} {m : List β} {F : α → γ} {G : β → γ} {Q : γ → Prop} :
    (∀ b ∈ l.map F ++ m.map G, Q b) ↔ (∀ a ∈ l, Q (F a)) ∧ ∀ b ∈ m, Q (G b) := by
  rw [List.forall_mem_append, List.forall_mem_map, List.forall_mem_map]

theorem conf_append_flatMap {As Bs : List (Added P)} {qp : P} {d0 e : Dofs} :
    Conf ((As.flatMap fun A => A.slack) ++ Bs.flatMap fun A => A.slack) qp d0 e ↔
      (∀ A ∈ As, Conf A.slack qp d0 e) ∧ ∀ A ∈ Bs, Conf A.slack qp d0 e := by
  unfold Conf
  rw [List.forall_mem_append, List.forall_mem_flatMap, List.forall_mem_flatMap]

theorem ghOk_append {g g' h h' : List (P → Dofs → Val)} {qp : P} {e : Dofs} :
    ((∀ k ∈ g ++ g', AllNonpos (k qp e).entries) ∧ ∀ k ∈ h ++ h', AllZero (k qp e).entries) ↔
      GHOk g h qp e ∧ GHOk g' h' qp e := by
  unfold GHOk
  rw [List.forall_mem_append, List.forall_mem_append]
  exact ⟨fun ⟨⟨h1, h2⟩, h3, h4⟩ => ⟨⟨h1, h3⟩, h2, h4⟩, fun ⟨⟨h1, h3⟩, h2, h4⟩ => ⟨⟨h1, h2⟩, h3, h4⟩⟩

/-- The joined problem consists of exact blocks with disjoint auxiliary variables. -/
theorem whole_problem_blocks {reg : Registry P} {names : OneOrMany String} {units : OneOrMany UnitArg} {weights : OneOrMany ℝ}
    {cnames ctypes : List String} {cunits : List UnitArg} {cvalues : List ℝ} {sm : Option String} {sp : SmoothingParams}
    {o : ParsedObj P} {c : Parsed P} (ho : parseObjectives reg names units weights sm sp = .ok o)
    (hc : parseConstraints reg cnames ctypes cunits cvalues sm sp = .ok c) {qp : P}
    (hwell : WellPosed reg (objectiveList names units weights) (zipRequests cnames ctypes cunits cvalues) sm sp qp)
    {d0 d : Dofs} (hd0 : Pot qp d0) (hd : Pot qp d) :
    ∃ bs : List Block, (∀ b ∈ bs, b.Exact (d "phi")) ∧ (bs.Pairwise fun a b => ∀ k ∈ a.keys, k ∉ b.keys) ∧
      (∀ b ∈ bs, ∀ k ∈ b.keys, k ∈ (joinParsed o c).slack.map Prod.fst) ∧
      (∀ e, (Conf (joinParsed o c).slack qp d0 e ∧ (∀ g ∈ (joinParsed o c).g, AllNonpos (g qp e).entries) ∧
        (∀ k ∈ (joinParsed o c).h, AllZero (k qp e).entries)) ↔ ∀ b ∈ bs, b.feas e) ∧
      (∀ e, e "phi" = d "phi" → (∀ b ∈ bs, b.feas e) →
        ((joinParsed o c).f qp e).entries = [(bs.map fun b => b.val e).sum]) ∧
      ((∀ b ∈ bs, b.ok) ↔ UserFeasible reg (zipRequests cnames ctypes cunits cvalues) qp d) ∧
      (bs.map fun b => b.uval).sum = userObjective reg (objectiveList names units weights) qp d := by
  obtain ⟨ns, us, ws, acc, hnw, hloop, rfl, hobjs⟩ := parseObjectives_ok ho
  rw [hobjs] at hwell ⊢
  unfold parseConstraints at hc
  split at hc
  · cases hc
  generalize hrs : zipRequests cnames ctypes cunits cvalues = rs at hc hwell
  obtain ⟨As, hAl, hnu, hAs, hAf, hAslack, hAok⟩ := objLoop_blocks reg sm sp ns us _ acc hloop
  obtain ⟨Bs, hBs, hBslack, hBok⟩ := parse_blocks reg sm sp rs _ c hc
  have hBl := hBs.length_eq
  have htypes : ∀ r ∈ rs, r.type = "==" ∨ r.type = "<=" ∨ r.type = ">=" := by
    intro r hr
    obtain ⟨a, -, -, -, h⟩ := (parse_mem reg sm sp rs _ c hc).2.2 r hr
    rcases h with ⟨h, -⟩ | ⟨h, -⟩ | ⟨h, -⟩
    · exact Or.inl h
    · exact Or.inr (Or.inl h)
    · exact Or.inr (Or.inr h)
  have holen : (ns.zip (us.zip ws)).length = As.length := by
    simp only [List.length_zip]
    omega
  -- the objectives
  have hobjA : ∀ oA ∈ (ns.zip (us.zip ws)).zip As, addQuantity reg oA.1.1 oA.1.2.1 "f" sm sp = .ok oA.2 := by
    intro oA hoA
    obtain ⟨i, hi, rfl⟩ := List.mem_iff_getElem.1 hoA
    have hi' : i < (ns.zip us).length := by simp only [List.length_zip] at hi ⊢; omega
    have := (List.forall₂_iff_get.1 hAs).2 i hi' (by simp only [List.length_zip] at hi; omega)
    simpa using this
  have hobjE : ∀ oA ∈ (ns.zip (us.zip ws)).zip As, (objBlock reg qp d0 d oA.1 oA.2).Exact (d "phi") ∧
      (objBlock reg qp d0 d oA.1 oA.2).keys = auxNames reg sm oA.1.1 ∧
      ∀ e, e "phi" = d "phi" → Conf oA.2.slack qp d0 e → OwnOk oA.2 qp e → ∃ y, (oA.2.val qp e).entries = [y] := by
    intro oA hoA
    obtain ⟨q, u, hq, hu, hu0, hw, hE, hnum⟩ := hwell.objective oA.1 (List.of_mem_zip hoA).1
    exact objBlock_exact hq hu hu0 hw hE hnum (hobjA oA hoA) hd0 hd
  have hconsE : ∀ rB ∈ rs.zip Bs, (consBlock reg sm sp qp d0 d rB.1 rB.2).Exact (d "phi") ∧
      (consBlock reg sm sp qp d0 d rB.1 rB.2).keys = auxNames reg sm rB.1.name := by
    intro rB hrB
    have hr := (List.of_mem_zip hrB).1
    obtain ⟨q, u, hq, hu, hu0, hE⟩ := hwell.constraint rB.1 hr
    exact consBlock_exact hwell.mode hq hu hu0 hE (forall₂_mem_zip hBs rB hrB) (htypes rB.1 hr) hd0 hd
  -- all blocks
  let bs : List Block := ((ns.zip (us.zip ws)).zip As).map (fun oA => objBlock reg qp d0 d oA.1 oA.2) ++
    (rs.zip Bs).map fun rB => consBlock reg sm sp qp d0 d rB.1 rB.2
  have hexact : ∀ b ∈ bs, b.Exact (d "phi") := by
    intro b hb
    rcases List.mem_append.1 hb with hb | hb
    · obtain ⟨oA, hoA, rfl⟩ := List.mem_map.1 hb
      exact (hobjE oA hoA).1
    · obtain ⟨rB, hrB, rfl⟩ := List.mem_map.1 hb
      exact (hconsE rB hrB).1
  have hk1 : ((ns.zip (us.zip ws)).zip As).map (fun oA => (objBlock reg qp d0 d oA.1 oA.2).keys) =
      (ns.zip (us.zip ws)).map fun o => auxNames reg sm o.1 := by
    rw [List.map_congr_left fun oA hoA => (hobjE oA hoA).2.1]
    conv_rhs => rw [← List.map_fst_zip holen.le]
    rw [List.map_map]
    rfl
  have hk2 : (rs.zip Bs).map (fun rB => (consBlock reg sm sp qp d0 d rB.1 rB.2).keys) = rs.map fun r => auxNames reg sm r.name := by
    rw [List.map_congr_left fun rB hrB => (hconsE rB hrB).2]
    conv_rhs => rw [← List.map_fst_zip hBl.le]
    rw [List.map_map]
    rfl
  have hkeys : bs.map (fun b => b.keys) =
      ((ns.zip (us.zip ws)).map fun o => auxNames reg sm o.1) ++ rs.map fun r => auxNames reg sm r.name := by
    rw [List.map_append, List.map_map, List.map_map, ← hk1, ← hk2]
    rfl
  have hnodup : (bs.map fun b => b.keys).flatten.Nodup := by
    rw [hkeys]
    have := hwell.aux_nodup
    rw [List.flatMap_def, List.map_append, List.map_map, List.map_map] at this
    exact this
  have hdis : bs.Pairwise fun a b => ∀ k ∈ a.keys, k ∉ b.keys := by
    have := (List.nodup_flatten.1 hnodup).2
    rw [List.pairwise_map] at this
    exact this.imp fun h k hk hk' => h hk hk'
  -- the dictionary of auxiliary variables
  have hAkeys : As.flatMap (fun A => A.slack.map Prod.fst) = ((ns.zip (us.zip ws)).map fun o => auxNames reg sm o.1).flatten := by
    rw [← hk1, List.flatMap_def]
    congr 1
    conv_lhs => rw [← List.map_snd_zip holen.ge]
    rw [List.map_map]
    rfl
  have hBkeys : Bs.flatMap (fun A => A.slack.map Prod.fst) = (rs.map fun r => auxNames reg sm r.name).flatten := by
    rw [← hk2, List.flatMap_def]
    congr 1
    conv_lhs => rw [← List.map_snd_zip hBl.ge]
    rw [List.map_map]
    rfl
  rw [hkeys, List.flatten_append, List.nodup_append] at hnodup
  have hs1 : acc.slack = As.flatMap fun A => A.slack := by
    rw [hAslack, foldl_dictUnion (by simpa [hAkeys] using hnodup.1), List.nil_append]
  have hs2 : c.slack = Bs.flatMap fun A => A.slack := by
    rw [hBslack, foldl_dictUnion (by simpa [hBkeys] using hnodup.2.1), List.nil_append]
  have hslack : (joinParsed ⟨fTot acc.f ws, acc.g, acc.h, acc.slack⟩ c).slack =
      (As.flatMap fun A => A.slack) ++ Bs.flatMap fun A => A.slack := by
    simp only [joinParsed, hs1, hs2]
    apply dictUnion_disjoint
    intro k hk hk'
    rw [List.map_flatMap] at hk hk'
    rw [hAkeys] at hk
    rw [hBkeys] at hk'
    exact hnodup.2.2 k hk k hk' rfl
  -- feasibility
  have hfeas : ∀ e, (Conf (joinParsed ⟨fTot acc.f ws, acc.g, acc.h, acc.slack⟩ c).slack qp d0 e ∧
      (∀ g ∈ (joinParsed ⟨fTot acc.f ws, acc.g, acc.h, acc.slack⟩ c).g, AllNonpos (g qp e).entries) ∧
      (∀ k ∈ (joinParsed ⟨fTot acc.f ws, acc.g, acc.h, acc.slack⟩ c).h, AllZero (k qp e).entries)) ↔ ∀ b ∈ bs, b.feas e := by
    intro e
    have hl : (joinParsed ⟨fTot acc.f ws, acc.g, acc.h, acc.slack⟩ c).g = acc.g ++ c.g ∧
        (joinParsed ⟨fTot acc.f ws, acc.g, acc.h, acc.slack⟩ c).h = acc.h ++ c.h := ⟨rfl, rfl⟩
    rw [hslack, hl.1, hl.2, conf_append_flatMap, ghOk_append, hAok, hBok, forall_snd_zip holen.ge, forall_snd_zip hBl.ge,
      forall_snd_zip holen.ge, forall_blocks]
    have hnil : GHOk ([] : List (P → Dofs → Val)) [] qp e := ⟨by simp, by simp⟩
    exact ⟨fun ⟨⟨h1, h2⟩, ⟨_, h3⟩, _, h4⟩ => ⟨fun x hx => ⟨h1 x hx, h3 x hx⟩, fun x hx => ⟨h2 x hx, h4 x hx⟩⟩,
      fun ⟨h1, h2⟩ => ⟨⟨fun x hx => (h1 x hx).1, fun x hx => (h2 x hx).1⟩, ⟨hnil, fun x hx => (h1 x hx).2⟩, hnil,
        fun x hx => (h2 x hx).2⟩⟩
  have hval : ∀ e, (bs.map fun b => b.val e).sum = ((acc.f.zip ws).map fun fw => fw.2 * (fw.1 qp e).entries.headD 0).sum := by
    intro e
    simp only [bs, List.map_append, List.sum_append, List.map_map]
    have h0 : ((rs.zip Bs).map ((fun b => b.val e) ∘ fun rB => consBlock reg sm sp qp d0 d rB.1 rB.2)).sum = 0 := by
      apply List.sum_eq_zero
      intro x hx
      obtain ⟨_, -, rfl⟩ := List.mem_map.1 hx
      rfl
    rw [h0, add_zero, hAf, List.nil_append]
    congr 1
    apply List.ext_getElem
    · simp only [List.length_map, List.length_zip]
      omega
    · intro i h1 h2
      simp [objBlock]
  have huval : (bs.map fun b => b.uval).sum = userObjective reg (ns.zip (us.zip ws)) qp d := by
    simp only [bs, List.map_append, List.sum_append, List.map_map]
    have h0 : ((rs.zip Bs).map ((fun b => b.uval) ∘ fun rB => consBlock reg sm sp qp d0 d rB.1 rB.2)).sum = 0 := by
      apply List.sum_eq_zero
      intro x hx
      obtain ⟨_, -, rfl⟩ := List.mem_map.1 hx
      rfl
    rw [h0, add_zero]
    unfold userObjective
    conv_rhs => rw [← List.map_fst_zip holen.le]
    rw [List.map_map]
    rfl
  have hok : (∀ b ∈ bs, b.ok) ↔ UserFeasible reg rs qp d := by
    unfold UserFeasible
    rw [forall_blocks, forall_fst_zip hBl.le]
    exact ⟨fun h => h.2, fun h => ⟨fun _ _ => trivial, h⟩⟩
  have hf : ∀ e, e "phi" = d "phi" → (∀ b ∈ bs, b.feas e) →
      ((joinParsed ⟨fTot acc.f ws, acc.g, acc.h, acc.slack⟩ c).f qp e).entries = [(bs.map fun b => b.val e).sum] := by
    intro e he hb
    rw [hval]
    show (fTot acc.f ws qp e).entries = _
    refine fTot_entries ?_
    rw [hAf, List.nil_append]
    intro f hf
    obtain ⟨A, hA, rfl⟩ := List.mem_map.1 hf
    rw [← List.map_snd_zip holen.ge] at hA
    obtain ⟨oA, hoA, rfl⟩ := List.mem_map.1 hA
    have := hb (objBlock reg qp d0 d oA.1 oA.2) (List.mem_append_left _ (List.mem_map.2 ⟨oA, hoA, rfl⟩))
    exact (hobjE oA hoA).2.2 e he this.1 this.2
  refine ⟨bs, hexact, hdis, ?_, hfeas, hf, hok, huval⟩
  intro b hb k hk
  rw [hslack, List.map_append, List.map_flatMap, List.map_flatMap, hAkeys, hBkeys, ← List.flatten_append, ← hkeys]
  exact List.mem_flatten.2 ⟨b.keys, List.mem_map.2 ⟨b, hb, rfl⟩, hk⟩

/-- **C106.** The slack form of the whole problem is exact: for a potential, some values of all auxiliary variables (of the shapes
of their initial values) satisfy all generated constraint functions with objective at most `t`, if and only if the potential
satisfies all requested constraints and the weighted sum of quantity over unit is at most `t`. -/
theorem C106_whole_problem_exact {reg : Registry P} {names : OneOrMany String} {units : OneOrMany UnitArg} {weights : OneOrMany ℝ}
    {cnames ctypes : List String} {cunits : List UnitArg} {cvalues : List ℝ} {sm : Option String} {sp : SmoothingParams}
    {o : ParsedObj P} {c : Parsed P} (ho : parseObjectives reg names units weights sm sp = .ok o)
    (hc : parseConstraints reg cnames ctypes cunits cvalues sm sp = .ok c) {qp : P}
    (hwell : WellPosed reg (objectiveList names units weights) (zipRequests cnames ctypes cunits cvalues) sm sp qp)
    {d0 d : Dofs} (hd0 : Pot qp d0) (hd : Pot qp d) (t : ℝ) :
    (∃ e, e "phi" = d "phi" ∧ Conf (joinParsed o c).slack qp d0 e ∧
      (∀ g ∈ (joinParsed o c).g, AllNonpos (g qp e).entries) ∧ (∀ k ∈ (joinParsed o c).h, AllZero (k qp e).entries) ∧
      ∃ y, ((joinParsed o c).f qp e).entries = [y] ∧ y ≤ t) ↔
    UserFeasible reg (zipRequests cnames ctypes cunits cvalues) qp d ∧
      userObjective reg (objectiveList names units weights) qp d ≤ t := by
  obtain ⟨bs, hexact, hdis, -, hfeas, hf, hok, huval⟩ := whole_problem_blocks ho hc hwell hd0 hd
  rw [← hok, ← huval]
  constructor
  · rintro ⟨e, he, h1, h2, h3, y, hy, hyt⟩
    have hb := (hfeas e).1 ⟨h1, h2, h3⟩
    rw [hf e he hb] at hy
    obtain ⟨h4, h5⟩ := blocks_sound hexact he hb
    cases hy
    exact ⟨h4, h5.trans hyt⟩
  · rintro ⟨h1, h2⟩
    obtain ⟨e, he, hb, hv⟩ := blocks_complete hexact hdis h1
    obtain ⟨h3, h4, h5⟩ := (hfeas e).2 hb
    exact ⟨e, he, h3, h4, h5, _, hf e he hb, hv ▸ h2⟩

/-- The small problem is well posed with auxiliary variables and without smoothing. -/
theorem toy_wellPosed (sm : Option String) (hsm : sm = none ∨ sm = some "slack") :
    WellPosed toyRegistry (objectiveList (toyArgs sm).objectiveName (toyArgs sm).objectiveUnit (.one 1))
      (zipRequests (toyArgs sm).constraintName (toyArgs sm).constraintType (toyArgs sm).constraintUnit (toyArgs sm).constraintValue)
      sm (toyArgs sm).sp (⟨0⟩ : ToyQp) := by
  have h1 : PhiOnly toyPhi := fun _ d d' h => by simp [toyPhi, h]
  have h2 : PhiOnly toyKTheta := fun _ d d' h => by simp [toyKTheta, h]
  have h3 : PhiOnly toyEq := fun _ d d' h => by simp [toyEq, h]
  have h4 : PhiOnly (P := ToyQp) fun _ d => Val.scalar (((d "phi").entries.map fun x => x ^ 2).sum) := fun _ d d' h => by simp [h]
  have hlen : ∀ d, Pot (⟨0⟩ : ToyQp) d → (toyPhi ⟨0⟩ d).entries.length = 2 := by
    rintro d ⟨phi, hphi, hl⟩
    simp only [toyPhi, hphi, Val.entries]
    exact hl
  have hne : ∀ d, Pot (⟨0⟩ : ToyQp) d → (toyPhi ⟨0⟩ d).entries ≠ [] := by
    intro d hd h
    simpa [h] using hlen d hd
  have ex : ∀ n q, toyRegistry n = some (.quantity q) → ExactQuantity q sm (toyArgs sm).sp ⟨0⟩ := by
    intro n q hq
    rcases hsm with rfl | rfl
    · refine exactQuantity_none q _ _ ?_
      unfold toyRegistry at hq
      split_ifs at hq <;> first
        | (cases hq; exact h2)
        | (cases hq; exact h3)
        | (cases hq; exact h4)
        | (cases hq; intro _ d d' h; simp [Quantity.generateLinf, Quantity.generateL1, toyPhi, h]; done)
        | (cases hq; done)
    · unfold toyRegistry at hq
      split_ifs at hq <;> cases hq
      · exact exactQuantity_c2 _ _ _ _ h2
      · exact exactQuantity_c2 _ _ _ _ h3
      · exact exactQuantity_c2 _ _ _ _ h4
      · exact exactQuantity_linf _ _ _ _ _ h1 (by decide) hne (by simp)
      · exact exactQuantity_linf_square _ _ _ _ _ h1 (by decide) hne (by simp)
      · exact exactQuantity_l1 _ _ _ _ _ h1 (by decide) (by simp [HasQp.da]) (by simp [HasQp.nfp])
          (fun d d' hd hd' => by rw [hlen d hd, hlen d' hd']) (by simp)
  refine ⟨by rcases hsm with rfl | rfl <;> decide, ?_, ?_, ?_⟩
  · intro o ho
    have : o = ("f_Phi", .scalar 5, 1) := by simpa [toyArgs, objectiveList] using ho
    subst this
    exact ⟨_, _, rfl, rfl, by norm_num, by norm_num, ex "f_Phi" _ rfl, fun d _ => ⟨_, rfl⟩⟩
  · intro r hr
    simp only [toyArgs, zipRequests, List.map_cons, List.map_nil, List.zipWith_cons_cons,
      List.zipWith_nil_right, List.zip, List.mem_cons, List.not_mem_nil, or_false] at hr
    rcases hr with rfl | rfl | rfl | rfl | rfl
    · exact ⟨_, _, rfl, rfl, by norm_num, ex "f_max_Phi" _ rfl⟩
    · exact ⟨_, _, rfl, rfl, by norm_num, ex "f_max_Phi2" _ rfl⟩
    · exact ⟨_, _, rfl, rfl, by norm_num, ex "f_l1_Phi" _ rfl⟩
    · exact ⟨_, _, rfl, rfl, by norm_num, ex "K_theta" _ rfl⟩
    · exact ⟨_, _, rfl, rfl, by norm_num, ex "K_dot_grad_K" _ rfl⟩
  · rcases hsm with rfl | rfl
    · simp [auxNames, toyArgs, objectiveList, zipRequests, toyRegistry, auxOf]
    · simp [auxNames, toyArgs, objectiveList, zipRequests, toyRegistry, auxOf, Quantity.generateC2, Quantity.generateLinf,
        Quantity.generateL1]

/-- The parsers accept the small problem in both modes, and potentials exist. -/
example (sm : Option String) (hsm : sm = none ∨ sm = some "slack") :
    (∃ o, parseObjectives toyRegistry (toyArgs sm).objectiveName (toyArgs sm).objectiveUnit (.one 1) sm (toyArgs sm).sp = .ok o) ∧
    (∃ c, parseConstraints toyRegistry (toyArgs sm).constraintName (toyArgs sm).constraintType (toyArgs sm).constraintUnit
      (toyArgs sm).constraintValue sm (toyArgs sm).sp = .ok c) ∧
    Pot (⟨0⟩ : ToyQp) (phiOnly (Val.array [1, -2])) := by
  refine ⟨?_, ?_, [1, -2], rfl, rfl⟩
  · rcases hsm with rfl | rfl <;> exact ⟨_, rfl⟩
  · rcases hsm with rfl | rfl <;> exact ⟨_, rfl⟩

end Verif
