import Verif.Lemmas.MirrorImage
import Verif.Lemmas.ReversedForms
import Verif.Spec.SignFree

/-!
# Quantities whose entries change sign in part
-/

namespace Verif

open Real

/-! ## Signs -/

/-- The signs of the entries of a flattened field of vectors. -/
def mirrorSigns : ℕ → List ℝ
  | 0 => []
  | 1 => [1]
  | 2 => [1, 1]
  | n + 3 => 1 :: 1 :: -1 :: mirrorSigns n

theorem mirrorSigns_length (n : ℕ) : (mirrorSigns n).length = n := by
  induction n using mirrorSigns.induct with
  | case4 n ih => simp [mirrorSigns, ih]
  | _ => rfl

theorem mirrorSigns_signs (n : ℕ) : IsSigns (mirrorSigns n) := by
  induction n using mirrorSigns.induct with
  | case4 n ih => simpa [mirrorSigns, IsSigns] using ih
  | _ => simp [mirrorSigns, IsSigns]

theorem mirrorEntries_flip (l : List ℝ) : mirrorEntries l = flipWith (mirrorSigns l.length) l := by
  induction l using mirrorEntries.induct with
  | case1 x y z l ih => simp [mirrorEntries, flipWith, mirrorSigns] at ih ⊢; exact ih
  | case2 l h =>
    rcases l with _ | ⟨x, _ | ⟨y, _ | ⟨z, l⟩⟩⟩
    · rfl
    · simp [mirrorEntries, flipWith, mirrorSigns]
    · simp [mirrorEntries, flipWith, mirrorSigns]
    · exact absurd rfl (h x y z l)

theorem mirrorSigns_take (n m : ℕ) (h : m ≤ n) : (mirrorSigns n).take m = mirrorSigns m := by
  induction m using mirrorSigns.induct generalizing n with
  | case1 => simp [mirrorSigns]
  | case2 =>
    rcases n with _ | _ | _ | n
    · omega
    all_goals simp [mirrorSigns]
  | case3 =>
    rcases n with _ | _ | _ | n
    · omega
    · omega
    all_goals simp [mirrorSigns]
  | case4 m ih =>
    rcases n with _ | _ | _ | n
    · omega
    · omega
    · omega
    · simp [mirrorSigns, ih n (by omega)]

theorem flipWith_take (s l : List ℝ) : flipWith s l = flipWith (s.take l.length) l := by
  unfold flipWith
  induction s generalizing l with
  | nil => simp
  | cons e s ih =>
    cases l with
    | nil => simp
    | cons x l => simp [ih]

theorem flipWith_even {β : Type} {f : ℝ → β} (hf : ∀ x, f (-x) = f x) {s l : List ℝ} (hs : IsSigns s) (hl : l.length ≤ s.length) :
    (flipWith s l).map f = l.map f := by
  unfold flipWith
  induction l generalizing s with
  | nil => simp
  | cons x l ih =>
    cases s with
    | nil => simp at hl
    | cons e s =>
      have he := hs e (by simp)
      simp only [List.zipWith_cons_cons, List.map_cons, List.cons.injEq]
      refine ⟨?_, ih (fun e he => hs e (List.mem_cons_of_mem _ he)) (by simpa using hl)⟩
      rcases he with rfl | rfl
      · rw [one_mul]
      · rw [neg_one_mul, hf]

theorem mirror_even {β : Type} {f : ℝ → β} (hf : ∀ x, f (-x) = f x) (l : List ℝ) : (mirrorEntries l).map f = l.map f := by
  rw [mirrorEntries_flip]
  exact flipWith_even hf (mirrorSigns_signs _) (mirrorSigns_length _).ge

theorem mirrorEntries_length (l : List ℝ) : (mirrorEntries l).length = l.length := by
  have := congrArg List.length (mirror_even (f := fun _ => ()) (fun _ => rfl) l)
  simpa using this

theorem entries_div_flip (s l : List ℝ) (u : Val) :
    (Val.map2 (· / ·) (.array (flipWith s l)) u).entries = flipWith s (Val.map2 (· / ·) (.array l) u).entries := by
  have h : ∀ (s l u : List ℝ), List.zipWith (· / ·) (List.zipWith (fun e t => e * t) s l) u =
      List.zipWith (fun e t => e * t) s (List.zipWith (· / ·) l u) := by
    intro s
    induction s with
    | nil => intro l u; simp
    | cons e s ih =>
      intro l u
      rcases l with _ | ⟨x, l⟩ <;> rcases u with _ | ⟨y, u⟩ <;> simp [ih, mul_div_assoc]
  cases u with
  | scalar y => simp [Val.map2, Val.entries, flipWith, List.map_zipWith, List.zipWith_map_right, mul_div_assoc]
  | array u => exact h s l u

theorem entries_div_mirror (l : List ℝ) (u : Val) :
    (Val.map2 (· / ·) (.array (mirrorEntries l)) u).entries = mirrorEntries (Val.map2 (· / ·) (.array l) u).entries := by
  rw [mirrorEntries_flip, entries_div_flip, flipWith_take, mirrorSigns_take, mirrorEntries_flip]
  cases u <;> simp [Val.map2, Val.entries]

theorem maxAbs_mirror (l : List ℝ) : Quantity.maxAbs (.array (mirrorEntries l)) = Quantity.maxAbs (.array l) := by
  simp only [Quantity.maxAbs, Val.entries]
  rw [mirror_even abs_neg]

theorem linfLse_mirror (l : List ℝ) (eps : ℝ) : linfLse (mirrorEntries l) eps = linfLse l eps := by
  simp only [linfLse]
  rw [mirror_even fun x => absLse_neg x eps]

/-! ## Inequalities of auxiliary variables -/

/-- Entries of the first list where the sign is plus, of the second where it is minus. -/
noncomputable def mix {β : Type} : List ℝ → List β → List β → List β
  | e :: s, a :: A, b :: B => (if e = 1 then a else b) :: mix s A B
  | _, _, _ => []

theorem mix_length {β : Type} (s : List ℝ) (A B : List β) (hA : A.length = s.length) (hB : B.length = s.length) : (mix s A B).length = s.length := by
  induction s generalizing A B with
  | nil => simp [mix]
  | cons e s ih =>
    rcases A with _ | ⟨a, A⟩
    · simp at hA
    rcases B with _ | ⟨b, B⟩
    · simp at hB
    simp only [mix, List.length_cons] at hA hB ⊢
    rw [ih A B (by omega) (by omega)]

theorem mix_perm {β : Type} (s : List ℝ) (A B : List β) (hA : A.length = s.length) (hB : B.length = s.length) :
    (mix s A B ++ mix s B A).Perm (A ++ B) := by
  induction s generalizing A B with
  | nil =>
    rw [List.length_nil, List.length_eq_zero_iff] at hA hB
    subst hA hB
    simp [mix]
  | cons e s ih =>
    rcases A with _ | ⟨a, A⟩
    · simp at hA
    rcases B with _ | ⟨b, B⟩
    · simp at hB
    have h := ih A B (by simpa using hA) (by simpa using hB)
    simp only [mix, List.cons_append]
    by_cases he : e = 1
    · simp only [if_pos he]
      refine .cons _ ?_
      refine List.perm_middle.trans ((List.Perm.cons _ h).trans List.perm_middle.symm)
    · simp only [if_neg he]
      refine (List.Perm.cons _ (List.perm_middle.trans (List.Perm.cons _ h))).trans ?_
      exact (List.Perm.swap _ _ _).trans (List.Perm.cons _ List.perm_middle.symm)

theorem mix_zipWith {β γ δ : Type} (f : β → γ → δ) (s : List ℝ) (A B : List β) (C D : List γ) :
    A.length = s.length → B.length = s.length → C.length = s.length → D.length = s.length →
    mix s (List.zipWith f A C) (List.zipWith f B D) = List.zipWith f (mix s A B) (mix s C D) := by
  induction s generalizing A B C D with
  | nil => simp [mix]
  | cons e s ih =>
    intro hA hB hC hD
    rcases A with _ | ⟨a, A⟩
    · simp at hA
    rcases B with _ | ⟨b, B⟩
    · simp at hB
    rcases C with _ | ⟨c, C⟩
    · simp at hC
    rcases D with _ | ⟨d, D⟩
    · simp at hD
    simp only [List.zipWith_cons_cons, mix]
    rw [ih A B C D (by simpa using hA) (by simpa using hB) (by simpa using hC) (by simpa using hD)]
    split <;> rfl

/-- Exchanging some entries of two halves is a fixed rearrangement. -/
theorem Rearranges.mix (s : List ℝ) : Rearranges (s.length + s.length) fun l =>
    mix s (l.take s.length) (l.drop s.length) ++ mix s (l.drop s.length) (l.take s.length) where
  perm l hl := by
    conv_rhs => rw [← List.take_append_drop s.length l]
    exact mix_perm s _ _ (by rw [List.length_take]; omega) (by rw [List.length_drop]; omega)
  pairs a b ha hb := by
    have a1 : (a.take s.length).length = s.length := by rw [List.length_take]; omega
    have a2 : (a.drop s.length).length = s.length := by rw [List.length_drop]; omega
    have b1 : (b.take s.length).length = s.length := by rw [List.length_take]; omega
    have b2 : (b.drop s.length).length = s.length := by rw [List.length_drop]; omega
    have e : a.zip b = (a.take s.length).zip (b.take s.length) ++ (a.drop s.length).zip (b.drop s.length) := by
      rw [← List.zip_append (by rw [a1, b1]), List.take_append_drop, List.take_append_drop]
    have hz : ∀ c d : List ℝ, c.zip d = List.zipWith Prod.mk c d := fun _ _ => rfl
    rw [e, List.zip_append (by rw [mix_length _ _ _ a1 a2, mix_length _ _ _ b1 b2]), hz, hz, hz, hz, ← mix_zipWith _ _ _ _ _ _ a1 a2 b1 b2, ← mix_zipWith _ _ _ _ _ _ a2 a1 b2 b1]
    exact mix_perm s _ _ (by rw [List.length_zipWith]; omega) (by rw [List.length_zipWith]; omega)
  zip f a b ha hb := by
    have a1 : (a.take s.length).length = s.length := by rw [List.length_take]; omega
    have a2 : (a.drop s.length).length = s.length := by rw [List.length_drop]; omega
    have b1 : (b.take s.length).length = s.length := by rw [List.length_take]; omega
    have b2 : (b.drop s.length).length = s.length := by rw [List.length_drop]; omega
    rw [List.zipWith_append (by rw [mix_length _ _ _ a1 a2, mix_length _ _ _ b1 b2]), ← mix_zipWith _ _ _ _ _ _ a1 a2 b1 b2,
      ← mix_zipWith _ _ _ _ _ _ a2 a1 b2 b1, List.take_zipWith, List.drop_zipWith]

/-- The entries of two halves are exchanged where the third component of a vector stands. -/
def HalvesMixed (l' l : List ℝ) : Prop := ∃ A B : List ℝ, A.length = B.length ∧ l = A ++ B ∧
  l' = mix (mirrorSigns A.length) A B ++ mix (mirrorSigns A.length) B A

theorem mix_sub {s : List ℝ} (hs : IsSigns s) (l p : List ℝ) (hl : l.length = s.length) (hp : p.length = s.length) :
    List.zipWith (· - ·) (flipWith s l) p = mix s (List.zipWith (· - ·) l p) (List.zipWith (· - ·) (l.map fun x => -x) p) ∧
    List.zipWith (· - ·) ((flipWith s l).map fun x => -x) p = mix s (List.zipWith (· - ·) (l.map fun x => -x) p) (List.zipWith (· - ·) l p) := by
  unfold flipWith
  induction s generalizing l p with
  | nil => simp [mix]
  | cons e s ih =>
    rcases l with _ | ⟨x, l⟩
    · simp at hl
    rcases p with _ | ⟨y, p⟩
    · simp at hp
    obtain ⟨h1, h2⟩ := ih (fun e he => hs e (List.mem_cons_of_mem _ he)) l p (by simpa using hl) (by simpa using hp)
    simp only [List.zipWith_cons_cons, List.map_cons, mix, h1, h2]
    rcases hs e (by simp) with rfl | rfl
    · simp
    · norm_num

theorem slackIneq_mirror (l : List ℝ) (U p : Val) :
    HalvesMixed (Quantity.slackIneq (.array (mirrorEntries l)) U p false).entries (Quantity.slackIneq (.array l) U p false).entries := by
  have hneg : ∀ l : List ℝ, (Val.map2 (· / ·) (.array (l.map fun x => -x)) U).entries = (Val.map2 (· / ·) (.array l) U).entries.map fun x => -x :=
    fun l => entries_div_neg l U
  have harr : ∀ l : List ℝ, ∃ m, Val.map2 (· / ·) (.array l) U = .array m := by
    intro l
    cases U <;> exact ⟨_, rfl⟩
  obtain ⟨m, hm⟩ := harr l
  obtain ⟨m', hm'⟩ := harr (mirrorEntries l)
  obtain ⟨n, hn⟩ := harr (l.map fun x => -x)
  obtain ⟨n', hn'⟩ := harr ((mirrorEntries l).map fun x => -x)
  have e1 : m' = mirrorEntries m := by
    have := entries_div_mirror l U
    rw [hm, hm'] at this
    exact this
  have e2 : n = m.map fun x => -x := by
    have := hneg l
    rw [hm, hn] at this
    exact this
  have e3 : n' = (mirrorEntries m).map fun x => -x := by
    have := hneg (mirrorEntries l)
    rw [hm', hn', e1] at this
    exact this
  simp only [Quantity.slackIneq, Val.entries, Val.map, hm, hm', hn, hn', e1, e2, e3, Bool.false_eq_true, if_false]
  rw [mirrorEntries_flip]
  -- both kinds of auxiliary variables
  have key : ∀ q : List ℝ, q.length = m.length → HalvesMixed
      (List.zipWith (· - ·) (flipWith (mirrorSigns m.length) m) q ++ List.zipWith (· - ·) ((flipWith (mirrorSigns m.length) m).map fun x => -x) q)
      (List.zipWith (· - ·) m q ++ List.zipWith (· - ·) (m.map fun x => -x) q) := by
    intro q hq
    have hl : (mirrorSigns m.length).length = m.length := mirrorSigns_length _
    have h := mix_sub (mirrorSigns_signs m.length) m q hl.symm (hq.trans hl.symm)
    refine ⟨_, _, by simp, rfl, ?_⟩
    have : (List.zipWith (· - ·) m q).length = m.length := by simp [hq]
    rw [h.1, h.2, this]
  have hz : ∀ (a : List ℝ) (y : ℝ), a.map (fun x => x - y) = List.zipWith (· - ·) a (List.replicate a.length y) := by
    intro a y
    induction a with
    | nil => rfl
    | cons x a ih => simp [List.replicate_succ, ih]
  have hfl : (flipWith (mirrorSigns m.length) m).length = m.length := by simp [flipWith, mirrorSigns_length]
  cases p with
  | scalar y =>
    have := key (List.replicate m.length y) (by simp)
    simp only [Val.map2]
    rw [hz, hz, hz, hz]
    simpa [hfl] using this
  | array q =>
    simp only [Val.map2]
    generalize hk : min m.length q.length = k
    have ht : ∀ a : List ℝ, a.length = m.length → List.zipWith (· - ·) a q = List.zipWith (· - ·) (a.take k) (q.take k) := by
      intro a ha
      rw [← List.take_zipWith, List.take_of_length_le]
      rw [List.length_zipWith, ha, hk]
    have hf : (flipWith (mirrorSigns m.length) m).take k = flipWith (mirrorSigns k) (m.take k) := by
      unfold flipWith
      rw [List.take_zipWith, mirrorSigns_take _ _ (by omega)]
    rw [ht _ hfl, ht _ (by simp [hfl]), ht m rfl, ht _ (by simp), ← List.map_take, ← List.map_take, hf]
    have hmk : (m.take k).length = k := by rw [List.length_take]; omega
    have hl : (mirrorSigns k).length = k := mirrorSigns_length _
    have h := mix_sub (mirrorSigns_signs k) (m.take k) (q.take k) (by rw [hl, hmk]) (by rw [List.length_take, hl]; omega)
    refine ⟨_, _, by simp, rfl, ?_⟩
    have : (List.zipWith (· - ·) (m.take k) (q.take k)).length = k := by
      rw [List.length_zipWith, List.length_take, List.length_take]
      omega
    rw [h.1, h.2, this]

end Verif
