import Verif.Spec.MakeMap
import Verif.Lemmas.MakeClasses
/-
The map of classes: `AddSample` and the insertion of a class.
-/
namespace Libmorph

/-! ### Orders -/

/-- The order of the two letters. -/
def ClassSuffix.Before (a b : ClassSuffix) : Prop := a.s1 < b.s1 ∨ a.s1 = b.s1 ∧ a.s0 < b.s0

theorem ClassSuffix.lt_iff {a b : ClassSuffix} : a.lt b = true ↔ a.Before b := by
  simp [ClassSuffix.lt, ClassSuffix.Before]

theorem ClassSuffix.same_iff {a b : ClassSuffix} (h : a.accent = b.accent) : a.same b = true ↔ a = b := by
  cases a; cases b
  simp only at h
  subst h
  simp [ClassSuffix.same, and_comm]

theorem ClassSuffix.Before.trans {a b c : ClassSuffix} (h : a.Before b) (h' : b.Before c) : a.Before c := by
  unfold ClassSuffix.Before at *; omega

theorem ClassSuffix.before_irrefl (a : ClassSuffix) : ¬ a.Before a := by unfold ClassSuffix.Before; omega

theorem ClassSuffix.Before.ne {a b : ClassSuffix} (h : a.Before b) : a ≠ b := by
  rintro rfl; exact before_irrefl _ h

theorem ClassSuffix.tri {a b : ClassSuffix} (hs : a.same b = false) : a.Before b ∨ b.Before a := by
  simp only [ClassSuffix.same, Bool.and_eq_false_iff, beq_eq_false_iff_ne] at hs
  unfold ClassSuffix.Before; omega

theorem formsLt_irrefl : ∀ a : List MForm, formsLt a a = false
  | [] => rfl
  | a :: as => by simp [formsLt, MForm.lt_irrefl, formsLt_irrefl as]

theorem formsLt_trans : ∀ {a b c : List MForm}, formsLt a b = true → formsLt b c = true → formsLt a c = true
  | [], b, [], h1, h2 => by cases b <;> simp [formsLt] at h1 h2
  | [], _, _ :: _, _, _ => rfl
  | _ :: _, [], _, h1, _ => by simp [formsLt] at h1
  | _ :: _, _ :: _, [], _, h2 => by simp [formsLt] at h2
  | a :: as, b :: bs, c :: cs, h1, h2 => by
    simp only [formsLt] at h1 h2 ⊢
    rcases MForm.lt_tri a b with hab | hab | rfl
    · rcases MForm.lt_tri b c with hbc | hbc | rfl
      · rw [if_pos (MForm.lt_trans hab hbc)]
      · rw [if_neg (by rw [MForm.lt_asymm hbc]; simp), if_pos hbc] at h2; cases h2
      · rw [if_pos hab]
    · rw [if_neg (by rw [MForm.lt_asymm hab]; simp), if_pos hab] at h1; cases h1
    · rw [if_neg (by rw [MForm.lt_irrefl]; simp), if_neg (by rw [MForm.lt_irrefl]; simp)] at h1
      rcases MForm.lt_tri a c with hbc | hbc | rfl
      · rw [if_pos hbc]
      · rw [if_neg (by rw [MForm.lt_asymm hbc]; simp), if_pos hbc] at h2; cases h2
      · rw [if_neg (by rw [MForm.lt_irrefl]; simp), if_neg (by rw [MForm.lt_irrefl]; simp)] at h2 ⊢
        exact formsLt_trans h1 h2

theorem formsLt_tri : ∀ a b : List MForm, formsLt a b = true ∨ formsLt b a = true ∨ a = b
  | [], [] => .inr (.inr rfl)
  | [], _ :: _ => .inl rfl
  | _ :: _, [] => .inr (.inl rfl)
  | a :: as, b :: bs => by
    simp only [formsLt]
    rcases MForm.lt_tri a b with h | h | rfl
    · simp [h]
    · simp [h]
    · simp only [MForm.lt_irrefl, Bool.false_eq_true, if_false, List.cons.injEq, true_and]
      exact formsLt_tri as bs

theorem ClassKey.lt_iff {a b : ClassKey} : ClassKey.lt a b = true ↔ a.1 < b.1 ∨ a.1 = b.1 ∧ formsLt a.2 b.2 = true := by
  simp [ClassKey.lt]

theorem ClassKey.lt_irrefl (a : ClassKey) : ClassKey.lt a a = false := by simp [ClassKey.lt, formsLt_irrefl]

theorem ClassKey.lt_trans {a b c : ClassKey} (h1 : ClassKey.lt a b = true) (h2 : ClassKey.lt b c = true) : ClassKey.lt a c = true := by
  rw [ClassKey.lt_iff] at *
  rcases h1 with h1 | ⟨h1, h1'⟩ <;> rcases h2 with h2 | ⟨h2, h2'⟩
  · exact .inl (by omega)
  · exact .inl (by omega)
  · exact .inl (by omega)
  · exact .inr ⟨by omega, formsLt_trans h1' h2'⟩

theorem ClassKey.lt_tri (a b : ClassKey) : ClassKey.lt a b = true ∨ ClassKey.lt b a = true ∨ a = b := by
  simp only [ClassKey.lt_iff]
  rcases Nat.lt_trichotomy a.1 b.1 with h | h | h
  · exact .inl (.inl h)
  · rcases formsLt_tri a.2 b.2 with h' | h' | h'
    · exact .inl (.inr ⟨h, h'⟩)
    · exact .inr (.inl (.inr ⟨h.symm, h'⟩))
    · exact .inr (.inr (Prod.ext h h'))
  · exact .inr (.inl (.inl h))

theorem ClassKey.lt_ne {a b : ClassKey} (h : ClassKey.lt a b = true) : a ≠ b := by
  rintro rfl; rw [ClassKey.lt_irrefl] at h; cases h

/-! ### AddSample -/

theorem addSuffix_head (suffix : ClassSuffix) (sample : List Byte) (n : Nat) (forced : Bool) (ss : List ClassSample) (u : ClassSuffix)
    (h1 : ∀ s ∈ ss, u.Before s.suffix) (h2 : u.Before suffix) : ∀ s ∈ addSuffix suffix sample n forced ss, u.Before s.suffix := by
  induction ss with
  | nil => intro s hs; simp only [addSuffix, List.mem_singleton] at hs; subst hs; exact h2
  | cons x xs ih =>
    intro s hs
    simp only [addSuffix] at hs
    split at hs
    · rcases List.mem_cons.1 hs with rfl | hs
      · exact h1 _ (by simp)
      · exact ih (fun s hs => h1 s (by simp [hs])) s hs
    · split at hs
      · rcases List.mem_cons.1 hs with rfl | hs
        · exact h1 x (by simp)
        · exact h1 s (by simp [hs])
      · rcases List.mem_cons.1 hs with rfl | hs
        · exact h2
        · exact h1 s hs

theorem addSuffix_order (suffix : ClassSuffix) (sample : List Byte) (n : Nat) (forced : Bool) (ss : List ClassSample)
    (h : ss.Pairwise fun a b => a.suffix.Before b.suffix) : (addSuffix suffix sample n forced ss).Pairwise fun a b => a.suffix.Before b.suffix := by
  induction ss with
  | nil => simp [addSuffix]
  | cons x xs ih =>
    rw [List.pairwise_cons] at h
    simp only [addSuffix]
    split
    · rename_i hlt
      rw [List.pairwise_cons]
      exact ⟨addSuffix_head _ _ _ _ _ _ h.1 (ClassSuffix.lt_iff.1 hlt), ih h.2⟩
    · rename_i hlt
      split
      · rw [List.pairwise_cons]; exact ⟨h.1, h.2⟩
      · rename_i hs
        rw [List.pairwise_cons, List.pairwise_cons]
        have hb : suffix.Before x.suffix := by
          rcases ClassSuffix.tri (by simpa using hs) with h' | h'
          · exact absurd (ClassSuffix.lt_iff.2 h') hlt
          · exact h'
        refine ⟨fun s hs => ?_, h.1, h.2⟩
        rcases List.mem_cons.1 hs with rfl | hs
        · exact hb
        · exact hb.trans (h.1 s hs)

/-- What is in the vector afterwards. -/
theorem mem_addSuffix (suffix : ClassSuffix) (sample : List Byte) (n : Nat) (forced : Bool) (ss : List ClassSample)
    (h : ss.Pairwise fun a b => a.suffix.Before b.suffix) (ha : ∀ s ∈ ss, s.suffix.accent = suffix.accent) (s : ClassSample) :
    s ∈ addSuffix suffix sample n forced ss ↔ (s ∈ ss ∧ s.suffix ≠ suffix) ∨
      (∃ o ∈ ss, o.suffix = suffix ∧ s = ⟨suffix, if forced then sample else o.sample, o.mdProd + n⟩) ∨
      ((∀ o ∈ ss, o.suffix ≠ suffix) ∧ s = ⟨suffix, sample, n⟩) := by
  induction ss with
  | nil => simp [addSuffix]
  | cons x xs ih =>
    rw [List.pairwise_cons] at h
    have ih := ih h.2 fun s hs => ha s (by simp [hs])
    simp only [addSuffix]
    split
    · rename_i hlt
      have hne := (ClassSuffix.lt_iff.1 hlt).ne
      simp only [List.mem_cons, ih, List.forall_mem_cons, exists_eq_or_imp]
      constructor
      · rintro (rfl | ⟨h1, h2⟩ | h1 | ⟨h1, h2⟩)
        · exact .inl ⟨.inl rfl, hne⟩
        · exact .inl ⟨.inr h1, h2⟩
        · exact .inr (.inl (.inr h1))
        · exact .inr (.inr ⟨fun o ho => ho.elim (fun h => h ▸ hne) (h1 o), h2⟩)
      · rintro (⟨rfl | h1, h2⟩ | (⟨h1, -⟩ | h1) | ⟨h1, h2⟩)
        · exact .inl rfl
        · exact .inr (.inl ⟨h1, h2⟩)
        · exact absurd h1 hne
        · exact .inr (.inr (.inl h1))
        · exact .inr (.inr (.inr ⟨fun o ho => h1 o (.inr ho), h2⟩))
    · rename_i hlt
      split
      · rename_i hs
        have he : x.suffix = suffix := (ClassSuffix.same_iff (ha x (by simp))).1 hs
        have hxs : ∀ y ∈ xs, y.suffix ≠ suffix := fun y hy => by rw [← he]; exact ((h.1 y hy).ne).symm
        rw [List.mem_cons, he]
        constructor
        · rintro (h1 | h1)
          · exact .inr (.inl ⟨x, by simp, he, h1⟩)
          · exact .inl ⟨by simp [h1], hxs s h1⟩
        · rintro (⟨h1, h2⟩ | ⟨o, ho, h1, h2⟩ | ⟨h1, -⟩)
          · rcases List.mem_cons.1 h1 with rfl | h1
            · exact absurd he h2
            · exact .inr h1
          · rcases List.mem_cons.1 ho with rfl | ho
            · exact .inl h2
            · exact absurd h1 (hxs o ho)
          · exact absurd he (h1 x (by simp))
      · rename_i hs
        have hb : suffix.Before x.suffix := by
          rcases ClassSuffix.tri (by simpa using hs) with h' | h'
          · exact absurd (ClassSuffix.lt_iff.2 h') hlt
          · exact h'
        have hno : ∀ y ∈ x :: xs, y.suffix ≠ suffix := by
          intro y hy
          rcases List.mem_cons.1 hy with rfl | hy
          · exact hb.ne.symm
          · exact (hb.trans (h.1 y hy)).ne.symm
        rw [List.mem_cons]
        constructor
        · rintro (h1 | h1)
          · exact .inr (.inr ⟨hno, h1⟩)
          · exact .inl ⟨h1, hno s h1⟩
        · rintro (⟨h1, -⟩ | ⟨o, ho, h1, -⟩ | ⟨-, h1⟩)
          · exact .inr h1
          · exact absurd h1 (hno o ho)
          · exact .inl h1

/-! ### The map -/

theorem put_spec (k : ClassKey) (suffix : ClassSuffix) (sample : List Byte) (forced : Bool) (m : ClassMap)
    (h : m.Pairwise fun a b => ClassKey.lt a.1 b.1 = true) :
    ((∃ v, (k, v) ∈ m ∧ v.add suffix sample 1 forced = .threw) → m.put k suffix sample forced = .threw) ∧
    ((∀ v, (k, v) ∈ m → ∃ v', v.add suffix sample 1 forced = .done v') → ∃ m', m.put k suffix sample forced = .done m' ∧
      (m'.Pairwise fun a b => ClassKey.lt a.1 b.1 = true) ∧
      (∀ u, (∀ e ∈ m, ClassKey.lt u e.1 = true) → ClassKey.lt u k = true → ∀ e ∈ m', ClassKey.lt u e.1 = true) ∧
      ∀ e, e ∈ m' ↔ (e ∈ m ∧ e.1 ≠ k) ∨ (∃ v, (k, v) ∈ m ∧ e.1 = k ∧ v.add suffix sample 1 forced = .done e.2) ∨
        ((∀ d ∈ m, d.1 ≠ k) ∧ e = (k, ⟨[⟨suffix, sample, 1⟩], 1, suffix.accent⟩))) := by
  induction m with
  | nil =>
    refine ⟨by simp, fun _ => ⟨_, rfl, by simp, ?_, by simp⟩⟩
    intro u _ hu e he
    simp only [List.mem_singleton] at he
    subst he
    exact hu
  | cons x xs ih =>
    obtain ⟨k', v⟩ := x
    rw [List.pairwise_cons] at h
    obtain ⟨ih1, ih2⟩ := ih h.2
    simp only [ClassMap.put]
    split
    · rename_i hlt
      have hne : k' ≠ k := ClassKey.lt_ne hlt
      constructor
      · rintro ⟨v', hv, ht⟩
        rcases List.mem_cons.1 hv with hv | hv
        · exact absurd (congrArg Prod.fst hv).symm hne
        · rw [ih1 ⟨v', hv, ht⟩]; rfl
      · intro hd
        obtain ⟨m', h1, h2, h3, h4⟩ := ih2 fun v hv => hd v (by simp [hv])
        refine ⟨(k', v) :: m', by rw [h1]; rfl, ?_, ?_, fun e => ?_⟩
        · rw [List.pairwise_cons]
          exact ⟨h3 k' h.1 hlt, h2⟩
        · intro u hu huk e he
          rcases List.mem_cons.1 he with rfl | he
          · exact hu _ (by simp)
          · exact h3 u (fun e he => hu e (by simp [he])) huk e he
        · simp only [List.mem_cons, h4]
          constructor
          · rintro (rfl | ⟨h5, h6⟩ | ⟨v', h5, h6⟩ | ⟨h5, h6⟩)
            · exact .inl ⟨.inl rfl, hne⟩
            · exact .inl ⟨.inr h5, h6⟩
            · exact .inr (.inl ⟨v', .inr h5, h6⟩)
            · refine .inr (.inr ⟨?_, h6⟩)
              rintro d (rfl | hd')
              · exact hne
              · exact h5 d hd'
          · rintro (⟨rfl | h5, h6⟩ | ⟨v', h5 | h5, h6⟩ | ⟨h5, h6⟩)
            · exact .inl rfl
            · exact .inr (.inl ⟨h5, h6⟩)
            · exact absurd (congrArg Prod.fst h5).symm hne
            · exact .inr (.inr (.inl ⟨v', h5, h6⟩))
            · exact .inr (.inr (.inr ⟨fun d hd' => h5 d (.inr hd'), h6⟩))
    · rename_i hlt
      split
      · rename_i hlt'
        have hno : ∀ d ∈ (k', v) :: xs, d.1 ≠ k := by
          intro d hd
          rcases List.mem_cons.1 hd with rfl | hd
          · exact (ClassKey.lt_ne hlt').symm
          · exact (ClassKey.lt_ne (ClassKey.lt_trans hlt' (h.1 d hd))).symm
        constructor
        · rintro ⟨v', hv, -⟩
          exact absurd rfl (hno _ hv)
        · intro _
          refine ⟨_, rfl, ?_, ?_, fun e => ?_⟩
          · rw [List.pairwise_cons, List.pairwise_cons]
            refine ⟨fun d hd => ?_, h.1, h.2⟩
            rcases List.mem_cons.1 hd with rfl | hd
            · exact hlt'
            · exact ClassKey.lt_trans hlt' (h.1 d hd)
          · intro u hu huk e he
            rcases List.mem_cons.1 he with rfl | he
            · exact huk
            · exact hu e he
          · rw [List.mem_cons]
            constructor
            · rintro (h5 | h5)
              · exact .inr (.inr ⟨hno, h5⟩)
              · exact .inl ⟨h5, hno e h5⟩
            · rintro (⟨h5, -⟩ | ⟨v', h5, -⟩ | ⟨-, h5⟩)
              · exact .inr h5
              · exact absurd rfl (hno _ h5)
              · exact .inl h5
      · rename_i hlt'
        have he : k' = k := by
          rcases ClassKey.lt_tri k' k with h5 | h5 | h5
          · exact absurd h5 hlt
          · exact absurd h5 hlt'
          · exact h5
        subst he
        have hxs : ∀ d ∈ xs, d.1 ≠ k' := fun d hd => (ClassKey.lt_ne (h.1 d hd)).symm
        constructor
        · rintro ⟨v', hv, ht⟩
          rcases List.mem_cons.1 hv with hv | hv
          · cases hv; rw [ht]; rfl
          · exact absurd rfl (hxs _ hv)
        · intro hd
          obtain ⟨v', hv'⟩ := hd v (by simp)
          refine ⟨(k', v') :: xs, by rw [hv']; rfl, ?_, ?_, fun e => ?_⟩
          · rw [List.pairwise_cons]; exact ⟨h.1, h.2⟩
          · intro u hu huk e he
            rcases List.mem_cons.1 he with rfl | he
            · exact huk
            · exact hu e (by simp [he])
          · simp only [List.mem_cons]
            constructor
            · rintro (rfl | h5)
              · exact .inr (.inl ⟨v, .inl rfl, rfl, hv'⟩)
              · exact .inl ⟨.inr h5, hxs e h5⟩
            · rintro (⟨rfl | h5, h6⟩ | ⟨v'', h5 | h5, h6, h7⟩ | ⟨h5, h6⟩)
              · exact absurd rfl h6
              · exact .inr h5
              · cases h5
                rw [hv'] at h7
                cases h7
                exact .inl (Prod.ext h6 rfl)
              · exact absurd rfl (hxs _ h5)
              · exact absurd rfl (h5 _ (.inl rfl))

end Libmorph
