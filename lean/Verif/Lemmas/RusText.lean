import Verif.Model.RusText
import Verif.Spec.RusText
import Verif.Lemmas.EngText
import Verif.Lemmas.TabLine
import Mathlib.Tactic.IntervalCases
import Mathlib.Data.List.Nodup
/-
The words and marks of a line of the Russian dictionary.
-/
namespace Libmorph
open Libmorph.Spec

theorem getSubtext_iff (n : Nat) (s w r : List Byte) : getSubtext n s = some (w, r) ↔ NextWord s w r ∧ w.length < n := by
  simp only [getSubtext]
  obtain ⟨w1, w2, w3⟩ := (solid_split (s := s)).1 ⟨rfl, rfl⟩
  obtain ⟨b1, b2, b3⟩ := (blanks_split (s := s.dropWhile fun c => !isBlank c)).1 ⟨rfl, rfl⟩
  constructor
  · intro h
    split at h
    · simp at h
    rename_i hn
    simp only [Option.some.injEq, Prod.mk.injEq] at h
    obtain ⟨rfl, rfl⟩ := h
    refine ⟨⟨(s.dropWhile fun c => !isBlank c).takeWhile isBlank, ?_, w2, b2, ?_, b3⟩, by omega⟩
    · rw [List.append_assoc, ← b1]; exact w1
    · intro h0
      rw [h0, List.nil_append] at b1
      cases hd : (s.dropWhile fun c => !isBlank c).dropWhile isBlank with
      | nil => rfl
      | cons c t =>
        rw [hd] at b1 b3
        exact absurd (w3 c (by rw [b1]; rfl)) (b3 c rfl)
  · rintro ⟨⟨gap, e, h1, h2, h3, h4⟩, hn⟩
    have t1 := (solid_split (s := s) (x := w) (y := gap ++ r)).2 ⟨by rw [e, List.append_assoc], h1, by
      intro c hc
      cases gap with
      | nil => rw [h3 rfl] at hc; simp at hc
      | cons g gap => exact h2 c (by simp at hc; simp [hc])⟩
    have t2 := (blanks_split (s := gap ++ r) (x := gap) (y := r)).2 ⟨rfl, h2, h4⟩
    rw [t1.1, t1.2, if_neg (by omega), t2.2]

theorem NextWord_unique {s w r w' r' : List Byte} (h : NextWord s w r) (h' : NextWord s w' r') : w = w' ∧ r = r' := by
  have a := (getSubtext_iff (w.length + w'.length + 1) s w r).2 ⟨h, by omega⟩
  have b := (getSubtext_iff (w.length + w'.length + 1) s w' r').2 ⟨h', by omega⟩
  rw [a] at b
  simpa using b

theorem RusFields_unique {s n d t i c n' d' t' i' c' : List Byte} (h : RusFields s n d t i c) (h' : RusFields s n' d' t' i' c') :
    n = n' ∧ d = d' ∧ t = t' ∧ i = i' ∧ c = c' := by
  obtain ⟨r1, r2, r3, a1, a2, a3, a4⟩ := h
  obtain ⟨q1, q2, q3, b1, b2, b3, b4⟩ := h'
  obtain ⟨rfl, rfl⟩ := NextWord_unique a1 b1
  obtain ⟨rfl, rfl⟩ := NextWord_unique a2 b2
  obtain ⟨rfl, rfl⟩ := NextWord_unique a3 b3
  obtain ⟨rfl, rfl⟩ := NextWord_unique a4 b4
  simp

theorem NextWord_exists (s : List Byte) : ∃ w r, NextWord s w r := by
  have := (getSubtext_iff ((s.takeWhile fun c => !isBlank c).length + 1) s (s.takeWhile fun c => !isBlank c)
    ((s.dropWhile fun c => !isBlank c).dropWhile isBlank)).1 (by rw [getSubtext]; simp)
  exact ⟨_, _, this.1⟩

theorem RusFields_exists (s : List Byte) : ∃ n d t i c, RusFields s n d t i c := by
  obtain ⟨n, r1, h1⟩ := NextWord_exists s
  obtain ⟨d, r2, h2⟩ := NextWord_exists r1
  obtain ⟨t, r3, h3⟩ := NextWord_exists r2
  obtain ⟨i, c, h4⟩ := NextWord_exists r3
  exact ⟨n, d, t, i, c, r1, r2, r3, h1, h2, h3, h4⟩

/-! ### The type -/

/-- The names of the types in the order of the model, by class and type. -/
def typePairs : List ((List Byte × List Byte) × Nat) :=
  (wordTypes.map fun x => x.2.2.map fun p => ((ru p.1, ru p.2), typeBits x.1 x.2.1)).flatten

theorem typePairs_solid : ∀ p ∈ typePairs, 32 ∉ p.1.1 ∧ 32 ∉ p.1.2 ∧ p.2 ≠ 0 := by decide +kernel

theorem typesMap_pairs : (∀ p ∈ typesMap, ∃ q ∈ typePairs, utf8to1251 p.1 = q.1.1 ++ 32 :: q.1.2 ∧ p.2 = q.2) := by decide +kernel

theorem typePairs_map : ∀ q ∈ typePairs, typeOf (q.1.1 ++ 32 :: q.1.2) = q.2 := by decide +kernel

theorem typePairs_iff (d t : List Byte) (w : Nat) : ((d, t), w) ∈ typePairs ↔ ∃ pos plural, TypeIs d t pos plural ∧ w = typeBits pos plural := by
  simp only [typePairs, List.mem_flatten, List.mem_map, TypeIs, Prod.exists]
  constructor
  · rintro ⟨_, ⟨pos, plural, names, hx, rfl⟩, h⟩
    simp only [List.mem_map, Prod.mk.injEq, Prod.exists] at h
    obtain ⟨a, b, hp, ⟨rfl, rfl⟩, rfl⟩ := h
    exact ⟨pos, plural, ⟨names, hx, a, b, hp, rfl, rfl⟩, rfl⟩
  · rintro ⟨pos, plural, ⟨names, hx, a, b, hp, rfl, rfl⟩, rfl⟩
    exact ⟨_, ⟨pos, plural, names, hx, rfl⟩, List.mem_map.2 ⟨(a, b), hp, rfl⟩⟩

theorem space_split {a b c d : List Byte} (ha : 32 ∉ a) (hc : 32 ∉ c) (h : a ++ 32 :: b = c ++ 32 :: d) : a = c ∧ b = d := by
  induction a generalizing c with
  | nil =>
    cases c with
    | nil => simpa using h
    | cons x c => simp at h; exact absurd h.1 (by rintro rfl; simp at hc)
  | cons x a ih =>
    cases c with
    | nil => simp at h; exact absurd h.1 (by rintro rfl; simp at ha)
    | cons y c =>
      simp only [List.cons_append, List.cons.injEq] at h
      obtain ⟨rfl, rfl⟩ := ih (fun h' => ha (by simp [h'])) (fun h' => hc (by simp [h'])) h.2
      simp [h.1]

theorem typeOf_iff (d t : List Byte) (hd : Solid d) (w : Nat) (hw : w ≠ 0) : typeOf (d ++ 32 :: t) = w ↔
    ∃ pos plural, TypeIs d t pos plural ∧ w = typeBits pos plural := by
  rw [← typePairs_iff]
  have h32 : 32 ∉ d := fun h => hd 32 h (by decide)
  constructor
  · intro h
    rw [typeOf] at h
    cases hf : typesMap.find? (fun p => utf8to1251 p.1 = d ++ 32 :: t) with
    | none => rw [hf] at h; exact absurd h.symm hw
    | some p =>
      rw [hf] at h
      simp only [Option.map_some, Option.getD_some] at h
      subst h
      have e := List.find?_some hf
      simp only [decide_eq_true_eq] at e
      obtain ⟨q, hq, e1, e2⟩ := typesMap_pairs p (List.mem_of_find?_eq_some hf)
      rw [e] at e1
      obtain ⟨rfl, rfl⟩ := space_split h32 (typePairs_solid q hq).1 e1
      rw [e2]; exact hq
  · exact fun h => typePairs_map _ h

theorem typeOf_zero (d t : List Byte) (hd : Solid d) : typeOf (d ++ 32 :: t) = 0 ↔ ¬ ∃ pos plural, TypeIs d t pos plural := by
  constructor
  · rintro h ⟨pos, plural, hp⟩
    have := (typePairs_iff d t (typeBits pos plural)).2 ⟨pos, plural, hp, rfl⟩
    have h1 := typePairs_map _ this
    have h2 := (typePairs_solid _ this).2.2
    simp only at h1 h2
    rw [h] at h1; exact h2 h1.symm
  · intro h
    refine Classical.byContradiction fun h0 => h ?_
    obtain ⟨pos, plural, hp, _⟩ := (typeOf_iff d t hd _ h0).1 rfl
    exact ⟨pos, plural, hp⟩

theorem wordTypes_pos : ∀ x ∈ wordTypes, 1 ≤ x.1 ∧ x.1 < 63 ∧ (x.1 ≤ 6 → x.2.1 = false) := by decide +kernel

theorem TypeIs_pos {d t : List Byte} {pos : Nat} {plural : Bool} (h : TypeIs d t pos plural) : 1 ≤ pos ∧ pos < 63 ∧ (pos ≤ 6 → plural = false) := by
  obtain ⟨names, hx, _⟩ := h
  exact wordTypes_pos _ hx

theorem typeBits_and {pos : Nat} {plural : Bool} (h : pos < 63) : typeBits pos plural &&& 0x3f = pos := by
  rw [show (0x3f : Nat) = 2 ^ 6 - 1 from rfl, Nat.and_two_pow_sub_one_eq_mod, typeBits]
  split <;> omega

theorem TypeIs_unique {d t : List Byte} {pos pos' : Nat} {plural plural' : Bool} (h : TypeIs d t pos plural) (h' : TypeIs d t pos' plural') :
    pos = pos' ∧ plural = plural' := by
  have a := typePairs_map _ ((typePairs_iff d t _).2 ⟨pos, plural, h, rfl⟩)
  have b := typePairs_map _ ((typePairs_iff d t _).2 ⟨pos', plural', h', rfl⟩)
  have e : typeBits pos plural = typeBits pos' plural' := a.symm.trans b
  have p := (TypeIs_pos h).2.1
  have p' := (TypeIs_pos h').2.1
  rw [typeBits, typeBits] at e
  cases plural <;> cases plural' <;> simp at e ⊢ <;> omega

/-! ### The marks of usage -/

theorem flag_words : utf8to1251 "{превосх.}" = ru "{превосх.}" ∧ utf8to1251 "{исчисл.}" = ru "{исчисл.}" ∧ utf8to1251 "{разг.}" = ru "{разг.}" ∧
    utf8to1251 "{руг.}" = ru "{руг.}" := by decide +kernel

theorem strstr_occurs (m s : List Byte) : (strstrAt m s).isSome = true ↔ Occurs m s := by
  rw [Option.isSome_iff_ne_none, Ne, strstrAt_none]
  simp only [Occurs, ne_eq, not_forall, Classical.not_not]

theorem lexFlags_eq (comm : List Byte) : lexFlags comm = usageBits comm := by
  have k1 := strstr_occurs (utf8to1251 "{превосх.}") comm
  have k2 := strstr_occurs (utf8to1251 "{исчисл.}") comm
  have k3 := strstr_occurs (utf8to1251 "{разг.}") comm
  have k4 := strstr_occurs (utf8to1251 "{руг.}") comm
  conv at k1 => rhs; rw [flag_words.1]
  conv at k2 => rhs; rw [flag_words.2.1]
  conv at k3 => rhs; rw [flag_words.2.2.1]
  conv at k4 => rhs; rw [flag_words.2.2.2]
  rw [lexFlags, lexFlagList, usageBits, List.foldl_cons, List.foldl_cons, List.foldl_cons, List.foldl_cons, List.foldl_nil]
  revert k1 k2 k3 k4
  generalize (strstrAt (utf8to1251 "{превосх.}") comm).isSome = b1
  generalize (strstrAt (utf8to1251 "{исчисл.}") comm).isSome = b2
  generalize (strstrAt (utf8to1251 "{разг.}") comm).isSome = b3
  generalize (strstrAt (utf8to1251 "{руг.}") comm).isSome = b4
  generalize Occurs (ru "{превосх.}") comm = p1
  generalize Occurs (ru "{исчисл.}") comm = p2
  generalize Occurs (ru "{разг.}") comm = p3
  generalize Occurs (ru "{руг.}") comm = p4
  intro k1 k2 k3 k4
  simp only [← k1, ← k2, ← k3, ← k4]
  cases b1 <;> cases b2 <;> cases b3 <;> cases b4 <;> simp

/-- The marks of usage are bits 7 to 10. -/
theorem usageBits_shape (comm : List Byte) : ∃ k < 16, usageBits comm = 128 * k := by
  simp only [usageBits]
  by_cases h1 : Occurs (ru "{превосх.}") comm <;> by_cases h2 : Occurs (ru "{исчисл.}") comm <;> by_cases h3 : Occurs (ru "{разг.}") comm <;>
    by_cases h4 : Occurs (ru "{руг.}") comm <;> simp only [h1, h2, h3, h4, if_true, if_false] <;> decide

theorem typeBits_lt {pos : Nat} {plural : Bool} (h : pos < 63) : typeBits pos plural < 128 := by rw [typeBits]; split <;> omega

theorem typeBits_or {pos : Nat} {plural : Bool} (h : pos < 63) (comm : List Byte) :
    typeBits pos plural ||| lexFlags comm = typeBits pos plural + usageBits comm := by
  rw [lexFlags_eq]
  obtain ⟨k, _, e⟩ := usageBits_shape comm
  rw [e, Nat.or_comm, show 128 * k = 2 ^ 7 * k from rfl, ← Nat.two_pow_add_eq_or_of_lt (typeBits_lt h), Nat.add_comm]

theorem getPostfix_iff (s post : List Byte) : getPostfix s = post ↔ PostText s post := by
  have := findStemPostfix_iff s post
  rw [show getPostfix s = findStemPostfix s from rfl, this, PostText]
  simp only [Occurs, not_exists, ne_eq]

theorem cleanNorm_eq (s : List Byte) : cleanNorm s = plainWord s := rfl

theorem cutBack_iff (s b : List Byte) (n : Nat) : cutBack s n = some b ↔ ∃ cut, s = b ++ cut ∧ cut.length = n := by
  rw [cutBack]
  constructor
  · intro h
    split at h
    · cases h
      exact ⟨s.drop (s.length - n), (List.take_append_drop _ _).symm, by rw [List.length_drop]; omega⟩
    · simp at h
  · rintro ⟨cut, rfl, rfl⟩
    rw [if_pos (by simp)]
    simp

/-! ### The remark -/

theorem getRemark_spec : ∀ s, RemarkText s (getRemark s)
  | [] => Or.inr ⟨rfl, by rintro ⟨b, r, a, h, _⟩; have := congrArg List.length h; simp at this⟩
  | c :: s => by
    rw [getRemark]
    obtain ⟨w1, w2, w3⟩ := (split_while (p := fun c => c ≠ 45 && !isBlank c) (s := s)).1 ⟨rfl, rfl⟩
    have hsol : Solid (s.takeWhile fun c => c ≠ 45 && !isBlank c) ∧ 45 ∉ s.takeWhile fun c => c ≠ 45 && !isBlank c := by
      constructor
      · intro x hx
        have := w2 x hx
        simp only [ne_eq, decide_not, Bool.and_eq_true, Bool.not_eq_true', isBlank_false] at this
        exact this.2
      · intro hx
        have := w2 45 hx
        simp at this
    by_cases h : c = 45 ∧ (s.dropWhile fun c => c ≠ 45 && !isBlank c).head? = some 45
    · rw [if_pos h]
      left
      obtain ⟨rfl, hh⟩ := h
      cases hd : s.dropWhile fun c => c ≠ 45 && !isBlank c with
      | nil => rw [hd] at hh; simp at hh
      | cons x t =>
        rw [hd] at hh w1
        simp only [List.head?_cons, Option.some.injEq] at hh
        subst hh
        exact ⟨[], t, by rw [List.nil_append, List.cons_append, ← w1], hsol.1, hsol.2, fun b r a _ _ _ => Nat.zero_le _⟩
    · rw [if_neg h]
      have key : ∀ b r a, c :: s = b ++ 45 :: r ++ 45 :: a → Solid r → 45 ∉ r → ∃ b', b = c :: b' ∧ s = b' ++ 45 :: r ++ 45 :: a := by
        intro b r a e hr h45
        cases b with
        | nil =>
          exfalso
          simp only [List.nil_append, List.cons_append, List.cons.injEq] at e
          obtain ⟨rfl, rfl⟩ := e
          apply h
          have t := (split_while (p := fun c => c ≠ 45 && !isBlank c) (s := r ++ 45 :: a) (x := r) (y := 45 :: a)).2
            ⟨rfl, by
              intro x hx
              simp only [ne_eq, decide_not, Bool.and_eq_true, Bool.not_eq_true', decide_eq_false_iff_not]
              exact ⟨fun e => h45 (e ▸ hx), by rw [isBlank_false]; exact hr x hx⟩, by simp⟩
          exact ⟨rfl, by rw [t.2]; rfl⟩
        | cons x b => exact ⟨b, by simp at e; simp [e], by simp at e; simpa using e.2⟩
      rcases getRemark_spec s with ⟨before, after, e, h1, h2, h3⟩ | ⟨e, hno⟩
      · refine Or.inl ⟨c :: before, after, by rw [List.cons_append, List.cons_append, ← e], h1, h2, ?_⟩
        intro b r a e' hr h45
        obtain ⟨b', rfl, e''⟩ := key b r a e' hr h45
        have := h3 b' r a e'' hr h45
        simp only [List.length_cons]; omega
      · refine Or.inr ⟨e, ?_⟩
        rintro ⟨b, r, a, e', hr, h45⟩
        obtain ⟨b', rfl, e''⟩ := key b r a e' hr h45
        exact hno ⟨b', r, a, e'', hr, h45⟩

theorem RemarkText_unique {s r r' : List Byte} (h : RemarkText s r) (h' : RemarkText s r') : r = r' := by
  rcases h with ⟨b, a, e, h1, h2, h3⟩ | ⟨e, hno⟩ <;> rcases h' with ⟨b', a', e', h1', h2', h3'⟩ | ⟨e', hno'⟩
  · have l1 := h3 b' r' a' e' h1' h2'
    have l2 := h3' b r a e h1 h2
    have hl : b.length = b'.length := by omega
    rw [e] at e'
    simp only [List.append_assoc] at e'
    obtain ⟨rfl, e''⟩ := List.append_inj e' hl
    simp only [List.cons_append, List.cons.injEq, true_and] at e''
    -- the first hyphen after the word
    clear e h3 h3' l1 l2 hl e' h1 h1'
    induction r generalizing r' with
    | nil =>
      cases r' with
      | nil => rfl
      | cons x r' => simp at e''; exact absurd (by simp [e''.1]) h2'
    | cons x r ih =>
      cases r' with
      | nil => simp at e''; exact absurd (by simp [e''.1]) h2
      | cons y r' =>
        simp only [List.cons_append, List.cons.injEq] at e''
        rw [e''.1, ih (fun h => h2 (by simp [h])) (fun h => h2' (by simp [h])) e''.2]
  · exact absurd ⟨b, r, a, e, h1, h2⟩ hno'
  · exact absurd ⟨b', r', a', e', h1', h2'⟩ hno
  · rw [e, e']

theorem getRemark_iff (s r : List Byte) : getRemark s = r ↔ RemarkText s r :=
  ⟨fun h => h ▸ getRemark_spec s, fun h => RemarkText_unique (getRemark_spec s) h⟩

/-! ### The scale of cases -/

theorem case_words : utf8to1251 "ИРДВТП" = caseNames ∧ utf8to1251 "ШП:" = ru "ШП:" ∧ (ru "ШП:").length = 3 ∧ caseNames.Nodup ∧ caseNames.length = 6 := by
  decide +kernel

theorem caseLetters_spec : ∀ (s : List Byte) (u : Nat), u < 64 → ∃ letters rest, s = letters ++ rest ∧ (∀ c ∈ letters, c ∈ caseNames) ∧
    (∀ c, rest.head? = some c → c ∉ caseNames) ∧ caseLetters s u < 64 ∧
    ∀ n c, caseNames[n]? = some c → ((caseLetters s u).testBit n = true ↔ u.testBit n = true ∨ c ∈ letters)
  | [], u, h => ⟨[], [], rfl, by simp, by simp, h, by simp [caseLetters]⟩
  | x :: s, u, h => by
    rw [caseLetters, case_words.1]
    cases hi : caseNames.idxOf? x with
    | none =>
      rw [List.idxOf?_eq_none_iff] at hi
      exact ⟨[], x :: s, rfl, by simp, by simpa using hi, h, by simp⟩
    | some n =>
      have hn := List.idxOf?_eq_some_iff.1 hi
      obtain ⟨hlt, hx, _⟩ := hn
      have hn6 : n < 6 := by rw [← case_words.2.2.2.2]; exact hlt
      have hu : u ||| 1 <<< n < 64 := by
        rw [show (64 : Nat) = 2 ^ 6 from rfl]
        apply Nat.or_lt_two_pow (by simpa using h)
        rw [Nat.one_shiftLeft]; exact Nat.pow_lt_pow_right (by decide) hn6
      obtain ⟨letters, rest, e, h1, h2, h3, h4⟩ := caseLetters_spec s (u ||| 1 <<< n) hu
      refine ⟨x :: letters, rest, by rw [e]; rfl, ?_, h2, h3, ?_⟩
      · intro c hc
        rcases List.mem_cons.1 hc with rfl | hc
        · rw [← hx]; exact List.getElem_mem _
        · exact h1 c hc
      · intro m c hm
        show (caseLetters s (u ||| 1 <<< n)).testBit m = true ↔ _
        rw [h4 m c hm, Nat.testBit_or, Nat.one_shiftLeft, Nat.testBit_two_pow, List.mem_cons]
        have : n = m ↔ c = x := by
          rw [List.getElem?_eq_some_iff] at hm
          obtain ⟨hml, rfl⟩ := hm
          rw [← hx]
          exact ⟨fun e => by subst e; rfl, fun e => ((case_words.2.2.2.1.getElem_inj_iff).1 e).symm⟩
        simp only [Bool.or_eq_true, decide_eq_true_eq, this, or_assoc]

theorem caseScale_iff (s : List Byte) (u : Nat) : caseScale s = u ↔ ScaleText s u := by
  have key : ScaleText s (caseScale s) := by
    rw [caseScale, case_words.2.1]
    cases h : strstrAt (ru "ШП:") s with
    | none =>
      rw [strstrAt_none] at h
      exact Or.inl ⟨rfl, by rintro ⟨b, a, e⟩; exact h b a e⟩
    | some p =>
      obtain ⟨b, f⟩ := p
      obtain ⟨a, rfl, hf⟩ := (strstrAt_some _ _ _ _).1 h
      obtain ⟨letters, rest, e, h1, h2, h3, h4⟩ := caseLetters_spec a 0 (by decide)
      refine Or.inr ⟨b, letters, rest, by rw [← e]; exact hf, h1, h2, ?_, ?_⟩
      · simpa [case_words.2.2.1] using h3
      · intro n c hc
        have := h4 n c hc
        simp only [Nat.zero_testBit, Bool.false_eq_true, false_or] at this
        rw [← this]
        simp [case_words.2.2.1]
  constructor
  · intro h; rw [← h]; exact key
  · intro h
    revert key
    generalize caseScale s = v
    intro key
    rcases h with ⟨rfl, hno⟩ | ⟨b, l, r, hf, h1, h2, h3, h4⟩ <;> rcases key with ⟨rfl, hno'⟩ | ⟨b', l', r', hf', h1', h2', h3', h4'⟩
    · rfl
    · exact absurd ⟨b', _, hf'.1⟩ hno
    · exact absurd ⟨b, _, hf.1⟩ hno'
    · obtain ⟨rfl, e⟩ := FirstMark_unique hf hf'
      have hl : l = l' := by
        have t := (split_while (p := fun c => decide (c ∈ caseNames)) (s := l ++ r) (x := l) (y := r)).2
          ⟨rfl, by simpa using h1, by simpa using h2⟩
        have t' := (split_while (p := fun c => decide (c ∈ caseNames)) (s := l ++ r) (x := l') (y := r')).2
          ⟨e, by simpa using h1', by simpa using h2'⟩
        rw [← t.1, ← t'.1]
      subst hl
      apply Nat.eq_of_testBit_eq
      intro n
      by_cases hn : n < 6
      · have hc : ∃ c, caseNames[n]? = some c := ⟨_, List.getElem?_eq_getElem (by rw [case_words.2.2.2.2]; exact hn)⟩
        obtain ⟨c, hc⟩ := hc
        rw [Bool.eq_iff_iff, h4 n c hc, h4' n c hc]
      · rw [Nat.testBit_lt_two_pow, Nat.testBit_lt_two_pow]
        · exact Nat.lt_of_lt_of_le h3 (by rw [show (64 : Nat) = 2 ^ 6 from rfl]; exact Nat.pow_le_pow_right (by decide) (by omega))
        · exact Nat.lt_of_lt_of_le h3' (by rw [show (64 : Nat) = 2 ^ 6 from rfl]; exact Nat.pow_le_pow_right (by decide) (by omega))

end Libmorph
