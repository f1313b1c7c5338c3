import Verif.Lemmas.Text
import Mathlib.Data.List.Forall2
/-
One line of the source text of the English dictionary.
-/
namespace Libmorph
open Spec

theorem mapPartOfSpeech_iff (ps : List Byte) (n : Nat) :
    mapPartOfSpeech ps = some n ↔ ∃ name, (n, name) ∈ posNames ∧ ps = name.toList.map Char.toNat := by
  have h1 : ∀ p ∈ partSpMapper, (p.2, p.1) ∈ posNames := by decide +kernel
  have h2 : ∀ q ∈ posNames, mapPartOfSpeech (q.2.toList.map Char.toNat) = some q.1 := by decide +kernel
  constructor
  · intro h
    obtain ⟨p, hp, rfl⟩ := Option.map_eq_some_iff.1 h
    refine ⟨p.1, h1 p (List.mem_of_find?_eq_some hp), ?_⟩
    have := List.find?_some hp
    simp only [decide_eq_true_eq] at this
    exact this.symm
  · rintro ⟨name, h, rfl⟩
    exact h2 _ h

theorem litBytes_post : litBytes "post:" = postMark := by decide +kernel
theorem litBytes_lid : litBytes "LID:" = lidMark := by decide +kernel

theorem solid_split {s x y : List Byte} :
    (s.takeWhile (fun c => !isBlank c) = x ∧ s.dropWhile (fun c => !isBlank c) = y) ↔ s = x ++ y ∧ Solid x ∧ Ends y := by
  rw [split_while]
  simp only [Solid, Ends, Bool.not_eq_true', isBlank_false, Bool.not_eq_false', isBlank_iff]

theorem blanks_split {s x y : List Byte} :
    (s.takeWhile isBlank = x ∧ s.dropWhile isBlank = y) ↔ s = x ++ y ∧ Blanks x ∧ ∀ c, y.head? = some c → ¬ Blank c := by
  rw [split_while]
  simp only [Blanks, isBlank_false, isBlank_iff]

theorem findStemPostfix_iff (s post : List Byte) : findStemPostfix s = post ↔
    ((post = [] ∧ ∀ b t, s ≠ b ++ postMark ++ t) ∨
      ∃ before after skip tail, FirstMark postMark s before after ∧ after = skip ++ post ++ tail ∧ Blanks skip ∧ Solid post ∧ Ends tail ∧
        (post = [] → tail = [])) := by
  rw [findStemPostfix, litBytes_post]
  cases h : strstrAt postMark s with
  | none =>
    have hn := (strstrAt_none _ _).1 h
    constructor
    · rintro rfl; exact Or.inl ⟨rfl, hn⟩
    · rintro (⟨rfl, _⟩ | ⟨b, a, _, _, hf, _⟩)
      · rfl
      · exact absurd hf.1 (hn _ _)
  | some q =>
    obtain ⟨b, f⟩ := q
    obtain ⟨a, rfl, hf⟩ := (strstrAt_some _ _ _ _).1 h
    have e5 : (postMark ++ a).drop 5 = a := rfl
    simp only [e5]
    obtain ⟨k1, k2, k3⟩ := (blanks_split (s := a)).1 ⟨rfl, rfl⟩
    obtain ⟨l1, l2, l3⟩ := (solid_split (s := a.dropWhile isBlank)).1 ⟨rfl, rfl⟩
    constructor
    · rintro rfl
      refine Or.inr ⟨b, a, a.takeWhile isBlank, (a.dropWhile isBlank).dropWhile (fun c => !isBlank c), hf, ?_, k2, l2, l3, ?_⟩
      · rw [List.append_assoc, ← l1]; exact k1
      · intro h0
        rw [h0, List.nil_append] at l1
        cases hc : ((a.dropWhile isBlank).dropWhile fun c => !isBlank c) with
        | nil => rfl
        | cons c t =>
          rw [hc] at l1
          exact absurd (l3 c (by rw [hc]; rfl)) (k3 c (by rw [l1]; rfl))
    · rintro (⟨_, hn⟩ | ⟨b', a', skip, tail, hf', e, m1, m2, m3, m4⟩)
      · exact absurd hf.1 (hn _ _)
      · obtain ⟨_, rfl⟩ := FirstMark_unique hf hf'
        have q1 : a.dropWhile isBlank = post ++ tail := by
          refine ((blanks_split (x := skip) (y := post ++ tail)).2 ⟨by rw [e, List.append_assoc], m1, ?_⟩).2
          intro c hc
          cases post with
          | nil => rw [m4 rfl] at hc; simp at hc
          | cons d post =>
            simp only [List.cons_append, List.head?_cons, Option.some.injEq] at hc
            subst hc; exact m2 _ (by simp)
        rw [q1]
        exact ((solid_split (x := post) (y := tail)).2 ⟨rfl, m2, m3⟩).1

/-- The text up to a blank or '|'. -/
theorem word_split {s x y : List Byte} :
    (s.takeWhile (fun c => c ≠ 124 && !isBlank c) = x ∧ s.dropWhile (fun c => c ≠ 124 && !isBlank c) = y) ↔
      s = x ++ y ∧ (Solid x ∧ 124 ∉ x) ∧ ∀ c, y.head? = some c → c = 124 ∨ Blank c := by
  rw [split_while]
  refine and_congr_right fun _ => and_congr ?_ ?_
  · simp only [Solid, Bool.and_eq_true, decide_eq_true_eq, Bool.not_eq_true', isBlank_false]
    refine ⟨fun h => ⟨fun c hc => (h c hc).2, fun hc => (h _ hc).1 rfl⟩, fun h c hc => ⟨fun e => h.2 (e ▸ hc), h.1 c hc⟩⟩
  · refine forall_congr' fun c => imp_congr_right fun _ => ?_
    rw [← Bool.not_eq_true, Bool.and_eq_true, decide_eq_true_eq, Bool.not_eq_true', isBlank_false]
    constructor
    · intro h
      by_cases e : c = 124
      · exact Or.inl e
      · exact Or.inr (Classical.byContradiction fun hb => h ⟨e, hb⟩)
    · rintro (rfl | h) ⟨h1, h2⟩
      · exact h1 rfl
      · exact h2 h

theorem posNames_short : ∀ q ∈ posNames, (q.2.toList.map Char.toNat).length < 64 := by decide +kernel

/-- What the article of a text is. -/
theorem engArticle_iff (s : List Byte) (id : Nat) (a : Article) (hs : ∀ c, s.head? = some c → ¬ Blank c) :
    engArticle s id = some (.article a) ↔ s.length < 256 ∧ a.id = id ∧ ArticleText s a := by
  have e0 : s.dropWhile isBlank = s := ((blanks_split (s := s) (x := []) (y := s)).2 ⟨rfl, by simp [Blanks], hs⟩).2
  rw [engArticle]
  simp only [e0]
  constructor
  · intro h
    obtain ⟨w1, ⟨w2, w2'⟩, w3⟩ := (word_split (s := s)).1 ⟨rfl, rfl⟩
    have hpost := (findStemPostfix_iff s _).1 rfl
    revert h hpost
    generalize findStemPostfix s = post
    revert w1 w2 w2' w3
    generalize s.takeWhile (fun c => c ≠ 124 && !isBlank c) = word
    generalize s.dropWhile (fun c => c ≠ 124 && !isBlank c) = s1
    intro w1 w3 w2 w2' h hpost
    obtain ⟨f1, f2, f3⟩ := (solid_split (s := s1)).1 ⟨rfl, rfl⟩
    revert h f1 f2 f3
    generalize s1.takeWhile (fun c => !isBlank c) = flex
    generalize s1.dropWhile (fun c => !isBlank c) = s2
    intro h f1 f2 f3
    obtain ⟨g1, g2, g3⟩ := (blanks_split (s := s2)).1 ⟨rfl, rfl⟩
    revert h g1 g2 g3
    generalize s2.takeWhile isBlank = gap
    generalize s2.dropWhile isBlank = s3
    intro h g1 g2 g3
    obtain ⟨p1, p2, p3⟩ := (solid_split (s := s3)).1 ⟨rfl, rfl⟩
    revert h p1 p2 p3
    generalize s3.takeWhile (fun c => !isBlank c) = pos
    generalize s3.dropWhile (fun c => !isBlank c) = rest
    intro h p1 p2 p3
    split at h
    · simp at h
    rename_i n1
    split at h
    · simp at h
    rename_i n2
    split at h
    · simp at h
    rename_i n3
    split at h
    · simp at h
    rename_i n4
    split at h
    · simp at h
    rename_i n5
    split at h
    · simp at h
    rename_i n6
    split at h
    · simp at h
    rename_i k hk
    simp only [Option.some.injEq, LineResult.article.injEq] at h
    subst h
    obtain ⟨name, q1, q2⟩ := (mapPartOfSpeech_iff _ _).1 hk
    refine ⟨by omega, rfl, word, gap, pos, rest, name, word.drop (word.length - post.length), ?_, w2, w2', f2, ?_, ?_, g2, n6, p2, p3, q1, q2, hpost,
      (List.take_append_drop _ _).symm, ?_⟩
    · subst p1 g1 f1
      rw [w1]; simp only [List.append_assoc]
    · cases flex with
      | nil => exact Or.inl rfl
      | cons c flex =>
        right
        rcases w3 c (by rw [f1]; rfl) with rfl | hb
        · rfl
        · exact absurd hb (f2 c (by simp))
    · rintro rfl
      obtain ⟨c, t, rfl⟩ := List.exists_cons_of_ne_nil n4
      exact absurd (f3 c rfl) (g3 c (by rw [List.nil_append] at g1; rw [← g1]; rfl))
    · show _ = post.length
      rw [List.length_drop]; omega
  · rintro ⟨hlen, rfl, word, gap, pos, rest, name, cut, e, w2, w2', f2, f4, g0, g2, p0, p2, p3, q1, q2, hpost, c1, c2⟩
    have hp := (findStemPostfix_iff s a.post).2 hpost
    obtain ⟨g, gap', rfl⟩ := List.exists_cons_of_ne_nil g0
    obtain ⟨p, pos', rfl⟩ := List.exists_cons_of_ne_nil p0
    have t1 := (word_split (s := s) (x := word) (y := a.flex ++ ((g :: gap') ++ ((p :: pos') ++ rest)))).2
      ⟨by rw [e]; simp only [List.append_assoc], ⟨w2, w2'⟩, by
        intro c hc
        rcases f4 with h0 | h0
        · rw [h0] at hc
          simp only [List.nil_append, List.cons_append, List.head?_cons, Option.some.injEq] at hc
          exact Or.inr (g2 c (by simp [hc]))
        · rw [List.head?_append, h0] at hc
          exact Or.inl (by simpa using hc.symm)⟩
    have t2 := (solid_split (s := a.flex ++ ((g :: gap') ++ ((p :: pos') ++ rest))) (x := a.flex)).2
      ⟨rfl, f2, by
        intro c hc
        simp only [List.cons_append, List.head?_cons, Option.some.injEq] at hc
        exact g2 c (by simp [hc])⟩
    have t3 := (blanks_split (s := (g :: gap') ++ ((p :: pos') ++ rest)) (x := g :: gap')).2
      ⟨rfl, g2, by
        intro c hc
        simp only [List.cons_append, List.head?_cons, Option.some.injEq] at hc
        exact p2 c (by simp [hc])⟩
    have t4 := (solid_split (s := (p :: pos') ++ rest) (x := p :: pos')).2 ⟨rfl, p2, p3⟩
    simp only [t1.1, t1.2, t2.1, t2.2, t3.2, t4.1, hp]
    have hm := (mapPartOfSpeech_iff (p :: pos') a.pos).2 ⟨name, q1, q2⟩
    have hshort : (p :: pos').length < 64 := by rw [q2]; exact posNames_short _ q1
    have hw : word.length = a.stem.length + a.post.length := by rw [c1, List.length_append, c2]
    rw [if_neg (by omega), if_neg (by simp), if_neg (by omega), if_neg (by simp), if_neg (by omega), if_neg (by simp), hm]
    have : word.take (word.length - a.post.length) = a.stem := by
      rw [show word.length - a.post.length = a.stem.length by omega, c1, List.take_left]
    simp only [this]

/-! ### Lines -/

/-- The number after the mark of the id. -/
def lidNumber (t : List Byte) : Nat := strtoul0 t % 2 ^ 32

theorem comment_iff (s : List Byte) : (litBytes "//").isPrefixOf s = true ↔ ∃ t, s = 47 :: 47 :: t := by
  rw [isPrefixOf_iff, show litBytes "//" = [47, 47] by decide +kernel]
  rfl

theorem IdText_unique {s t t' : List Byte} (h : IdText s t) (h' : IdText s t') : t = t' := by
  obtain ⟨b, c, h, _⟩ := h
  obtain ⟨b', c', h', _⟩ := h'
  exact (FirstMark_unique h h').2

/-- The line after its blanks are cut off. -/
theorem engLine_id (s t : List Byte) (line : List Byte) (hs : trimLine line = s) (h0 : ¬ ∃ t, s = 47 :: 47 :: t) (ht : IdText s t) :
    engLine line = if lidNumber t = 0 then some .skip else engArticle s (lidNumber t) := by
  obtain ⟨b, c, hf, hc⟩ := ht
  rw [engLine]
  simp only [hs, litBytes_lid]
  have hne : s ≠ [] := by
    rintro rfl
    have := congrArg List.length hf.1
    simp [lidMark] at this
  rw [if_neg hne, if_neg (fun hp => h0 ((comment_iff s).1 hp)), (strstrAt_some _ _ _ _).2 ⟨t, rfl, hf⟩]
  simp only [List.getLast?_append, List.getLast?_singleton, Option.some_or]
  rw [if_neg (by omega), show (lidMark ++ t).drop 4 = t from rfl]
  rfl

theorem engLine_noId (s : List Byte) (line : List Byte) (hs : trimLine line = s) (ht : ¬ ∃ t, IdText s t) : engLine line = some .skip := by
  rw [engLine]
  simp only [hs, litBytes_lid]
  split
  · rfl
  split
  · rfl
  cases h : strstrAt lidMark s with
  | none => rfl
  | some q =>
    obtain ⟨b, f⟩ := q
    obtain ⟨a, rfl, hf⟩ := (strstrAt_some _ _ _ _).1 h
    simp only
    cases hl : b.getLast? with
    | none => rfl
    | some c =>
      simp only
      by_cases hc : c ≠ 9 ∧ c ≠ 32
      · rw [if_pos hc]
      · refine absurd ⟨a, b.dropLast, c, ?_, by omega⟩ ht
        obtain ⟨b', rfl⟩ := List.getLast?_eq_some_iff.1 hl
        rw [List.dropLast_concat]
        exact hf

theorem engLine_article (line : List Byte) (a : Article) : engLine line = some (.article a) ↔ LineSays lidNumber line (some a) := by
  have hkey := (trimLine_iff line _).1 rfl
  constructor
  · intro h
    have h0 : ¬ ∃ t, trimLine line = 47 :: 47 :: t := by
      intro hc
      rw [engLine] at h
      have hne : trimLine line ≠ [] := by obtain ⟨t, ht⟩ := hc; simp [ht]
      simp [if_neg hne, (comment_iff _).2 hc] at h
    have ht : ∃ t, IdText (trimLine line) t := by
      refine Classical.byContradiction fun hc => ?_
      rw [engLine_noId _ line rfl hc] at h
      simp at h
    obtain ⟨t, ht⟩ := ht
    rw [engLine_id _ t line rfl h0 ht] at h
    split at h
    · simp at h
    rename_i hn
    have hk := hkey
    obtain ⟨_, _, _, _, _, hh, _⟩ := hkey
    obtain ⟨k1, k2, k3⟩ := (engArticle_iff _ _ _ hh).1 h
    exact ⟨_, t, hk, h0, ht, k2.symm, by rw [k2]; exact hn, k1, k3⟩
  · rintro ⟨s, t, hs, h0, ht, k1, k2, k3, k4⟩
    have e := (trimLine_iff _ _).2 hs
    obtain ⟨_, _, _, _, _, hh, _⟩ := hs
    rw [engLine_id s t line e h0 ht, k1, if_neg k2]
    exact (engArticle_iff _ _ _ hh).2 ⟨k3, rfl, k4⟩

theorem engArticle_not_skip (s : List Byte) (id : Nat) : engArticle s id ≠ some .skip := by
  rw [engArticle]
  simp only
  repeat' split
  all_goals simp

theorem engLine_skip (line : List Byte) : engLine line = some .skip ↔ LineSays lidNumber line none := by
  have hkey := (trimLine_iff line _).1 rfl
  constructor
  · intro h
    refine ⟨_, hkey, ?_⟩
    by_cases h1 : trimLine line = []
    · exact Or.inl h1
    by_cases h2 : ∃ t, trimLine line = 47 :: 47 :: t
    · exact Or.inr (Or.inl h2)
    by_cases h3 : ∃ t, IdText (trimLine line) t
    · obtain ⟨t, ht⟩ := h3
      rw [engLine_id _ t line rfl h2 ht] at h
      split at h
      · rename_i h0
        exact Or.inr (Or.inr (Or.inr ⟨t, ht, h0⟩))
      · exact absurd h (engArticle_not_skip _ _)
    · exact Or.inr (Or.inr (Or.inl h3))
  · rintro ⟨s, hs, h⟩
    have e := (trimLine_iff _ _).2 hs
    by_cases h2 : ∃ t, s = 47 :: 47 :: t
    · rw [engLine]
      have hne : s ≠ [] := by obtain ⟨t, ht⟩ := h2; simp [ht]
      simp only [e]
      rw [if_neg hne, if_pos ((comment_iff _).2 h2)]
    rcases h with h | h | h | ⟨t, ht, h⟩
    · rw [engLine]; simp [e, h]
    · exact absurd h h2
    · exact engLine_noId s line e h
    · rw [engLine_id s t line e h2 ht, if_pos h]

/-! ### Files -/

theorem engRead_iff (ls : List (List Byte)) : ∀ st st', engRead st ls = some (some st') ↔
    ∃ os, List.Forall₂ (LineSays lidNumber) ls os ∧ st' = (os.filterMap id).foldl EngState.resolve st := by
  induction ls with
  | nil =>
    intro st st'
    rw [engRead]
    simp only [Option.some.injEq, List.forall₂_nil_left_iff, exists_eq_left, List.filterMap_nil, List.foldl_nil]
    exact eq_comm
  | cons l ls ih =>
    intro st st'
    rw [engRead]
    constructor
    · intro h
      split at h
      · simp at h
      · rename_i hl
        obtain ⟨os, h1, h2⟩ := (ih _ _).1 h
        exact ⟨none :: os, .cons ((engLine_skip l).1 hl) h1, h2⟩
      · simp at h
      · rename_i a hl
        obtain ⟨os, h1, h2⟩ := (ih _ _).1 h
        exact ⟨some a :: os, .cons ((engLine_article l a).1 hl) h1, h2⟩
    · rintro ⟨os, h1, rfl⟩
      cases h1 with
      | cons hl h1 =>
        rename_i o os
        cases o with
        | none =>
          rw [(engLine_skip l).2 hl]
          exact (ih _ _).2 ⟨_, h1, rfl⟩
        | some a =>
          rw [(engLine_article l a).2 hl]
          exact (ih _ _).2 ⟨_, h1, rfl⟩

theorem fgetsAll_line (rest : List Byte) : ∀ (l : List Byte) (room : Nat) (cur : List Byte), 10 ∉ l → l.length < room →
    fgetsAll (l ++ 10 :: rest) room cur = (cur ++ l ++ [10]) :: fgetsAll rest 0x3fe []
  | [], room, cur, _, _ => by rw [List.nil_append, fgetsAll, if_pos (Or.inl rfl)]; simp
  | c :: l, room, cur, h, hr => by
    simp only [List.mem_cons, not_or] at h
    simp only [List.length_cons] at hr
    rw [List.cons_append, fgetsAll, if_neg (by rintro (h0 | h0) <;> omega), fgetsAll_line rest l _ _ h.2 (by omega)]
    simp

theorem fgetsAll_file (lines : List (List Byte)) (h : ∀ l ∈ lines, 10 ∉ l ∧ l.length < 0x3fe) :
    fgetsAll (fileOf lines) 0x3fe [] = lines.map (· ++ [10]) := by
  induction lines with
  | nil => rfl
  | cons l lines ih =>
    have hl := h l (by simp)
    have e : fileOf (l :: lines) = l ++ 10 :: fileOf lines := by simp [fileOf]
    rw [e, fgetsAll_line _ l _ _ hl.1 hl.2, ih fun l hl => h l (by simp [hl])]
    simp

theorem Trimmed_newline (l s : List Byte) : Trimmed (l ++ [10]) s ↔ Trimmed l s := by
  rw [← trimLine_iff, ← trimLine_iff]
  suffices trimLine (l ++ [10]) = trimLine l by rw [this]
  rw [trimLine_iff]
  obtain ⟨x, y, h1, h2, h3, h4, h5⟩ := (trimLine_iff l _).1 rfl
  refine ⟨x, y ++ [10], ?_, h2, ?_, h4, h5⟩
  · rw [← List.append_assoc, ← h1]
  · intro c hc
    rcases List.mem_append.1 hc with hc | hc
    · exact h3 c hc
    · simp only [List.mem_singleton] at hc
      subst hc; simp [Blank]

theorem LineSays_newline (number : List Byte → Nat) (l : List Byte) (o : Option Article) :
    LineSays number (l ++ [10]) o ↔ LineSays number l o := by
  cases o <;> simp only [LineSays, Trimmed_newline]

/-! ### Numbers -/

theorem decimal_small {n : Nat} (h : n < 10) : decimal n = [48 + n] := by
  rw [decimal, Nat.toDigits_of_lt_base h]
  revert n; decide

theorem decimal_big {n : Nat} (h : 10 ≤ n) : decimal n = decimal (n / 10) ++ [48 + n % 10] := by
  rw [decimal, Nat.toDigits_of_base_le (by decide) h, List.map_append]
  have : ∀ k, k < 10 → [k.digitChar].map Char.toNat = [48 + k] := by decide
  rw [decimal, this _ (Nat.mod_lt _ (by decide))]

theorem readDigits_decimal (t : List Byte) : ∀ n, readDigits 10 (decimal n ++ t) 0 = readDigits 10 t n := by
  intro n
  induction n using Nat.strongRecOn generalizing t with
  | _ n ih =>
    have step : ∀ k m, k < 10 → readDigits 10 ([48 + k] ++ t) m = readDigits 10 t (m * 10 + k) := by
      intro k m hk
      rw [List.singleton_append, readDigits, digitVal, if_pos ⟨by omega, by omega⟩]
      simp only
      rw [show 48 + k - 48 = k by omega, if_pos hk]
    by_cases h : n < 10
    · rw [decimal_small h, step n 0 h]; congr 1; omega
    · rw [decimal_big (by omega), List.append_assoc, ih (n / 10) (by omega), step _ _ (Nat.mod_lt _ (by decide))]
      congr 1; omega

theorem readDigits_stop (t : List Byte) (n : Nat) (h : ∀ c, t.head? = some c → ¬ (48 ≤ c ∧ c ≤ 57)) : readDigits 10 t n = n := by
  cases t with
  | nil => rfl
  | cons c t =>
    have := h c rfl
    rw [readDigits, digitVal, if_neg this]
    split
    · rename_i d hd
      rw [if_neg]
      split at hd
      · simp only [Option.some.injEq] at hd; omega
      · split at hd
        · simp only [Option.some.injEq] at hd; omega
        · simp at hd
    · rfl

theorem decimal_head : ∀ n, 0 < n → ∃ c t, decimal n = c :: t ∧ 49 ≤ c ∧ c ≤ 57 := by
  intro n
  induction n using Nat.strongRecOn with
  | _ n ih =>
    intro h0
    by_cases h : n < 10
    · exact ⟨48 + n, [], decimal_small h, by omega, by omega⟩
    · obtain ⟨c, t, e, h1, h2⟩ := ih (n / 10) (by omega) (by omega)
      exact ⟨c, t ++ [48 + n % 10], by rw [decimal_big (by omega), e]; rfl, h1, h2⟩

theorem lidNumber_decimal (n : Nat) (skip t : List Byte) (h0 : 0 < n) (hn : n < 2 ^ 32) (hs : ∀ c ∈ skip, c = 32 ∨ c = 9)
    (ht : ∀ c, t.head? = some c → ¬ (48 ≤ c ∧ c ≤ 57)) : lidNumber (skip ++ decimal n ++ t) = n := by
  obtain ⟨c, d, e, c1, c2⟩ := decimal_head n h0
  have e1 : (skip ++ decimal n ++ t).dropWhile isSpaceC = decimal n ++ t := by
    refine ((split_while (p := isSpaceC) (x := skip) (y := decimal n ++ t)).2 ⟨by rw [List.append_assoc], ?_, ?_⟩).2
    · intro b hb
      rcases hs b hb with rfl | rfl <;> decide
    · intro b hb
      rw [e] at hb
      simp only [List.cons_append, List.head?_cons, Option.some.injEq] at hb
      subst hb
      simp only [isSpaceC, Bool.or_eq_false_iff, decide_eq_false_iff_not, Bool.and_eq_false_iff]
      omega
  have hd : (decimal n ++ t).head? = some c := by rw [e]; rfl
  have f : readDigits 10 (decimal n ++ t) 0 = n := by rw [readDigits_decimal, readDigits_stop t n ht]
  rw [lidNumber, strtoul0]
  simp only [e1, hd, Option.some.injEq]
  rw [if_neg (by omega : ¬ (c = 45 ∨ c = 43))]
  simp only [hd, Option.some.injEq]
  rw [if_neg (by omega : ¬ (c = 48 ∧ _)), if_neg (by omega : ¬ c = 48), f, if_neg (by omega), if_neg (by omega)]
  omega

end Libmorph
