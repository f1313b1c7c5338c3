import Verif.Lemmas.EngText
import Verif.Props.C23
/-
C55: the English dictionary compiler reads its source text line by line, and every line stands for one article or for nothing.
-/
namespace Libmorph
open Spec

/-- **C55** A line is an article exactly when its text says so: it is not a comment, the first mark "LID:" stands after a
space or a tab and a number other than 0 follows it, the text is shorter than 256 bytes, and it is made of a word, endings, a
part of speech and marks as `ArticleText` tells. -/
theorem C55_article (line : List Byte) (a : Article) : engLine line = some (.article a) ↔ LineSays lidNumber line (some a) :=
  engLine_article line a

/-- **C55** The lines passed over are exactly: empty ones, comments, those without an id, those with the id 0. -/
theorem C55_skip (line : List Byte) : engLine line = some .skip ↔ LineSays lidNumber line none := engLine_skip line

/-- **C55** The id is the number written after the mark, in decimal digits, perhaps after blanks. -/
theorem C55_number (n : Nat) (skip t : List Byte) (h0 : 0 < n) (hn : n < 2 ^ 32) (hs : ∀ c ∈ skip, c = 32 ∨ c = 9)
    (ht : ∀ c, t.head? = some c → ¬ (48 ≤ c ∧ c ≤ 57)) : lidNumber (skip ++ decimal n ++ t) = n := lidNumber_decimal n skip t h0 hn hs ht

/-- **C55** The files are compiled to the dictionary of the articles of their lines, in order; compilation goes through exactly
when every line is an article or is passed over. -/
theorem C55_files (files : List (List (List Byte))) (h : ∀ lines ∈ files, ∀ l ∈ lines, 10 ∉ l ∧ 0 ∉ l ∧ l.length < 1022)
    (st : EngState) :
    engCompile id (files.map fileOf) = some (some st) ↔
      ∃ os, List.Forall₂ (LineSays lidNumber) files.flatten os ∧ st = engBuild (os.filterMap id) := by
  have e : ((files.map fileOf).map (sourceLines id)).flatten = files.flatten.map (· ++ [10]) := by
    rw [List.map_map, List.map_flatten]
    congr 1
    refine List.map_congr_left fun lines hl => ?_
    rw [Function.comp_apply, sourceLines, fgetsAll_file lines fun l hm => ⟨(h lines hl l hm).1, (h lines hl l hm).2.2⟩, List.map_map]
    refine List.map_congr_left fun l hm => ?_
    have h0 := (h lines hl l hm).2.1
    rw [Function.comp_apply, id]
    have := (split_while (p := fun c => decide (c ≠ 0)) (s := l ++ [10]) (x := l ++ [10]) (y := [])).2
      ⟨by simp, by
        intro c hc
        rw [decide_eq_true_eq]
        rintro rfl
        simp [h0] at hc, by simp⟩
    exact this.1
  rw [engCompile, e, engRead_iff]
  refine exists_congr fun os => and_congr ?_ Iff.rfl
  rw [List.forall₂_map_left_iff]
  simp only [LineSays_newline]

theorem forall₂_mem {α β : Type} {R : α → β → Prop} {as : List α} {bs : List β} (h : List.Forall₂ R as bs) :
    (∀ b ∈ bs, ∃ a ∈ as, R a b) ∧ ∀ a ∈ as, ∃ b ∈ bs, R a b := by
  induction h with
  | nil => simp
  | cons hx _ ih =>
    constructor
    · intro b hb
      rcases List.mem_cons.1 hb with rfl | hb
      · exact ⟨_, List.mem_cons_self .., hx⟩
      · obtain ⟨a, ha, h⟩ := ih.1 b hb
        exact ⟨a, List.mem_cons_of_mem _ ha, h⟩
    · intro a ha
      rcases List.mem_cons.1 ha with rfl | ha
      · exact ⟨_, List.mem_cons_self .., hx⟩
      · obtain ⟨b, hb, h⟩ := ih.2 a ha
        exact ⟨b, List.mem_cons_of_mem _ hb, h⟩

theorem lineSays_unique {line : List Byte} {o o' : Option Article} (h : LineSays lidNumber line o) (h' : LineSays lidNumber line o') :
    o = o' := by
  have key : ∀ o, LineSays lidNumber line o → engLine line = some (match o with | none => .skip | some a => .article a) := by
    intro o h
    cases o with
    | none => exact (engLine_skip line).2 h
    | some a => exact (engLine_article line a).2 h
  have := (key o h).symm.trans (key o' h')
  cases o <;> cases o' <;> simp_all

/-- **C55** with C41: text goes in, words come out.  The text of articles within the limits of C41 compiles; with the compiled
dictionary CheckWord accepts only words that are forms of the article of some line, and all of those whose suffixes are safe. -/
theorem C55_words {A : List Byte} (files : List (List (List Byte)))
    (h : ∀ lines ∈ files, ∀ l ∈ lines, 10 ∉ l ∧ 0 ∉ l ∧ l.length < 1022) (os : List (Option Article))
    (hos : List.Forall₂ (LineSays lidNumber) files.flatten os) (hok : EngOk A (os.filterMap id)) :
    ∃ st, engCompile id (files.map fileOf) = some (some st) ∧
      (∀ w junk dwsets, WordOk w → checkWord st.images junk w dwsets = some 1 →
        ∃ line ∈ files.flatten, ∃ a, LineSays lidNumber line (some a) ∧ a.HasForm (w.map engTab.lower) ∧
          (dwsets &&& 2 ≠ 0 ∨ CapsFit engTab w a.demand)) ∧
      ∀ w junk dwsets, w ≠ [] → w.length < 48 → (wordParts engTab w).length ≤ 8 → SuffixSafe (os.filterMap id) (w.map engTab.lower) →
        (∃ line ∈ files.flatten, ∃ a, LineSays lidNumber line (some a) ∧ a.HasForm (w.map engTab.lower) ∧
          (dwsets &&& 2 ≠ 0 ∨ CapsFit engTab w a.demand)) →
        checkWord st.images junk w dwsets = some 1 := by
  obtain ⟨m1, m2⟩ := forall₂_mem hos
  refine ⟨_, (C55_files files h _).2 ⟨os, hos, rfl⟩, ?_, ?_⟩
  · intro w junk dwsets hw hf
    obtain ⟨a, ha, h2, h3⟩ := C41_sound hok w junk dwsets hw hf
    obtain ⟨o, ho, rfl⟩ := List.mem_filterMap.1 ha
    obtain ⟨l, hl, h4⟩ := m1 _ ho
    exact ⟨l, hl, a, h4, h2, h3⟩
  · rintro w junk dwsets hne hlen hparts hs ⟨l, hl, a, h4, h2, h3⟩
    obtain ⟨o, ho, h5⟩ := m2 l hl
    have := lineSays_unique h4 h5
    subst this
    exact (C41_found_partial hok w junk dwsets hne hlen hparts hs).1 ⟨a, List.mem_filterMap.2 ⟨_, ho, rfl⟩, h2, h3⟩

/-- **C55** No line overruns a buffer when its words are shorter than 64 characters and it has no mark of a suffix. -/
theorem C55_no_overrun (line : List Byte) (h1 : ∀ b t e, line = b ++ t ++ e → Solid t → t.length < 64)
    (h2 : ∀ b t, line ≠ b ++ postMark ++ t) : engLine line ≠ none := by
  obtain ⟨x, y, hs, _, _, hh, _⟩ := (trimLine_iff line _).1 rfl
  have key : ∀ id, engArticle (trimLine line) id ≠ none := by
    intro id
    have e0 : (trimLine line).dropWhile isBlank = trimLine line :=
      ((blanks_split (x := []) (y := trimLine line)).2 ⟨rfl, by simp [Blanks], hh⟩).2
    have hp : findStemPostfix (trimLine line) = [] := (findStemPostfix_iff _ _).2 (Or.inl ⟨rfl, by
      intro b t e
      refine h2 (x ++ b) (t ++ y) ?_
      rw [e] at hs
      simpa [List.append_assoc] using hs⟩)
    rw [engArticle]
    simp only [e0, hp]
    generalize trimLine line = s at *
    obtain ⟨w1, _, _⟩ := (word_split (s := s)).1 ⟨rfl, rfl⟩
    revert w1
    generalize s.takeWhile (fun c => c ≠ 124 && !isBlank c) = word
    generalize s.dropWhile (fun c => c ≠ 124 && !isBlank c) = s1
    intro w1
    obtain ⟨f1, _, _⟩ := (solid_split (s := s1)).1 ⟨rfl, rfl⟩
    revert f1
    generalize s1.takeWhile (fun c => !isBlank c) = flex
    generalize s1.dropWhile (fun c => !isBlank c) = s2
    intro f1
    obtain ⟨g1, _, _⟩ := (blanks_split (s := s2)).1 ⟨rfl, rfl⟩
    revert g1
    generalize s2.takeWhile isBlank = gap
    generalize s2.dropWhile isBlank = s3
    intro g1
    obtain ⟨p1, p2, _⟩ := (solid_split (s := s3)).1 ⟨rfl, rfl⟩
    revert p1 p2
    generalize s3.takeWhile (fun c => !isBlank c) = pos
    generalize s3.dropWhile (fun c => !isBlank c) = rest
    intro p1 p2
    have hlt : pos.length < 64 := by
      refine h1 (x ++ word ++ flex ++ gap) pos (rest ++ y) ?_ p2
      rw [hs, w1, f1, g1, p1]; simp only [List.append_assoc]
    rw [if_neg (show ¬ word.length < ([] : List Byte).length by simp), if_neg (show ¬ pos.length ≥ 64 by omega)]
    repeat' split
    all_goals simp
  rw [engLine]
  simp only
  repeat' split
  all_goals first | exact key _ | simp

/-! ### Where the reader is not what the text means -/

/-- **C55** Numbers that begin with 0 are octal or hexadecimal: "LID:010" is 8, "LID:0x10" is 16, "LID:09" is 0, so its line is
passed over; "LID:4294967297" is 1. -/
theorem C55_other_numbers :
    lidNumber (litBytes "010") = 8 ∧ lidNumber (litBytes "0x10") = 16 ∧ lidNumber (litBytes "09") = 0 ∧
    lidNumber (litBytes "4294967297") = 1 ∧ engLine (litBytes "cat|0|s N LID:09") = some .skip := by decide +kernel

/-- **C55** The suffix is not compared with the word: as many letters as it has are cut off, whatever they are; a suffix longer
than the word is an invalid write before the buffer, a part of speech of 64 characters one after its end. -/
theorem C55_unchecked :
    engLine (litBytes "father|0|s N LID:7 post:-in") = some (.article ⟨litBytes "fat", litBytes "|0|s", 1, litBytes "-in", 7⟩) ∧
    engLine (litBytes "cat|0|s N LID:7 post:-in-law") = none ∧
    engLine (litBytes "cat|0|s " ++ List.replicate 64 78 ++ litBytes " LID:7") = none := by decide +kernel

/-- **C55** Only the first "LID:" counts: when it does not stand after a space or a tab, the line is passed over although it has
an id. -/
theorem C55_first_mark : engLine (litBytes "LID:5|0|s N LID:5") = some .skip ∧ engLine (litBytes "x|0 N (LID:4) LID:5") = some .skip := by
  decide +kernel

/-- **C55** A text of 256 bytes or more stops the compiler, and so do a word that ends the text, an unknown part of speech or a
missing one. -/
theorem C55_stop :
    (∀ s id, 256 ≤ s.length → engArticle s id = some .stop) ∧
    engLine (litBytes "cat|0|s X LID:7") = some .stop ∧ engLine (litBytes "cat LID:7") = some .stop := by
  refine ⟨fun s id h => ?_, by decide +kernel⟩
  rw [engArticle, if_pos h]

/-- **C55** A line longer than 1022 bytes is read as several: the end of a long comment is an article. -/
theorem C55_long_line : (engCompile id [litBytes "//" ++ List.replicate 1020 46 ++ litBytes "cat|0|s N LID:7"]).map (·.map fun st => st.classes.tab.length)
    = some (some 1) := by decide +kernel

/-- The line "  mother|0|s N LID:12 post:-in-law". -/
example : engLine (litBytes "  mother-in-law|0|s N LID:12 post:-in-law\r\n") = some (.article ⟨litBytes "mother", litBytes "|0|s", 1, litBytes "-in-law", 12⟩) := by
  decide +kernel

/-- The hypotheses of `C55_number` are met. -/
example : lidNumber ([32] ++ decimal 1205 ++ [32, 112]) = 1205 :=
  C55_number 1205 [32] [32, 112] (by decide) (by decide) (by simp) (by simp)

/-- A source file: a comment, an empty line, the articles of `engSample`. -/
def sampleLines : List (List Byte) :=
  [litBytes "// sample", [], litBytes "brother-in-law|0|s|'s|s' N LID:44344 post:-in-law", litBytes "out-of-the-way A LID:17729",
   litBytes "Paris|0|'s  N LID: 7", litBytes "\tbrother|0|s N LID:300"]

/-- The hypotheses of `C55_words` are met: CheckWord on the compiled text accepts "brothers-in-law". -/
example : ∃ st, engCompile id [fileOf sampleLines] = some (some st) ∧
    checkWord st.images [] (litBytes "brothers-in-law") 0 = some 1 := by
  have hos : List.Forall₂ (LineSays lidNumber) [sampleLines].flatten (none :: none :: engSample.map some) := by
    have hs : ∀ l, engLine l = some .skip → LineSays lidNumber l none := fun l => (engLine_skip l).1
    have ha : ∀ l a, engLine l = some (.article a) → LineSays lidNumber l (some a) := fun l a => (engLine_article l a).1
    refine .cons (hs _ (by decide +kernel)) (.cons (hs _ (by decide +kernel)) (.cons (ha _ _ (by decide +kernel))
      (.cons (ha _ _ (by decide +kernel)) (.cons (ha _ _ (by decide +kernel)) (.cons (ha _ _ (by decide +kernel)) .nil)))))
  obtain ⟨st, h1, h2, h3⟩ := C55_words [sampleLines] (by decide +kernel) _ hos (A := engSampleLetters) engSample_ok
  refine ⟨st, h1, h3 _ [] 0 (by decide +kernel) (by decide +kernel) (by decide +kernel) (by unfold SuffixSafe; decide +kernel) ?_⟩
  refine ⟨litBytes "brother-in-law|0|s|'s|s' N LID:44344 post:-in-law", by decide +kernel, engSample.head (by decide),
    (engLine_article _ _).1 (by decide +kernel), ?_, Or.inr (by decide +kernel)⟩
  rw [Article.HasForm, if_pos (by decide)]
  exact ⟨[115], 1, by decide +kernel, by unfold Article.Form; decide +kernel⟩

end Libmorph
