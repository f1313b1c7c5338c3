import Verif.Props.C60
/-
C60, negative results: what the compiler does where the tables or lines are outside the limits of C60.
-/
namespace Libmorph
open Spec

/-- Table 1: the infinitives "ть" and "ти", both of which go on; table 10: "ся".  Table 14: only "ть", which goes on. -/
def stripFlex : List Byte := [0, 0, 2, 0x83, 1, 0, 2, 242, 252, 10, 0, 0x83, 1, 0, 2, 242, 232, 10, 0, 0, 1, 3, 0, 0x80, 2, 241, 255, 0,
  1, 0x83, 1, 0, 2, 242, 252, 10, 0, 0]

def stripTabs : RusTabs := ⟨stripFlex, [(ru "св_нп 7b/b", 1), (ru "св_нп 1:", 14)], [0], []⟩

/-- The source of tables without alternations. -/
def sourceOf (T : RusTabs) : RusSource := ⟨T.ftab, mapFind T.findex, fun _ => [], fun _ => []⟩

/-- **C60** The limits on verb tables (`VerbShape`) are needed: with two infinitives that go on, a headword that ends in the second one
is an article by its text, and is not recognized: the attempt with the first one has already cut off "ся". -/
theorem C60_counterexample_strip : (∃ a, ArticleIs (sourceOf stripTabs) (ru "нестися") (ru "#") (ru "св_нп") (ru "7b/b") [] a ∧ a.stem = ru "нес") ∧
    resolveClassInfo stripTabs (ru "нестися") (ru "#") (ru "св_нп") (ru "7b/b") [] = some none := by
  refine ⟨⟨⟨ru "нес", typeBits 4 false + usageBits [], 1, 0, [], 0⟩, ⟨4, false, [], ru "нестися", [], ?_, ?_, by decide +kernel, rfl, Or.inr ⟨1, ru "нес", by decide, by decide +kernel, ?_, ?_⟩⟩, rfl⟩,
    by decide +kernel⟩
  · exact ⟨[("#", "св_нп")], by decide, _, List.mem_singleton.2 rfl, rfl, rfl⟩
  · exact (getPostfix_iff _ _).1 (by decide +kernel)
  · refine Or.inr (Or.inl ⟨by decide +kernel, ⟨0x8001, 3⟩, [⟨0x83, 1, [242, 252], 10⟩], ⟨0x83, 1, [242, 232], 10⟩, [], [242, 232, 241, 255], by decide +kernel, ?_, by decide +kernel, ?_⟩)
    · exact Or.inr (Or.inr ⟨by decide, by decide, by decide, ⟨3, 0x8000, [241, 255], 0⟩, ⟨_, rfl, by decide +kernel⟩, by decide, rfl, by decide⟩)
    · intro j hj e' g' h hs
      rw [List.mem_singleton] at hj
      subst hj
      rcases h with h | h | h
      · exact h.1 (by decide)
      · exact absurd h.2.2.1 (by decide)
      · obtain ⟨_, _, _, r, ⟨l, hl, hr⟩, _, rfl, _⟩ := h
        have hl' : compactTable (sourceOf stripTabs).ftab 10 = some [⟨3, 0x8000, [241, 255], 0⟩] := by decide +kernel
        rw [show (CItem.mk 0x83 1 [242, 252] 10).next = 10 from rfl, hl'] at hl
        cases hl
        rw [List.mem_singleton] at hr
        subst hr
        exact absurd hs (by decide +kernel)
  · exact ⟨[], Or.inr ⟨rfl, by rintro ⟨b, r, a, e, _⟩; simp at e⟩, Or.inl ⟨rfl, by intro p hp; cases hp⟩⟩

/-- **C60** (`RusFit.colons` is needed) A verb whose index has a ':' and whose headword has no ending of an infinitive should be taken as it is; the failed
attempt leaves it without "ся". -/
theorem C60_counterexample_colon : ¬ (∃ b g, HeadEnding stripFlex 14 (IsVerb 4) (headGram 4 false (ru "нестися")) (ru "нестися") b g) ∧
    (resolveClassInfo stripTabs (ru "нестися") (ru "#") (ru "св_нп") (ru "1:") []).map (·.map (·.stem)) = some (some (ru "нести")) := by
  refine ⟨?_, by decide +kernel⟩
  rintro ⟨b, g, l, i, m, e, hl, h, hs, _⟩
  have hl' : compactTable stripFlex 14 = some [⟨0x83, 1, [242, 252], 10⟩] := by decide +kernel
  have hi : i = ⟨0x83, 1, [242, 252], 10⟩ := by
    rw [hl'] at hl
    have : i ∈ [(⟨0x83, 1, [242, 252], 10⟩ : CItem)] := by rw [Option.some.inj hl]; simp
    simpa using this
  subst hi
  rcases h with h | h | h
  · exact h.1 (by decide)
  · exact absurd h.2.2.1 (by decide)
  · obtain ⟨_, _, _, r, ⟨l2, hl2, hr⟩, _, rfl, _⟩ := h
    have hl3 : compactTable stripFlex 10 = some [⟨3, 0x8000, [241, 255], 0⟩] := by decide +kernel
    rw [show (CItem.mk 0x83 1 [242, 252] 10).next = 10 from rfl, hl3] at hl2
    cases hl2
    rw [List.mem_singleton] at hr
    subst hr
    have : ([242, 252, 241, 255] : List Byte) <:+ ru "нестися" := ⟨b, hs.symm⟩
    exact absurd this (by decide +kernel)

/-- Table 1: one line with a text of 16 letters. -/
def longFlex : List Byte := [0, 0, 1, 3, 0, 0, 16, 224, 224, 224, 224, 224, 224, 224, 224, 224, 224, 224, 224, 224, 224, 224, 224]

/-- **C60** (`short` is needed) Of the length of an ending four bits are compared: an ending of 16 letters fits every word, longer ones lose 16
letters that are not the ending, shorter ones stop the compiler. -/
theorem C60_counterexample_long : (∀ w, hasTail w (List.replicate 16 224) = true) ∧
    (∀ w : List Byte, w.length < 16 → stripNormal ⟨longFlex, [], [0], []⟩ [49] 7 1 w = none ∨ 64 ∈ w) ∧
    rusLine ⟨longFlex, [(ru "м 1", 1)], [0], []⟩ (ru "сон # м 1 LID:5") = none ∧
    rusLine ⟨longFlex, [(ru "м 1", 1)], [0], []⟩ (ru "бессовестныйчеловек # м 1 LID:5") = some (.articles [⟨ru "бес", 7, 1, 0, [], 5⟩]) := by
  have h0 : ∀ w, hasTail w (List.replicate 16 224) = true := by
    intro w
    rw [hasTail]
    simp
  refine ⟨h0, ?_, by decide +kernel, by decide +kernel⟩
  intro w hw
  by_cases h64 : 64 ∈ w
  · exact Or.inr h64
  · left
    have ht : compactTable7 longFlex 1 = some [⟨3, 0, List.replicate 16 224, 0⟩] := by decide +kernel
    rw [stripNormal, if_neg h64]
    have hn : normalForm 7 w = (nounLevels, 0) := rfl
    rw [hn]
    have : stripStr longFlex nounLevels 0 maxStrip 1 0 w = none := by
      rw [show maxStrip = 196608 + 1 from rfl, stripStr, ht]
      simp only [Option.bind_eq_bind, Option.bind_some]
      rw [stripItems, if_neg (by decide), if_neg (by decide), if_neg (by decide), if_pos (h0 w), cutBack, if_neg (by simp; omega)]
      rfl
    simp only [this]
    rfl

/-- **C60** A preposition with a mark of usage: its scale of cases is taken for a table of endings, which need not be one (here the compiler
fails); without the mark the line is compiled. -/
theorem C60_counterexample_preposition : rusLine textTabs (ru "в # предл. ШП:ВП {разг.} LID:12") = some (.articles [⟨[226], 51 + 0x200, 0x28, 0, [], 12⟩]) ∧
    rusCompile textTabs id [fileOf [ru "в # предл. ШП:ВП {разг.} LID:12"]] = none ∧
    (rusCompile textTabs id [fileOf [ru "в # предл. ШП:ВП LID:12"]]).isSome = true := by
  refine ⟨by decide +kernel, by decide +kernel, by decide +kernel⟩

/-- **C60** (`LineFits` is needed) A suffix longer than the headword stops the compiler. -/
theorem C60_counterexample_suffix : rusLine textTabs (ru "а # н - LID:5 post:-то") = none ∧
    rusLine textTabs (ru "как-то # н - LID:5 post:-то") = some (.articles [⟨ru "как", 54, 0, 0, ru "-то", 5⟩]) := by
  refine ⟨by decide +kernel, by decide +kernel⟩

/-- **C60** (`LineFits` is needed) A headword of 256 letters is read into an array that is too short. -/
theorem C60_counterexample_headword : rusLine textTabs (List.replicate 256 224 ++ ru " # н - LID:5") = none ∧
    (rusLine textTabs (List.replicate 255 224 ++ ru " # н - LID:5")).isSome = true := by
  refine ⟨by decide +kernel, by decide +kernel⟩

end Libmorph
