/-
Which of the alternating variants of a Russian stem a form is written with: 1, 2 or 3.  Written as grammar, by the part
of speech (0 .. 63) and the fields of the description of the form (the bit layout is that of rus.h:50-105: tense in
bits 0-2, person in bits 3-4, participle in bits 5-6, plural in bit 11, case in bits 12-14); nothing here is shared with
the model.
-/
namespace Libmorph.Spec

/-- 1 infinitive, 2 imperative, 3 future, 4 present, 5 past. -/
def tense (gr : Nat) : Nat := gr % 8
/-- 1, 2, 3; 0 when there is none. -/
def person (gr : Nat) : Nat := gr / 8 % 4
/-- 0 none, 1 active, 2 passive, 3 gerund. -/
def participle (gr : Nat) : Nat := gr / 32 % 4
def IsPlural (gr : Nat) : Prop := gr / 2048 % 2 = 1
/-- 0 nominative, 1 genitive, 2 dative, 3 accusative, ... -/
def caseNo (gr : Nat) : Nat := gr / 4096 % 8

instance (gr : Nat) : Decidable (IsPlural gr) := by unfold IsPlural; infer_instance

/-- Verbs, by the kind of alternation (bits 11-12 of the word information). -/
def verbLevel (kind gr : Nat) : Nat :=
  if kind = 0 then
    -- вижу - видишь - виденный: first person singular apart, past passive participles apart
    if tense gr = 5 ∧ participle gr = 2 then 3 else if person gr = 1 ∧ ¬ IsPlural gr then 2 else 1
  else if kind = 1 then
    -- the infinitive and the past against all the rest, past passive participles apart
    if tense gr = 5 then (if participle gr = 2 then 3 else 1) else if tense gr = 1 then 1 else 2
  else if kind = 2 then
    -- the present and the future against all the rest
    if tense gr = 3 ∨ tense gr = 4 then 2 else 1
  else 1

/-- Masculine nouns: день - дня; the accusative singular of inanimate nouns is as the nominative. -/
def mascLevel (animate : Bool) (gr : Nat) : Nat :=
  if ¬ IsPlural gr ∧ (caseNo gr = 0 ∨ caseNo gr = 3 ∧ animate = false) then 1 else 2

/-- Other nouns: окно - окон; the accusative plural of animate nouns is as the genitive. -/
def nounLevel (animate : Bool) (gr : Nat) : Nat :=
  if IsPlural gr ∧ (caseNo gr = 1 ∨ caseNo gr = 3 ∧ animate = true) then 2 else 1

/-- Adjectives: the comparative, and the masculine short form. -/
def adjLevel (gr : Nat) : Nat := if gr = 0x0080 then 3 else if gr = 0x0300 then 2 else 1

/-- The variant of the stem for a form with description `gr` and animacy flags `fl` (bit 0: animate). -/
def altLevel (wdinfo gr fl : Nat) : Nat :=
  let pos := wdinfo % 64
  if 1 ≤ pos ∧ pos ≤ 6 then verbLevel (wdinfo / 2048 % 4) gr
  else if pos = 7 then mascLevel false gr
  else if pos = 8 then mascLevel true gr
  else if pos = 9 then mascLevel (fl % 2 = 1) gr
  else if pos ∈ [10, 13, 16, 19, 21, 23, 24] then nounLevel false gr
  else if pos ∈ [11, 12, 14, 17, 20, 22, 38, 39, 41] then nounLevel true gr
  else if pos ∈ [15, 18] then nounLevel (fl % 2 = 1) gr
  else if pos = 25 then adjLevel gr
  else 1

end Libmorph.Spec
