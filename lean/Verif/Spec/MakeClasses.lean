import Verif.Model.MakeClasses
import Verif.Spec.English
import Verif.Spec.Fuzzy
/-
What the tool that derives the classes of the fuzzy analysers is to do, in terms of the forms the dictionary delivers.
-/
namespace Libmorph

/-- The dictionary answers BuildForm for lexeme `x` and the numbers `ids` with the forms `F`. -/
def Morpho.Gives (M : Morpho) (x : Nat) (ids : List Nat) (F : Nat → List (List Byte)) : Prop :=
  ∀ i ∈ ids, (∀ B, B ≠ [] → FormOutcome (M.build B x i) (F i) True B) ∧ ∀ f ∈ F i, 0 ∉ f

/-- A table of small letters: only the zero becomes a zero. -/
def LowOk (low : Byte → Byte) : Prop := ∀ b, low b = 0 ↔ b = 0

/-! ### Which forms -/

/-- The 28 forms of an adjective or participle whose first number is `n`: four paradigms of seven, every eighth number is free. -/
def adjNumbers (n : Nat) : List Nat := ((List.range 31).filter fun i => i % 8 ≠ 7).map (n + ·)

/-- Numbers that keep their place. -/
def asIs (ids : List Nat) : List (Nat × Nat) := ids.map fun i => (i, i)

/-- The forms of a verb that need not exist, but for the tense 18-29 / 6-17: reflexive ones and participles. -/
def verbOptional : List Nat :=
  [1, 4, 5, 132, 133, 134, 135] ++ adjNumbers 136 ++ adjNumbers 168 ++ adjNumbers 200 ++ [232, 233]

/-- What a Russian class is to be made of: the numbers that must exist; the numbers of the class with the numbers in the
dictionary they come from; the part of speech of the class.  Verbs of both kinds make one part of speech, their present or
simple future gets the numbers 18-29; in nouns the accusatives of things (3, 13) and of beings (4, 14) are both there. -/
def rusTaken (partSp : Nat) : Option (List Nat × List (Nat × Nat) × Nat) :=
  let k := partSp % 64
  let multiple := if partSp.testBit 6 then 64 else 0
  if k ∈ [1, 2, 5, 6] then
    some ([0, 2, 3, 18, 19, 22, 23, 26, 27, 128, 129, 130, 131],
      asIs ([0, 2, 3, 128, 129, 130, 131] ++ verbOptional ++ List.range' 18 12 ++ adjNumbers 30 ++ adjNumbers 62 ++ adjNumbers 94 ++ [126, 127]), 1)
  else if k ∈ [3, 4] then
    some ([0, 2, 3, 6, 7, 10, 11, 14, 15, 128, 129, 130, 131],
      asIs ([0, 2, 3, 128, 129, 130, 131] ++ verbOptional) ++ (List.range 12).map fun i => (18 + i, 6 + i), 1)
  else if k ∈ [7, 8, 9] then
    some ([0, 1, 2, 5, 6, 10, 11, 12, 15, 16],
      asIs [0, 1, 2, 5, 6, 10, 11, 12, 15, 16] ++ [(3, 0), (4, 1), (13, 10), (14, 11)], 7 + multiple)
  else if k ∈ [13, 14, 15] then
    some ([0, 1, 2, 3, 5, 6, 10, 11, 12, 15, 16],
      asIs [0, 1, 2, 3, 5, 6, 10, 11, 12, 15, 16] ++ [(4, 3), (13, 10), (14, 11)], 13 + multiple)
  else if k ∈ [16, 17, 18] then
    some ([0, 1, 2, 3, 5, 6, 10, 11, 12, 15, 16],
      asIs [0, 1, 2, 3, 5, 6, 10, 11, 12, 15, 16] ++ [(4, 3), (13, 10), (14, 11)], 16 + multiple)
  else if k ∈ [25, 26, 27] then some (adjNumbers 0, asIs (adjNumbers 0), if partSp = 26 then 25 else partSp)
  else if k ∈ [38, 39] then
    some ([0, 1, 2, 3, 5, 6, 10, 11, 12, 13, 15, 16], asIs [0, 1, 2, 3, 5, 6, 10, 11, 12, 13, 15, 16], partSp)
  else if k = 42 then
    some ([0, 1, 2, 3, 5, 6, 8, 9, 10, 11, 13, 14], asIs ([0, 1, 2, 3, 5, 6, 8, 9, 10, 11, 13, 14] ++ [24, 25, 26, 27, 29, 30]), partSp)
  else if k ∈ [40, 41, 44, 45, 46] then some ([0, 1, 2, 3, 5, 6], asIs [0, 1, 2, 3, 5, 6], partSp)
  else none

/-- The same of the English tool. -/
def engTaken (partSp : Nat) : Option (List Nat × List (Nat × Nat) × Nat) :=
  let k := partSp % 64
  if k = 1 then some ([0, 1, 2, 3], asIs [0, 1, 2, 3], partSp)
  else if k = 2 then some ([0, 1, 2, 3, 4], asIs [0, 1, 2, 3, 4], partSp)
  else if k ∈ [3, 4] then some ([0], asIs [0, 1, 2], partSp)
  else if k = 17 then some ([0, 1], asIs [0, 1], partSp)
  else none

/-- What the Russian tool takes instead: in the list of a verb 201 stands in the place of 202. -/
def slipped (pairs : List (Nat × Nat)) : List (Nat × Nat) := pairs.map fun e => if e = (202, 202) then (201, 201) else e

/-- The forms of a class: for every number the forms of the number they come from, in small letters. -/
def wantedForms (low : Byte → Byte) (F : Nat → List (List Byte)) (pairs : List (Nat × Nat)) : List MForm :=
  pairs.flatMap fun e => (F e.2).map fun f => (e.1, f.map low)

/-- There is a hyphen in one of the forms. -/
def Hyphened (low : Byte → Byte) (F : Nat → List (List Byte)) (pairs : List (Nat × Nat)) : Prop :=
  ∃ e ∈ pairs, ∃ f ∈ F e.2, 45 ∈ f.map low

/-- A stem and endings for forms: the endings, behind the stem, are the forms, each as often as it comes; they go up by
number and text; the stem is the longest beginning the forms have in common. -/
structure ClassIs (wanted : List MForm) (stem : List Byte) (es : List MForm) : Prop where
  forms : (es.map fun e => (e.1, stem ++ e.2)).Perm wanted
  order : es.Pairwise fun a b => a.1 < b.1 ∨ a.1 = b.1 ∧ bytesLt b.2 a.2 = false
  longest : ∀ s, (∀ f ∈ wanted, s <+: f.2) → s <+: stem

/-- The accent scheme "b" of a Russian class.  Nouns (7) and names of men (38, 40, 42): the nominative ends in й after one of
аеоуыэюя; or the instrumental ends in a sizzling letter, о and a letter; or the nominative plural ends in а after a consonant.
Adjectives (25): the nominative ends in -ой. -/
def AccentB (partSp : Nat) (W : List MForm) : Prop :=
  (partSp ∈ [7, 38, 40, 42] ∧
    ((∃ q v, (0, q ++ [v, 233]) ∈ W ∧ v ∈ [224, 229, 238, 243, 251, 253, 254, 255]) ∨
     (∃ q z c, (5, q ++ [z, 238, c]) ∈ W ∧ z ∈ [230, 247, 248, 249]) ∨
     (∃ q c, (10, q ++ [c, 224]) ∈ W ∧
       c ∈ [225, 226, 227, 228, 230, 231, 234, 235, 236, 237, 239, 240, 241, 242, 244, 245, 246, 247, 248, 249]))) ∨
  (partSp = 25 ∧ ∃ q, (0, q ++ [238, 233]) ∈ W)

/-- The forms asked for have room: the texts, a zero after each and one more, in the tool's buffer; 512 forms. -/
structure ToolRoom (buffer : List Byte) (W : List MForm) : Prop where
  text : (packed (W.map (·.2))).length + 1 ≤ buffer.length
  count : W.length ≤ 512

/-- What is to become of a lexeme with the forms `F`: no class if a form that must exist does not, if there is a hyphen in a
form, if there is one form only, or if the forms have not two letters in common; otherwise the class of its forms, with the two
letters at the end of the stem, the accent scheme, and a form with the number 0 as a sample. -/
def Derived (low : Byte → Byte) (F : Nat → List (List Byte)) (req : List Nat) (pairs : List (Nat × Nat)) (psp : Nat)
    (accent : List MForm → Prop) (r : Ran (Option LexClass)) : Prop :=
  let W := wantedForms low F pairs
  let unfit := (∃ i ∈ req, F i = []) ∨ Hyphened low F pairs ∨ W.length ≤ 1 ∨ ∀ s, (∀ f ∈ W, s <+: f.2) → s.length < 2
  (unfit → r = .done none) ∧
  (¬ unfit → ∃ stem es s0 s1 b sample, ClassIs W stem es ∧ (∃ q, stem = q ++ [s0, s1]) ∧ (b = true ↔ accent W) ∧ (0, sample) ∈ W ∧
    r = .done (some ⟨(psp, es), ⟨s0, s1, b⟩, sample⟩))

end Libmorph
