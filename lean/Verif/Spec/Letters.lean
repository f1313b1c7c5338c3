import Verif.Model.Bytes
/-
The game of five letters: what the questions and the markup mean.
-/
namespace Libmorph.Spec

/-- The letters of the game, from а to я without ё. -/
def SmallLetter (c : Nat) : Prop := 0x430 ≤ c ∧ c < 0x450

/-- A word of the game: five small letters. -/
def FiveLetters (w : List Nat) : Prop := w.length = 5 ∧ ∀ c ∈ w, SmallLetter c

/-- A template of the game: five characters, small letters and question marks. -/
def FiveTemplate (t : List Nat) : Prop := t.length = 5 ∧ ∀ c ∈ t, c = 63 ∨ SmallLetter c

/-- The word fits the template: in each place the letter or a question mark. -/
def FitsTemplate (t w : List Nat) : Prop := t.length = w.length ∧ ∀ i : Nat, t[i]? = some 63 ∨ t[i]? = w[i]?

/-- The letter is in the set of letters `m`, a number with a bit for each letter. -/
def InSet (m c : Nat) : Prop := SmallLetter c ∧ m.testBit (c - 0x430) = true

/-- The word is an answer to the question: it fits, has no letter of `exc` and every letter of `inc`. -/
structure Answers (t : List Nat) (exc inc : Nat) (w : List Nat) : Prop where
  fits : FitsTemplate t w
  without : ∀ c ∈ w, ¬ InSet exc c
  containing : ∀ c, InSet inc c → c ∈ w

/-- The markup of a guess: the letter where it is right, a plus where the sample has it elsewhere, a minus where it has not. -/
def IsMarkup (sample word markup : List Nat) : Prop :=
  markup.length = 5 ∧ ∀ i < 5, ∀ s c, sample[i]? = some s → word[i]? = some c →
    markup[i]? = some (if s = c then s else if c ∈ sample then 43 else 45)

/-- A source of answers: a finite list of words of the game, from which every question is answered exactly. -/
structure WordSource (ask : List Nat → Nat → Nat → Option (List (List Nat))) (words : List (List Nat)) : Prop where
  five : ∀ w ∈ words, FiveLetters w
  exact : ∀ t exc inc, FiveTemplate t → exc < 2 ^ 32 → inc < 2 ^ 32 →
    ∃ l, ask t exc inc = some l ∧ ∀ w, w ∈ l ↔ w ∈ words ∧ Answers t exc inc w

end Libmorph.Spec
