import Verif.Model.Bytes
/-
The words of a text.
-/
namespace Libmorph.Spec

/-- A letter: Latin, or any byte from 128. -/
def TextLetter (c : Nat) : Prop := (65 ≤ c ∧ c ≤ 90) ∨ (97 ≤ c ∧ c ≤ 122) ∨ 128 ≤ c

/-- `w` is a word of the text that begins behind `x`: two letters at least, no letter before it and none behind. -/
def WordAt (s x w : List Nat) : Prop :=
  (∃ y, s = x ++ w ++ y ∧ ∀ c, y.head? = some c → ¬ TextLetter c) ∧ (∀ c, x.getLast? = some c → ¬ TextLetter c) ∧
  2 ≤ w.length ∧ ∀ c ∈ w, TextLetter c

end Libmorph.Spec
