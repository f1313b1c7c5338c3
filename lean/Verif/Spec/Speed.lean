import Verif.Spec.Utf8
/-
What the words of a text are.
-/
namespace Libmorph

/-- The Russian letters, by their numbers: А-Я, а-я, Ё, ё. -/
def RusLetter (c : Nat) : Prop := (0x410 ≤ c ∧ c ≤ 0x44f) ∨ c = 0x401 ∨ c = 0x451

/-- The words of a text, in order: the longest runs of Russian letters. -/
inductive WordsOf : List Nat → List (List Nat) → Prop
  | none (gap : List Nat) : (∀ c ∈ gap, ¬ RusLetter c) → WordsOf gap []
  | word (gap w rest : List Nat) (ws : List (List Nat)) : (∀ c ∈ gap, ¬ RusLetter c) → w ≠ [] → (∀ c ∈ w, RusLetter c) →
      (∀ c ∈ rest.head?, ¬ RusLetter c) → WordsOf rest ws → WordsOf (gap ++ w ++ rest) (w :: ws)

/-- A Russian word in code page 1251. -/
def in1251 (w : List Nat) : List Byte := w.map fun c => (cyrByte c).getD 0

end Libmorph
