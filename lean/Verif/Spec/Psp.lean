import Mathlib.Data.Rat.Defs
import Mathlib.Algebra.BigOperators.Group.List.Basic
import Verif.Model.Psp
/-
What the program make-psp-tab should make of a text.
-/
namespace Libmorph.Spec

/-- How a text falls into words: between them bytes that are skipped, no word begins with such a byte, and a word ends only where a byte comes that does not belong
to words, or the text ends. -/
inductive Cut (skip take : Nat → Prop) : List Nat → List (List Nat) → Prop
  | gap {g : List Nat} : (∀ c ∈ g, skip c) → Cut skip take g []
  | word {g w rest : List Nat} {ws : List (List Nat)} : (∀ c ∈ g, skip c) → w ≠ [] → (∀ c, w.head? = some c → ¬ skip c) → (∀ c ∈ w, take c) →
      (∀ c, rest.head? = some c → ¬ take c) → Cut skip take rest ws → Cut skip take (g ++ w ++ rest) (w :: ws)

/-- The portions a text is read in: together they are the text, none is empty or longer than `n`, a line end only closes a portion, and a portion that is
not closed by one is full, or the last. -/
structure Portions (n : Nat) (text : List Byte) (ps : List (List Byte)) : Prop where
  all : ps.flatten = text
  size : ∀ p ∈ ps, p ≠ [] ∧ p.length ≤ n
  lines : ∀ p ∈ ps, 10 ∉ p.dropLast
  full : ∀ p ∈ ps.dropLast, p.getLast? = some 10 ∨ p.length = n

/-- What a lexeme adds: the row, its share of the word, and the columns of its forms, which share the lexeme. -/
structure Vote where
  row : Nat
  share : Rat
  cols : List Nat

/-- The votes of one row. -/
def votesFor (V : List Vote) (p : Nat) : List Vote := V.filter fun v => v.row = p

/-- What the votes say of a row, before the division. -/
def rowWeight (V : List Vote) (p : Nat) : Rat := ((votesFor V p).map Vote.share).sum

/-- What the votes say of a column of a row: of every vote the part of its forms that fall into the column. -/
def cellWeight (V : List Vote) (p f : Nat) : Rat := ((votesFor V p).map fun v => (v.cols.count f : Rat) / (v.cols.length : Rat)).sum

/-- The table of the votes: as many rows as there must be for the last row voted for, each as long as it must be for the last column. -/
structure Tallies (V : List Vote) (m : List PspRow) : Prop where
  rows : ∀ p, p < m.length ↔ ∃ v ∈ V, p ≤ v.row
  weight : ∀ p, (m.getD p {}).weight = rowWeight V p
  cols : ∀ p f, f < (m.getD p {}).forms.length ↔ ∃ v ∈ V, v.row = p ∧ ∃ c ∈ v.cols, f ≤ c
  cells : ∀ p f, (m.getD p {}).forms.getD f 0 = cellWeight V p f

end Libmorph.Spec

namespace Libmorph
open Spec

/-- The votes of a word whose lexemes have these descriptions: each counted lexeme has one. -/
def PspTool.votes (T : PspTool) (lex : List (List Gram)) : List Vote :=
  lex.filterMap fun gs => gs.head?.bind fun g =>
    let row := T.rowOf g.wdInfo
    if T.passes lex.length row g.idForm then some ⟨row, 1 / (lex.length : Rat), gs.map fun g => T.formOf row g.idForm⟩ else none

end Libmorph

namespace Libmorph.Spec

/-- The parts of speech that make-psp-tab (Russian) counts together, and under which number. -/
def rusFolds : List (List Nat × Nat) :=
  [([1, 2, 3, 4, 5, 6], 1), ([7, 8, 9], 7), ([13, 14, 15], 13), ([16, 17, 18], 16), ([25, 26], 25)]

/-- The parts of speech that are counted on their own, with the flags in the byte. -/
def rusAlone : List Nat := [38, 39, 40, 41, 42, 44, 45, 46]

/-- The row for a lexeme with this `wdInfo`; most parts of speech have none. -/
inductive RusRowOf (w : Nat) : Nat → Prop
  | folded {l : List Nat} {p : Nat} : (l, p) ∈ rusFolds → w % 64 ∈ l → RusRowOf w p
  | alone : w % 64 ∈ rusAlone → RusRowOf w (w % 256)

/-- The vote of a Russian lexeme among `n` of a word, whose descriptions are `gs`: no vote for what has no inflection (form 255), and none for an imperative where the word
can be something else; of the verbs, the twelve forms from 6 count with the twelve from 18. -/
def RusVote (n : Nat) (gs : List Libmorph.Gram) (v : Vote) : Prop :=
  ∃ g, gs.head? = some g ∧ RusRowOf g.wdInfo v.row ∧ g.idForm ≠ 255 ∧ ¬ (v.row = 1 ∧ g.idForm = 2 ∧ 1 < n) ∧ v.share = 1 / (n : Rat) ∧
    v.cols.length = gs.length ∧
    ∀ (i : Nat) (d : Libmorph.Gram), gs[i]? = some d → v.cols[i]? = some (if v.row = 1 ∧ d.idForm ∈ List.range' 6 12 then d.idForm + 12 else d.idForm)

/-- The vote of an English lexeme: the parts of speech 1 to 4 and 17 only. -/
def EngVote (n : Nat) (gs : List Libmorph.Gram) (v : Vote) : Prop :=
  ∃ g, gs.head? = some g ∧ g.wdInfo = v.row ∧ v.row ∈ [1, 2, 3, 4, 17] ∧ g.idForm ≠ 255 ∧ v.share = 1 / (n : Rat) ∧ v.cols = gs.map Libmorph.Gram.idForm

/-- The votes of a word: every lexeme casts its vote, in order, if it has one. -/
inductive Polled (polls : List Libmorph.Gram → Vote → Prop) : List (List Libmorph.Gram) → List Vote → Prop
  | none : Polled polls [] []
  | vote {gs : List Libmorph.Gram} {v : Vote} {lex V} : polls gs v → Polled polls lex V → Polled polls (gs :: lex) (v :: V)
  | silent {gs : List Libmorph.Gram} {lex V} : (∀ v, ¬ polls gs v) → Polled polls lex V → Polled polls (gs :: lex) V

end Libmorph.Spec
