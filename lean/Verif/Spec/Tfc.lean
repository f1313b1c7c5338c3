import Verif.Model.Tfc
import Verif.Spec.EngText
import Verif.Spec.RusTables
/-
What the sources of ending tables mean: tables with names, whose lines may refer to other tables by name.  Of the model only
the record `FxItem` - a line: ending, description, flags, name of a table - is used.
-/
namespace Libmorph.Spec

/-- `name` is one of the names in a header: the names are separated by commas, there may be blanks around them. -/
def Named (header name : List Nat) : Prop :=
  ∃ b x y c, header = b ++ (x ++ name ++ y) ++ c ∧ (b = [] ∨ b.getLast? = some 44) ∧ (c = [] ∨ c.head? = some 44) ∧ 44 ∉ x ++ name ++ y ∧
    Blanks x ∧ Blanks y ∧ name ≠ [] ∧ (∀ d, name.head? = some d → ¬ Blank d) ∧ ∀ d, name.getLast? = some d → ¬ Blank d

/-- The table of a name: the first with that name. -/
def Defined (src : List (List Nat × List FxItem)) (name : List Nat) (lines : List FxItem) : Prop :=
  ∃ pre header post, src = pre ++ (header, lines) :: post ∧ Named header name ∧ ∀ p ∈ pre, ¬ Named p.1 name

/-- The line goes on with another table: it must (flag 0x80) or may (0x40). -/
def Continues (l : FxItem) : Prop := l.flags &&& 0xc0 ≠ 0

instance (l : FxItem) : Decidable (Continues l) := inferInstanceAs (Decidable (_ ≠ _))

/-- `w` is an ending of the table `name`, with a description and flags. -/
inductive SrcEnding (src : List (List Nat × List FxItem)) : List Nat → List Nat → Nat → Nat → Prop where
  | here {name : List Nat} {lines : List FxItem} {l : FxItem} : Defined src name lines → l ∈ lines → l.flags &&& 0x80 = 0 →
      SrcEnding src name l.tail l.gr l.flags
  | next {name : List Nat} {lines : List FxItem} {l : FxItem} {w : List Nat} {g fl : Nat} : Defined src name lines → l ∈ lines →
      Continues l → SrcEnding src l.next w g fl → SrcEnding src name (l.tail ++ w) (l.gr ||| g) (l.flags &&& fl)

/-- The limits of the image: fewer than 256 lines in a table, endings of fewer than 128 bytes. -/
structure TfcOk (src : List (List Nat × List FxItem)) : Prop where
  lines : ∀ p ∈ src, p.2.length < 256
  tails : ∀ p ∈ src, ∀ l ∈ p.2, l.tail.length < 128
  words : ∀ p ∈ src, ∀ l ∈ p.2, l.gr < 65536 ∧ l.flags < 256

/-- The room the tables take at most. -/
def tfcSpace (src : List (List Nat × List FxItem)) : Nat := (src.map fun p => 2 + (p.2.map fun l => l.tail.length + 6).sum).sum

end Libmorph.Spec
