import Verif.Model.Bytes
/-
The generic table of word classes: tools/classtable.h.
-/
namespace Libmorph

/-- `classtable`, tools/classtable.h:36-42: classes with their offsets, and the length. -/
structure ClassTable (α : Type) where
  clsset : List (α × Nat) := []
  length : Nat := 0

/-- `classtable::AddClass`, classtable.h:50-66; `none`: `std::range_error` is thrown.  The offset is
converted to 16 bits before the check. -/
def ClassTable.addClass {α : Type} [DecidableEq α] (bufLen : α → Nat) (t : ClassTable α) (c : α) :
    Option (ClassTable α × Nat) :=
  match t.clsset.find? (fun r => r.1 = c) with
  | some r => some (t, r.2)
  | none =>
    if t.length + bufLen c > 65535 then none
    else some (⟨t.clsset ++ [(c, t.length % 65536)], t.length + bufLen c⟩, t.length % 65536)

/-- `classtable::Serialize`, classtable.h:76-85. -/
def ClassTable.image {α : Type} (ser : α → List Byte) (t : ClassTable α) : List Byte :=
  (t.clsset.map fun r => ser r.1).flatten

/-- A history of additions: the offsets returned, one after another; `none` when one of them throws. -/
def ClassTable.addAll {α : Type} [DecidableEq α] (bufLen : α → Nat) : List α → ClassTable α → Option (ClassTable α × List Nat)
  | [], t => some (t, [])
  | c :: cs, t => do
    let (t, o) ← t.addClass bufLen c
    let (t, os) ← addAll bufLen cs t
    return (t, o :: os)

end Libmorph
