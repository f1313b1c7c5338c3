import Verif.Model.ScanTree
/-
Lookup of a lexeme id: lang-eng/libdict/mlmamain.cpp:168-179, 236-244,
lang-rus/libdict/mlmamain.cpp:177-188, 245-253.
-/
namespace Libmorph

/-- `getofs`, lang-eng/libdict/mlmamain.cpp:170 and 238: the position of the value when the key is
used up, a null pointer otherwise. -/
def getofs (p : List Byte) (f : Frag) (s : Unit) : Option (Option (List Byte) × Unit) :=
  if f.isEmpty then some (some p, s) else some (none, s)

/-- lang-eng/libdict/mlmamain.cpp:168-179: the key is stored at the start of the uninitialised
buffer `lidkey[0x10]` (`junk` is the content of the rest of the buffer), looked up in the id tree,
and the number at the position found is the offset in the stem tree.
Outcome: `none` undefined behaviour, `some none` null pointer, `some (some n)` the offset. -/
def lidLookup (lidstree : List Byte) (junk : List Byte) (id : Nat) : Option (Option Nat) := do
  let key := lexkey id
  let (r, _) ← scanTree .u16 getofs lidstree ⟨key ++ junk, key.length⟩ ()
  match r with
  | none => return none
  | some p =>
    let (n, _) ← getserial p
    return some n

/-- tools/buildmorph.h:62-63, tools/wordtree.h:164-180: the id tree stores an `unsigned` per node. -/
def lidImage (t : Tree Nat) : List Byte := t.ser .u16 putserial serialLen

end Libmorph
