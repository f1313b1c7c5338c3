/-
A program stopped while it writes its files.
-/
namespace Libmorph.Spec

/-- What may be left of a file (`none`: there is no file): no file, or the first bytes of it. -/
def LeftOf (file left : Option (List Nat)) : Prop := left = none ∨ ∃ text rest, file = some (text ++ rest) ∧ left = some text

/-- What may be left of several files, each on its own. -/
def LeftOver : List (Option (List Nat)) → List (Option (List Nat)) → Prop
  | [], [] => True
  | f :: fs, l :: ls => LeftOf f l ∧ LeftOver fs ls
  | _, _ => False

end Libmorph.Spec
