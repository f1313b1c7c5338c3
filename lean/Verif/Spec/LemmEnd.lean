import Verif.Spec.Lemm
/-
How Lemmatize ends, for buffers of any size.
-/
namespace Libmorph

/-- How a call ends: with an answer, with a code, or with a write behind the buffer of records. -/
inductive LemmEnd
  | done
  | code (r : Int)
  | undefined
deriving DecidableEq

/-- A reading that opens a record behind the records `gs`, for buffers of `nl` records, `nb` bytes and `ng` descriptions (`none`: not supplied):
the records are checked first, then the dictionary forms and their text, then the descriptions. -/
def newEnd (nl nb ng : Option Nat) (gs : List LemmGroup) (p : LemmStep) : LemmEnd :=
  if nl.any fun l => l ≤ gs.length then .code LIDSBUFF_FAILED
  else if nb.any fun b => 256 < p.scratch || b ≤ (groupTexts (gs ++ [(p, [])])).length then .code LEMMBUFF_FAILED
  else if nl.isSome && ng.any fun n => n < (groupGrams (gs ++ [(p, [])])).length then .code GRAMBUFF_FAILED
  else .done

/-- A reading that joins the last record `g` of `gs`: there must be room for a description when its last description is looked at, whether that is stored or
not; then the count is written into the record behind the last one. -/
def joinEnd (nl ng : Option Nat) (gs : List LemmGroup) (g : LemmGroup) (p : LemmStep) : LemmEnd :=
  match nl, ng with
  | some l, some n =>
    if p.grs ≠ [] ∧ n ≤ (groupGrams gs).length + (g.adds { p with grs := p.grs.dropLast }).length then .code GRAMBUFF_FAILED
    else if l ≤ gs.length then .undefined
    else .done
  | _, _ => .done

/-- One reading. -/
def stepEnd (nl nb ng : Option Nat) (gs : List LemmGroup) (p : LemmStep) : LemmEnd :=
  match gs.getLast? with
  | some g => if nl.isSome ∧ g.1.id = p.id then joinEnd nl ng gs g p else newEnd nl nb ng gs p
  | none => newEnd nl nb ng gs p

/-- The readings one after another; the first that does not end well ends the call. -/
def lemmEnd (nl nb ng : Option Nat) : List LemmGroup → List LemmStep → LemmEnd
  | _, [] => .done
  | gs, p :: H => if stepEnd nl nb ng gs p = .done then lemmEnd nl nb ng (joinStep nl.isSome gs p) H else stepEnd nl nb ng gs p

end Libmorph
