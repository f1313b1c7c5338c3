import Verif.Model.Caps
/-
What the capitalization of a word is: hyphen-separated parts, each small, capitalized or all caps.
-/
namespace Libmorph

/-- The parts of a word between delimiters (always at least one, possibly empty ones). -/
def wordParts (T : CharTab) : List Byte → List (List Byte)
  | [] => [[]]
  | c :: w =>
    if T.ctype c = ctDlm then [] :: wordParts T w
    else match wordParts T w with
      | [] => [[c]]
      | p :: ps => (c :: p) :: ps

/-- 0: all small letters; 1: a capital followed by small letters; 2: all capitals (also a single
capital); `none`: anything else (empty, mixed, or with characters that are no letters). -/
def partKind (T : CharTab) (p : List Byte) : Option Nat :=
  if p = [] then none
  else if p.all fun c => T.ctype c = ctRegular then some 0
  else if p.all fun c => T.ctype c = ctCapital then some 2
  else if (p.head?.all fun c => T.ctype c = ctCapital) && (p.tail.all fun c => T.ctype c = ctRegular) then some 1
  else none

/-- The kinds of the parts as one number, two bits per part, the first part lowest. -/
def packKinds : List Nat → Nat
  | [] => 0
  | k :: ks => k + 4 * packKinds ks

/-- Tables for which the theorems hold: four character types, delimiters have no case. -/
structure CharTab.Ok (T : CharTab) : Prop where
  types : ∀ b, T.ctype b ≤ 3
  dlm : ∀ b, T.ctype b = ctDlm → T.lower b = b
  zero : T.ctype 0 = ctDlm

end Libmorph

namespace Libmorph

/-- The kinds of the parts of a word; an empty last part (the word ends in a hyphen) counts as small. -/
def spelling (T : CharTab) (w : List Byte) : Option (List Nat) :=
  let parts := wordParts T w
  if parts.getLast? = some [] then (parts.dropLast.mapM (partKind T)).map (· ++ [0])
  else parts.mapM (partKind T)

/-- The spellings good enough for a demand: 2 full capitals, 1 capitalized (of three parts the middle one
is small) or more, 0 small, only the first part capitalized, or more.  Never more than three parts. -/
def goodSpellings : Nat → List (List Nat)
  | 2 => [[2], [2, 2], [2, 2, 2]]
  | 1 => [[1], [1, 1], [1, 0, 1], [2], [2, 2], [2, 2, 2]]
  | 0 => [[0], [0, 0], [0, 0, 0], [1, 0], [1, 0, 0], [1], [1, 1], [1, 0, 1], [2], [2, 2], [2, 2, 2]]
  | _ => []

/-- The spelling of the word satisfies the demand. -/
def CapsFit (T : CharTab) (w : List Byte) (demand : Nat) : Prop :=
  ∃ ks, spelling T w = some ks ∧ ks ∈ goodSpellings demand

instance (T : CharTab) (w : List Byte) (demand : Nat) : Decidable (CapsFit T w demand) :=
  match h : spelling T w with
  | none => isFalse (by rintro ⟨ks, h1, -⟩; rw [h] at h1; simp at h1)
  | some ks => if h2 : ks ∈ goodSpellings demand then isTrue ⟨ks, h, h2⟩
    else isFalse (by rintro ⟨ks', h1, h3⟩; rw [h] at h1; simp at h1; subst h1; exact h2 h3)

/-- What capitalizing a part means, independently of the loop that does it. -/
def casedPart (T : CharTab) (k : Nat) (p : List Byte) : List Byte :=
  match k, p with
  | 1, c :: p => T.upper c :: p
  | 2, p => p.map T.upper
  | _, p => p

/-- The demands on the parts of a word: every part, but the middle one of three only in full capitals;
four parts and more are never capitalized. -/
def demands (n min : Nat) : List Nat :=
  match n with
  | 1 => [min]
  | 2 => [min, min]
  | 3 => [min, if min = 2 then 2 else 0, min]
  | n => List.replicate n 0

/-- Join parts with a separator. -/
def joinParts (sep : Byte) : List (List Byte) → List Byte
  | [] => []
  | [p] => p
  | p :: ps => p ++ sep :: joinParts sep ps

/-- A word in small letters, printed with the capitalization of a demand (English: the parts are
separated by hyphens). -/
def printed (demand : Nat) (w : List Byte) : List Byte :=
  let parts := wordParts engTab w
  joinParts 45 (List.zipWith (casedPart engTab) (demands parts.length demand) parts)

end Libmorph
