import Verif.Model.Holes
import Verif.Model.ClassText
/-
The marks of lexemes that make-classes reads: lang-rus/libprob/tools/make-classes.cpp:646-684, 807-822.  (The English tool has none: its `main` passes
empty sets, lang-eng/libprob/tools/make-classes.cpp:545-560.)  `mtc::bitset_set` is external: a set of numbers; a memory shortage is not modelled.
-/
namespace Libmorph

/-- `strtoul( s, nullptr, 10 )` of the C library (64-bit `unsigned long`, "C" locale). -/
def strtoul10 (s : List Byte) : Nat :=
  let s := s.dropWhile isSpaceC
  let neg := s.head? = some 45
  let s := if s.head? = some 45 ∨ s.head? = some 43 then s.drop 1 else s
  let n := readDigits 10 s 0
  if n ≥ 2 ^ 64 then 2 ^ 64 - 1 else if neg then (2 ^ 64 - n) % 2 ^ 64 else n

/-- 658-665: what a line says: `true` and a number to ban, `false` and a number to select. -/
def markLine (szline : List Byte) : Option (Bool × Nat) :=
  let banned := (strstrAt (litBytes "---") szline).isSome
  if banned || (strstrAt (litBytes "+++") szline).isSome then
    match strstrAt (litBytes "LID:") szline with
    | none => none
    | some (_, idlptr) => some (banned, strtoul10 (idlptr.drop 4))
  else none

/-- 649-666: the marks of a file. -/
def fileMarks (source : List Byte) : List (Bool × Nat) := (holesLines source.length source).filterMap markLine

/-- 681: the length of "Could not open input file '%s'". -/
def unopenedStatus (path : List Byte) : Nat := (litBytes "Could not open input file ''").length + path.length

/-- 817-822: the files of the command line, each with its name and, if it can be opened, its text.  The first that cannot be opened ends the program. -/
def argsMarks : List (List Byte × Option (List Byte)) → Except Nat (List (Bool × Nat))
  | [] => .ok []
  | (path, none) :: _ => .error (unopenedStatus path)
  | (_, some source) :: args => (argsMarks args).map (fileMarks source ++ ·)

/-- How make-classes ends: with an exit status, with its text, or otherwise. -/
inductive ClassesEnd
  | exit (status : Nat)
  | ran (r : Ran (List Byte))
deriving DecidableEq

/-- `main`, 807-915. -/
def makeClassesMain (T : ClassTool) (low : Byte → Byte) (M : Morpho) (buffer : List Byte) (sort : ClassMap → ClassMap) (limits : List (Nat × Nat))
    (conv : List Byte → List Byte) (args : List (List Byte × Option (List Byte))) : ClassesEnd :=
  match argsMarks args with
  | .error status => .exit (status % 256)
  | .ok marks => .ran (makeClassesText T low M buffer (fun x => decide ((Bool.false, x) ∈ marks)) (fun x => decide ((Bool.true, x) ∈ marks)) sort limits conv)

end Libmorph
