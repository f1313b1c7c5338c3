import Verif.Model.EngText
import Verif.Model.DicDump
/-
The tool that lists the unused lexeme numbers of a dictionary source: utils/get-holes.cpp.

`element_t` is a 32-bit unsigned integer, `element_bits` is 32.  A map is the list of its elements.  Numbers are 32-bit
unsigned: `(unsigned)-1` is `noLexId`.
-/
namespace Libmorph

/-- `(unsigned)-1`. -/
def noLexId : Nat := 0xffffffff

/-- `map.resize( n )`, get-holes.cpp:59 (`reserve` in line 58 has no visible effect; a memory shortage is not modelled). -/
def lexMapResize (map : List Nat) (n : Nat) : List Nat := map ++ List.replicate (n - map.length) 0

/-- `InsertLexId`, get-holes.cpp:50-64: the map after it, and whether "already used" is printed. `lxmask` is computed as an
`int` and widened to 64 bits: the element, of 32 bits, takes its lower half, which is `1 << ushift`. -/
def insertLexId (map : List Nat) (lex : Nat) : List Nat × Bool :=
  let uindex := lex / 32
  let ushift := lex % 32
  let lxmask := 1 <<< ushift
  let map := if map.length ≤ uindex then lexMapResize map (uindex + 1) else map
  let old := map.getD uindex 0
  if old &&& lxmask ≠ 0 then (map, true) else (map.set uindex (old ||| lxmask), false)

/-- `GetMinLexId`, get-holes.cpp:66-79, from the element with index `k` on.  The variable `bit` of the loop is not shifted. -/
def getMinLexId : List Nat → Nat → Nat
  | [], _ => noLexId
  | v :: map, k =>
    if v = 0 then getMinLexId map (k + 1)
    else
      match (List.range 32).find? fun _off => v &&& 1 ≠ 0 with
      | some off => (off + k * 32) % 2 ^ 32
      | none => noLexId

/-- `GetMaxLexId`, get-holes.cpp:81-94: the elements from the last to the first. -/
def getMaxLexIdRev : List Nat → Nat
  | [] => noLexId
  | v :: rest =>
    if v = 0 then getMaxLexIdRev rest
    else
      match (List.range 32).reverse.find? fun off => v &&& (1 <<< off) ≠ 0 with
      | some off => (off + rest.length * 32) % 2 ^ 32
      | none => noLexId

/-- `GetMaxLexId`, get-holes.cpp:81-94. -/
def getMaxLexId (map : List Nat) : Nat := getMaxLexIdRev map.reverse

/-- `TestIfLexId`, get-holes.cpp:96-102. -/
def testIfLexId (map : List Nat) (lex : Nat) : Bool :=
  decide (map.length > lex / 32) && decide (map.getD (lex / 32) 0 &&& (1 <<< (lex % 32)) ≠ 0)

/-- The first zero bit of the element from bit `from_` on (get-holes.cpp:110-114 and 121-123). -/
def zeroBit (v from_ : Nat) : Option Nat := ((List.range 32).drop from_).find? fun s => v &&& (1 <<< s) = 0

/-- get-holes.cpp:116-124: the elements after the first one; `k` is the index of the first of them. -/
def nextHoleFrom : List Nat → Nat → Nat
  | [], _ => noLexId
  | v :: map, k =>
    if v ≠ noLexId then
      match zeroBit v 0 with
      | some s => (s + k * 32) % 2 ^ 32
      | none => nextHoleFrom map (k + 1)
    else nextHoleFrom map (k + 1)

/-- `GetNextHole`, get-holes.cpp:104-127; `none`: `map[uindex]` is outside the vector. -/
def getNextHole (map : List Nat) (lex : Nat) : Option Nat :=
  let uindex := lex / 32
  let ushift := lex % 32
  match map[uindex]? with
  | none => none
  | some v =>
    match zeroBit v ushift with
    | some s => some ((s + uindex * 32) % 2 ^ 32)
    | none => some (nextHoleFrom (map.drop (uindex + 1)) (uindex + 1))

/-- get-holes.cpp:151-152; `fuel` bounds the number of turns (`maxlex` suffices: `holeEnd_fuel`). -/
def holeEnd (map : List Nat) (maxlex : Nat) : Nat → Nat → Nat
  | 0, h => h
  | fuel + 1, h => if h < maxlex ∧ testIfLexId map h = false then holeEnd map maxlex fuel (h + 1) else h

/-- get-holes.cpp:143-158: the holes printed, as the first and the last number of each (the third number printed is their
difference and one); `none`: a read outside the map.  `fuel`: the number of turns, `maxlex` suffices. -/
def printHoles (map : List Nat) (maxlex : Nat) : Nat → Nat → Option (List (Nat × Nat))
  | 0, _ => some []
  | fuel + 1, minlex =>
    if minlex < maxlex then
      match getNextHole map (minlex + 1) with
      | none => none
      | some l_hole =>
        if l_hole = noLexId then some []
        else
          let h_hole := holeEnd map maxlex maxlex (l_hole + 1)
          (printHoles map maxlex fuel h_hole).map ((l_hole, h_hole - 1) :: ·)
    else some []

/-- What the tool prints on its output; the texts around the numbers are left out. -/
inductive HolesReport
  | noLexemes
  | lexemes (minlex maxlex : Nat) (holes : List (Nat × Nat))
deriving DecidableEq, Repr

/-- `PrintLexMap`, get-holes.cpp:129-159. -/
def printLexMap (map : List Nat) : Option HolesReport :=
  let minlex := getMinLexId map 0
  let maxlex := getMaxLexId map
  if minlex = noLexId ∨ maxlex = noLexId then some .noLexemes
  else (printHoles map maxlex maxlex minlex).map fun hs => .lexemes minlex maxlex hs

/-- `strtol( s, &end, 0 )` of the C library (64-bit `long`, "C" locale); see `strtoul0`. -/
def strtol0 (s : List Byte) : Int :=
  let s := s.dropWhile isSpaceC
  let neg := s.head? = some 45
  let s := if s.head? = some 45 ∨ s.head? = some 43 then s.drop 1 else s
  let hex := s.head? = some 48 ∧ (s.drop 1).head?.any (fun x => x = 120 ∨ x = 88) ∧
    (((s.drop 2).head?.bind digitVal).any fun d => d < 16)
  let n := if hex then readDigits 16 (s.drop 2) 0
    else if s.head? = some 48 then readDigits 8 s 0
    else readDigits 10 s 0
  if neg then (if n > 2 ^ 63 then -2 ^ 63 else -(n : Int)) else (if n ≥ 2 ^ 63 then 2 ^ 63 - 1 else (n : Int))

/-- The loop of `GetStringLID`, get-holes.cpp:168-178: `prev` is `str[-1]`, `s` the text from `str` to the terminator.
`none`: the text is read behind its terminator.  `fuel`: the number of turns, the length of the text suffices. -/
def stringLidFrom : Nat → Byte → List Byte → Option Nat
  | 0, _, _ => some 0
  | fuel + 1, prev, s =>
    match strstrAt (litBytes "LID:") s with
    | none => some 0
    | some (before, at_) =>
      if before.getLast?.getD prev ≤ 0x20 then
        let lid := strtol0 (at_.drop 4)
        if lid ≠ 0 then some (lid % 2 ^ 32).toNat
        else
          match at_.drop 4 with
          | [] => none
          | c :: rest => stringLidFrom fuel c rest
      else stringLidFrom fuel 76 (at_.drop 1)

/-- `GetStringLID`, get-holes.cpp:166-180. -/
def getStringLid (s : List Byte) : Option Nat :=
  match s with
  | [] => none
  | c :: rest => stringLidFrom (rest.length + 1) c rest

/-- The lines `fgets( buffer, 1024, src )` gives, as C strings (get-holes.cpp:189); `fuel`: the length of the file
suffices. -/
def holesLines : Nat → List Byte → List (List Byte)
  | 0, _ => []
  | fuel + 1, file =>
    if file = [] then []
    else (fgetsOne 0x3ff file).1.takeWhile (· ≠ 0) :: holesLines fuel (fgetsOne 0x3ff file).2

/-- `GetLexemeMap`, get-holes.cpp:185-198: the map and the numbers reported as already used, from the state given. -/
def getLexemeMap : List (List Byte) → List Nat × List Nat → Option (List Nat × List Nat)
  | [], st => some st
  | l :: ls, st =>
    match getStringLid l with
    | none => none
    | some 0 => getLexemeMap ls st
    | some lid =>
      let r := insertLexId st.1 lid
      getLexemeMap ls (r.1, if r.2 then st.2 ++ [lid] else st.2)

/-- `main`, get-holes.cpp:204-228, for a file that can be opened: what goes to the error stream and what is printed. -/
def getHoles (file : List Byte) : Option (List Nat × HolesReport) :=
  match getLexemeMap (holesLines file.length file) ([], []) with
  | none => none
  | some st => (printLexMap st.1).map fun r => (st.2, r)

end Libmorph
