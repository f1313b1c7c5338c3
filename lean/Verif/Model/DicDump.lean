import Verif.Model.Dump
import Verif.Model.Python
/-
The control dump of the dictionary: lang-rus/dicdump/dicdump.cpp.  A line is its bytes, without the newline.
-/
namespace Libmorph

abbrev DumpLine := List Byte

/-! ### The lines of the dictionary -/

/-- `std::map::insert`, dicdump.cpp:137: a form number that has a form keeps it.  (The numbers come in increasing order, so the list is in the order of the map.) -/
def keepFirst (m : List (Nat × List Byte)) (k : Nat) (s : List Byte) : List (Nat × List Byte) := if k ∈ m.map Prod.fst then m else m ++ [(k, s)]

/-- `Libmorphrus::Get( lexeme_t )` without `Cut`, dicdump.cpp:128-138; `forms` is BuildForm with a buffer of 256 bytes and the strings it has filled in. -/
def formMap (forms : Nat → Option (List (List Byte))) : Option (List (Nat × List Byte)) :=
  (List.range 0x100).foldlM (fun m f => do return (← forms f).foldl (fun m s => keepFirst m f s) m) []

/-- dicdump.cpp:118-119: the length `n` is made less until the words agree in so many letters. -/
def shrinkStem (base s : List Byte) : Nat → Nat
  | 0 => 0
  | n + 1 => if base.take (n + 1) = s.take (n + 1) then n + 1 else shrinkStem base s n

/-- `Libmorphrus::Cut`, dicdump.cpp:102-126. -/
def cutMap : List (Nat × List Byte) → List (Nat × List Byte)
  | [] => []
  | (k, s) :: m =>
    let n := m.foldl (fun n p => shrinkStem s p.2 n) s.length
    (k, s) :: m.map fun p => (p.1, p.2.drop n)

/-- dicdump.cpp:150-154: the items of a line; `none`: an item does not fit 256 bytes. -/
def lexItems : List Byte → List (Nat × List Byte) → Option (List Byte)
  | _, [] => some []
  | div, (k, s) :: m => do
    let item := div ++ s ++ cText "|" ++ hexText 2 k
    if item.length < 0x100 then return item ++ (← lexItems (cText "/") m) else none

/-- `Libmorphrus::Map`, dicdump.cpp:142-157. -/
def lexLine (lex : Nat) (m : List (Nat × List Byte)) : Option DumpLine := (lexItems [] m).map (hexText 1 lex ++ [9] ++ ·)

/-- What `Libmorphrus` asks the analyser: the forms of a lexeme, and whether GetWdInfo is 0. -/
structure DumpApi where
  forms : Nat → Nat → Option (List (List Byte))
  unknown : Nat → Option Bool

/-- The Russian analyser; `buffer`: what the buffer on the stack has before each call, `junk`: the key buffers. -/
def rusDumpApi (im : RusImages) (junk : Nat → List Byte) (buffer : Nat → Nat → List Byte) : DumpApi :=
  ⟨fun id f => rusWrapBuildForm im (junk id) (buffer id f) id f, fun id => (rusWdInfo im (junk id) id).map fun r => r.1 == 0⟩

/-- `Libmorphrus::Get()`, dicdump.cpp:84-100, at the number `id`, `n` numbers being left; `skip`: inside of the loop of 96-97.  The line and the next number. -/
def dumpNext (A : DumpApi) : Nat → Nat → Bool → Option (DumpLine × Nat)
  | 0, id, _ => some ([], id)
  | n + 1, id, skip => do
    if ← (if skip then A.unknown id else some false) then dumpNext A n (id + 1) true
    else
      match cutMap (← formMap (A.forms id)) with
      | [] => dumpNext A n (id + 1) true
      | p :: m => return (← lexLine id (p :: m), id + 1)

/-- The numbers are below this, dicdump.cpp:86. -/
def dumpLimit : Nat := 0x40000

/-- The lines `Libmorphrus::Get()` gives one after another, at most `k`. -/
def dumpLinesFrom (A : DumpApi) : Nat → Nat → Option (List DumpLine)
  | 0, _ => some []
  | k + 1, id => do
    let (s, id) ← dumpNext A (dumpLimit - id) id false
    if s = [] then return [] else return s :: (← dumpLinesFrom A k id)

/-- The lines of the dictionary. -/
def dumpLines (A : DumpApi) : Option (List DumpLine) := dumpLinesFrom A (dumpLimit + 1) 0

/-- `DumpDict`, dicdump.cpp:182-189: the text printed. -/
def dumpDict (A : DumpApi) : Option (List Byte) := (dumpLines A).map fun ls => ls.flatMap (· ++ [10])

/-! ### The lines of a file -/

/-- `fgets( , n + 1, )`: the bytes read and the rest of the file. -/
def fgetsOne : Nat → List Byte → List Byte × List Byte
  | 0, s => ([], s)
  | _ + 1, [] => ([], [])
  | n + 1, c :: s => if c = 10 then ([10], s) else let r := fgetsOne n s; (c :: r.1, r.2)

theorem fgetsOne_length : ∀ (n : Nat) (s : List Byte), (fgetsOne n s).2.length ≤ s.length
  | 0, s => by simp [fgetsOne]
  | n + 1, [] => by simp [fgetsOne]
  | n + 1, c :: s => by
    rw [fgetsOne]
    split
    · simp
    · have := fgetsOne_length n s
      simp; omega

theorem fgetsOne_shorter (n : Nat) (c : Byte) (s : List Byte) : (fgetsOne (n + 1) (c :: s)).2.length < (c :: s).length := by
  rw [fgetsOne]
  split
  · simp
  · have := fgetsOne_length n s
    simp; omega

/-- `DumpedQueue::Get`, dicdump.cpp:159-180: the line and the rest of the file. -/
def queueGet (file : List Byte) : DumpLine × List Byte :=
  match file with
  | [] => ([], [])
  | c :: s =>
    let s1 := (fgetsOne 0x3ff (c :: s)).1.takeWhile (· ≠ 0)
    if s1.getLast? = some 10 then (s1.dropLast, (fgetsOne 0x3ff (c :: s)).2)
    else
      let r := queueGet (fgetsOne 0x3ff (c :: s)).2
      (s1 ++ r.1, r.2)
termination_by file.length
decreasing_by exact fgetsOne_shorter _ c s

/-- The lines a file gives one after another, up to its end; an empty line is one too.  `k` limits their number. -/
def queueLines : Nat → List Byte → List DumpLine
  | 0, _ => []
  | k + 1, file => if file = [] then [] else (queueGet file).1 :: queueLines k (queueGet file).2

/-! ### The comparison -/

/-- What is printed. -/
inductive DiffOut where
  | left (s : DumpLine)
  | right (s : DumpLine)
  | tooBig
deriving DecidableEq

/-- `Get` of a source that has the given lines and then is at its end. -/
def srcGet : List DumpLine → DumpLine × List DumpLine
  | [] => ([], [])
  | s :: r => (s, r)

/-- `LoadList`, dicdump.cpp:191-201. -/
def loadList (vec : List DumpLine) (lim : Nat) : List DumpLine → List DumpLine × List DumpLine
  | [] => (vec, [])
  | s :: r => if vec.length < lim then (if s = [] then (vec, r) else loadList (vec ++ [s]) lim r) else (vec, s :: r)

/-- dicdump.cpp:228-232. -/
def skipSame : List DumpLine → List DumpLine → List DumpLine × List DumpLine
  | x :: v, y :: w => if x = y then skipSame v w else (x :: v, y :: w)
  | v, w => (v, w)

/-- dicdump.cpp:235-246 and 249-260: the lines printed, and what stays of the list `v`. -/
def popDiff (w : List DumpLine) : List DumpLine → List DumpLine × List DumpLine
  | [] => ([], [])
  | x :: v => if x ∈ w then ([], x :: v) else (x :: (popDiff w v).1, (popDiff w v).2)

/-- The lists, what is left of the sources, what is printed. -/
structure DiffState where
  v1 : List DumpLine
  v2 : List DumpLine
  src1 : List DumpLine
  src2 : List DumpLine
  out : List DiffOut
deriving DecidableEq

/-- One round, dicdump.cpp:227-263. -/
def DiffState.round (d : DiffState) : DiffState :=
  let (v1, v2) := skipSame d.v1 d.v2
  let (l, v1) := popDiff v2 v1
  let (r, v2) := popDiff v1 v2
  let (v1, src1) := loadList v1 v2.length d.src1
  let (v2, src2) := loadList v2 v1.length d.src2
  ⟨v1, v2, src1, src2, d.out ++ l.map .left ++ r.map .right⟩

/-- dicdump.cpp:225-264; `none`: more than `n` rounds. -/
def diffLoop : Nat → DiffState → Option DiffState
  | 0, _ => none
  | n + 1, d => if d.v1 = [] ∨ d.v2 = [] then some d else diffLoop n d.round

/-- `DumpDiff`, dicdump.cpp:203-275; `none`: more than `n` rounds. -/
def dumpDiff : Nat → List DumpLine → List DumpLine → List DiffOut → Option (List DiffOut)
  | 0, _, _, _ => none
  | n + 1, src1, src2, out =>
    let (s1, src1) := srcGet src1
    let (s2, src2) := srcGet src2
    if s1 = [] ∧ s2 = [] then some out
    else if s1 = s2 then dumpDiff n src1 src2 out
    else
      let (v1, src1) := loadList [s1] 0x400 src1
      let (v2, src2) := loadList [s2] 0x400 src2
      match diffLoop n ⟨v1, v2, src1, src2, out⟩ with
      | none => none
      | some d => if d.v1 = [] ∧ d.v2 = [] then dumpDiff n d.src1 d.src2 d.out else some (d.out ++ [.tooBig])

end Libmorph
