import Verif.Model.EngBuild
/-
Reading the source files of the English dictionary: tools/buildmorph.h `DictReader`, `CreateDict`;
lang-eng/libdict/buildic/makeeng.cpp `ResolveEng::operator()`.

A line is the bytes of the C string, without the terminating zero.
-/
namespace Libmorph

/-- `(unsigned char)c <= 0x20`. -/
def isBlank (c : Byte) : Bool := c ≤ 0x20

/-- `strstr( s, needle )`: the text before the first occurrence and the text from it on. -/
def strstrAt (needle : List Byte) : List Byte → Option (List Byte × List Byte)
  | [] => if needle.isPrefixOf [] then some ([], []) else none
  | c :: s =>
    if needle.isPrefixOf (c :: s) then some ([], c :: s)
    else (strstrAt needle s).map fun p => (c :: p.1, p.2)

/-- `isspace` in the "C" locale. -/
def isSpaceC (c : Byte) : Bool := c = 32 || (9 ≤ c && c ≤ 13)

/-- The value of a digit or a letter. -/
def digitVal (c : Byte) : Option Nat :=
  if 48 ≤ c ∧ c ≤ 57 then some (c - 48)
  else if 65 ≤ c ∧ c ≤ 90 then some (c - 55)
  else if 97 ≤ c ∧ c ≤ 122 then some (c - 87)
  else none

/-- The longest run of digits of the base. -/
def readDigits (base : Nat) : List Byte → Nat → Nat
  | [], n => n
  | c :: s, n =>
    match digitVal c with
    | some d => if d < base then readDigits base s (n * base + d) else n
    | none => n

/-- `strtoul( s, &end, 0 )` of the C library (64-bit `unsigned long`, "C" locale): blanks, a sign, then "0x" and
hexadecimal digits, "0" and octal digits, or decimal digits; 2^64 - 1 when the number does not fit. -/
def strtoul0 (s : List Byte) : Nat :=
  let s := s.dropWhile isSpaceC
  let neg := s.head? = some 45
  let s := if s.head? = some 45 ∨ s.head? = some 43 then s.drop 1 else s
  let hex := s.head? = some 48 ∧ (s.drop 1).head?.any (fun x => x = 120 ∨ x = 88) ∧
    (((s.drop 2).head?.bind digitVal).any fun d => d < 16)
  let n := if hex then readDigits 16 (s.drop 2) 0
    else if s.head? = some 48 then readDigits 8 s 0
    else readDigits 10 s 0
  if n ≥ 2 ^ 64 then 2 ^ 64 - 1 else if neg then (2 ^ 64 - n) % 2 ^ 64 else n

/-- `partSpMapper`, makeeng.cpp:287-310. -/
def partSpMapper : List (String × Nat) :=
  [("unknown", 0), ("N", 1), ("V", 2), ("A", 3), ("ADV", 4), ("NUM", 5), ("INT", 6), ("CONJ", 7), ("PREP", 8), ("REFL", 9),
   ("PERS", 10), ("INDEF", 11), ("POSS", 12), ("DEMO", 13), ("REL", 14), ("ART", 15), ("PARTICLE", 16), ("INTER", 17),
   ("NAME", 18), ("V_BE", 19)]

/-- The bytes of a literal. -/
def litBytes (s : String) : List Byte := s.toList.map Char.toNat

/-- `ResolveEng::MapPartOfSpeech`, makeeng.cpp:402-410; `none`: an exception is thrown. -/
def mapPartOfSpeech (ps : List Byte) : Option Nat := (partSpMapper.find? fun p => litBytes p.1 = ps).map (·.2)

/-- `ResolveEng::FindStemPostfix`, makeeng.cpp:412-427. -/
def findStemPostfix (s : List Byte) : List Byte :=
  match strstrAt (litBytes "post:") s with
  | some (_, at_) => ((at_.drop 5).dropWhile isBlank).takeWhile fun c => !isBlank c
  | none => []

/-- What becomes of a line: nothing, an article, the program stops with an exception. -/
inductive LineResult
  | skip
  | article (a : Article)
  | stop
deriving DecidableEq, Repr

/-- `ResolveEng::operator()`, makeeng.cpp:324-400, up to the tables (`EngState.resolve` does the rest); `none`: `partSp` (64
bytes) overflows, or the suffix is longer than what it is cut off.  A text of 256 bytes or more fails the `assert` in line
335: the program stops (compiled without asserts it would overflow `szstem`; not modelled). -/
def engArticle (article : List Byte) (id : Nat) : Option LineResult :=
  let stpost := findStemPostfix article
  if article.length ≥ 256 then some .stop
  else
    let s := article.dropWhile isBlank
    let stem := s.takeWhile fun c => c ≠ 124 && !isBlank c
    let s := s.dropWhile fun c => c ≠ 124 && !isBlank c
    if s = [] then some .stop
    else if stem.length < stpost.length then none
    else
      let flex := s.takeWhile fun c => !isBlank c
      let s := s.dropWhile fun c => !isBlank c
      if s = [] then some .stop
      else
        let ps := (s.dropWhile isBlank).takeWhile fun c => !isBlank c
        if ps.length ≥ 64 then none
        else if ps = [] then some .stop
        else
          match mapPartOfSpeech ps with
          | none => some .stop
          | some pos => some (.article ⟨stem.take (stem.length - stpost.length), flex, pos, stpost, id⟩)

/-- buildmorph.h:192-195: blanks cut off at both ends. -/
def trimLine (s : List Byte) : List Byte := ((s.dropWhile isBlank).reverse.dropWhile isBlank).reverse

/-- `DictReader`, buildmorph.h:192-217: one line (already converted to code page 1251). -/
def engLine (line : List Byte) : Option LineResult :=
  let s := trimLine line
  if s = [] then some .skip
  else if (litBytes "//").isPrefixOf s then some .skip
  else
    match strstrAt (litBytes "LID:") s with
    | none => some .skip
    | some (before, from_) =>
      match before.getLast? with
      | none => some .skip
      | some c =>
        if c ≠ 9 ∧ c ≠ 32 then some .skip
        else
          let nlexid := strtoul0 (from_.drop 4) % 2 ^ 32
          if nlexid = 0 then some .skip else engArticle s nlexid

/-- `fgets( , 0x3ff, source )`, buildmorph.h:181: at most 0x3fe bytes, up to a newline (included).  `room`: how many bytes
may still be read into the current line `cur`. -/
def fgetsAll : List Byte → Nat → List Byte → List (List Byte)
  | [], _, cur => if cur = [] then [] else [cur]
  | c :: s, room, cur =>
    if c = 10 ∨ room ≤ 1 then (cur ++ [c]) :: fgetsAll s 0x3fe [] else fgetsAll s (room - 1) (cur ++ [c])

/-- buildmorph.h:181-190: the lines of a file as C strings, converted (`codepages::mbcstombcs`, external: `conv`). -/
def sourceLines (conv : List Byte → List Byte) (file : List Byte) : List (List Byte) :=
  (fgetsAll file 0x3fe []).map fun l => conv (l.takeWhile (· ≠ 0))

/-- `DictReader`, buildmorph.h:181-230, for any number of lines; inner `none`: the program stops. -/
def engRead (st : EngState) : List (List Byte) → Option (Option EngState)
  | [] => some (some st)
  | l :: ls =>
    match engLine l with
    | none => none
    | some .skip => engRead st ls
    | some .stop => some none
    | some (.article a) => engRead (st.resolve a) ls

/-- `CreateDict`, buildmorph.h:110-134, over the files. -/
def engCompile (conv : List Byte → List Byte) (files : List (List Byte)) : Option (Option EngState) :=
  engRead {} (files.map (sourceLines conv)).flatten

end Libmorph
