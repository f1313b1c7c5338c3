import Verif.Model.Tools
import Verif.Model.RusRun
/-
The program that makes the table of weights of the fuzzy libraries from a text: lang-rus/libprob/tools/make-psp-tab.cpp and
lang-eng/libprob/tools/make-psp-tab.cpp.

Simplification: numbers of type `double` are rational numbers, sums and quotients are exact.
-/
namespace Libmorph

/-- `PspEntry`, make-psp-tab.cpp:8-11 (both languages): a vector of numbers with a weight.  The vector of entries is enlarged with value-initialised
entries, so that the weight of a new one is 0. -/
structure PspRow where
  weight : Rat := 0
  forms : List Rat := []
deriving DecidableEq

/-- What differs between the two programs. -/
structure PspTool where
  /-- the bytes that are skipped before a word, rus 55, eng 29 -/
  skip : Byte → Bool
  /-- the bytes of a word, rus 58, eng 32 -/
  take : Byte → Bool
  /-- the row for the `wdInfo` of a lexeme, rus 74, eng 48 -/
  rowOf : Nat → Nat
  /-- is a lexeme counted: the number of lexemes, the row, the first form; rus 77-83, eng 50-55 -/
  passes : Nat → Nat → Nat → Bool
  /-- the column for a form: the row, the form; rus 94-96, eng 66 -/
  formOf : Nat → Nat → Nat

/-- `MapVerbFid`, lang-rus/libprob/tools/make-psp-tab.cpp:16-19. -/
def mapVerbFid (fid : Nat) : Nat := if 6 ≤ fid ∧ fid ≤ 17 then fid + 12 else fid

/-- `ToPartOfSp`, lang-rus/libprob/tools/make-psp-tab.cpp:21-41; the argument is converted to `uint8_t`. -/
def toPartOfSp (psp : Nat) : Nat :=
  let psp := psp % 256
  let p := psp &&& 0x3f
  if 1 ≤ p ∧ p ≤ 6 then 1
  else if 7 ≤ p ∧ p ≤ 9 then 7
  else if 13 ≤ p ∧ p ≤ 15 then 13
  else if 16 ≤ p ∧ p ≤ 18 then 16
  else if p = 25 ∨ p = 26 then 25
  else if (38 ≤ p ∧ p ≤ 42) ∨ (44 ≤ p ∧ p ≤ 46) then psp
  else 0

/-- lang-rus/libprob/tools/make-psp-tab.cpp. -/
def rusPsp : PspTool where
  skip c := c ≤ 0xc0
  take c := 0xc0 ≤ c || c = 45
  rowOf := toPartOfSp
  passes lcount row form := !(row = 1 && form = 2 && decide (lcount > 1)) && form ≠ 0xff && row ≠ 0
  formOf row form := if row = 1 then mapVerbFid form else form

/-- lang-eng/libprob/tools/make-psp-tab.cpp. -/
def engPsp : PspTool where
  skip c := c < 0x41
  take c := 0x41 ≤ c || c = 45 || c = 39
  rowOf wdInfo := wdInfo
  passes _ row form := form ≠ 0xff && !(row = 0 || (row > 4 && row < 17) || row > 17)
  formOf _ form := form

/-- The words of a C string, rus 51-61, eng 25-35, at most `n` passes of the outer loop. -/
def pspWordsN (T : PspTool) : Nat → List Byte → List (List Byte)
  | 0, _ => []
  | n + 1, s =>
    if s = [] then []
    else
      let s := s.dropWhile T.skip
      let w := s.takeWhile T.take
      let rest := pspWordsN T n (s.dropWhile T.take)
      if w.length > 3 then w :: rest else rest

/-- Each pass but the last takes a byte at least. -/
def pspWords (T : PspTool) (s : List Byte) : List (List Byte) := pspWordsN T (s.length + 1) s

/-- `fgets( szline, 0x4000, infile )`, rus 47, eng 21: at most 0x3fff bytes, up to a newline (included). -/
def pspLines : List Byte → Nat → List Byte → List (List Byte)
  | [], _, cur => if cur = [] then [] else [cur]
  | c :: s, room, cur =>
    if c = 10 ∨ room ≤ 1 then (cur ++ [c]) :: pspLines s 0x3fff [] else pspLines s (room - 1) (cur ++ [c])

/-- The words that are looked up, in order; a line is read as a C string. -/
def pspFile (T : PspTool) (text : List Byte) : List (List Byte) :=
  (pspLines text 0x3fff []).flatMap fun l => pspWords T (l.takeWhile (· ≠ 0))

/-- `resize` where the vector is too short, then `+=`, rus 98-100, eng 68-70. -/
def addAt (l : List Rat) (i : Nat) (x : Rat) : List Rat :=
  let l := l ++ List.replicate (i + 1 - l.length) 0
  l.set i (l.getD i 0 + x)

/-- The forms of a lexeme, rus 92-101, eng 64-71: `ngrams` of them from `pgrams`. -/
def pspForms (T : PspTool) (row ngrams : Nat) (G : List Gram) : Nat → Nat → List Rat → Option (List Rat)
  | _, 0, l => some l
  | at_, n + 1, l => do
    let g ← G[at_]?
    pspForms T row ngrams G (at_ + 1) n (addAt l (T.formOf row g.idForm) (1 / (ngrams : Rat)))

/-- A lexeme, rus 74-101, eng 48-71. -/
def pspLexeme (T : PspTool) (lcount : Nat) (G : List Gram) (r : Lemm) (m : List PspRow) : Option (List PspRow) := do
  let first ← G[r.pgrams]?
  let row := T.rowOf first.wdInfo
  if T.passes lcount row first.idForm then
    let m := m ++ List.replicate (row + 1 - m.length) ({} : PspRow)
    let x := m.getD row {}
    let forms ← pspForms T row r.ngrams G r.pgrams r.ngrams x.forms
    return m.set row ⟨x.weight + 1 / (lcount : Rat), forms⟩
  else return m

/-- The lexemes from `i`, rus 72-102, eng 46-72. -/
def pspLexemes (T : PspTool) (lcount : Nat) (L : List Lemm) (G : List Gram) : Nat → Nat → List PspRow → Option (List PspRow)
  | _, 0, m => some m
  | i, n + 1, m => do
    let r ← L[i]?
    let m ← pspLexeme T lcount G r m
    pspLexemes T lcount L G (i + 1) n m

/-- A word, rus 63-103, eng 37-73: `call` is Lemmatize, without room for dictionary forms and capitals ignored, with records and descriptions as
they lie on the stack.  (`totalLexemes` is counted and never used.) -/
def pspWord (T : PspTool) (call : List Lemm → List Gram → List Byte → Option (Int × LemmState)) (L : List Lemm) (G : List Gram) (w : List Byte)
    (m : List PspRow) : Option (List PspRow) := do
  let (r, s) ← call L G w
  if r > 0 then
    let L ← s.lemms
    let G ← s.grams
    pspLexemes T r.toNat L G 0 r.toNat m
  else return m

/-- The words one after another; `stack k` is what lies on the stack at the `k`-th call. -/
def pspAll (T : PspTool) (call : List Lemm → List Gram → List Byte → Option (Int × LemmState)) (stack : Nat → List Lemm × List Gram) :
    List (List Byte) → Nat → List PspRow → Option (List PspRow)
  | [], _, m => some m
  | w :: ws, k, m => do
    let m ← pspWord T call (stack k).1 (stack k).2 w m
    pspAll T call stack ws (k + 1) m

/-- `Accumulate( morpho, infile )`, rus 43-108, eng 17-78. -/
def pspAccumulate (T : PspTool) (call : List Lemm → List Gram → List Byte → Option (Int × LemmState)) (stack : Nat → List Lemm × List Gram)
    (text : List Byte) : Option (List PspRow) := pspAll T call stack (pspFile T text) 0 []

/-- The division in `main`, rus 183-196, eng 162-175. In Lean a number divided by 0 is 0; that no number is divided by 0 is proved. -/
def pspNormal (m : List PspRow) : List PspRow :=
  let glsumm := (m.map PspRow.weight).sum
  m.map fun r => ⟨r.weight / glsumm, r.forms.map fun x => x / r.forms.sum⟩

/-- `%02x` of a byte. -/
def hexByte (n : Nat) : List Byte :=
  let digit := fun d : Nat => if d < 10 then 48 + d else 87 + d
  [digit (n / 16 % 16), digit (n % 16)]

/-- The numbers of `DumpRanges`, rus 134-139; `real` is `%6.4f`. -/
def pspNumbers (real : Rat → List Byte) : List Byte → Nat → List Rat → List Byte
  | _, _, [] => []
  | pre, i, x :: xs =>
    pre ++ real x ++ pspNumbers real (if (i + 1) % 12 = 0 then asciiBytes ",\n    " else asciiBytes ", ") (i + 1) xs

/-- `DumpRanges`, rus 124-142: the size is converted to `uint8_t`. -/
def pspRanges (real : Rat → List Byte) (psp : Nat) (tab : List Rat) : List Byte :=
  if tab = [] then []
  else
    asciiBytes "  static const float psp" ++ hexByte psp ++ asciiBytes "_ranges[0x" ++ hexByte (tab.length % 256) ++ asciiBytes "] =\n  {" ++
      pspNumbers real (asciiBytes "\n    ") 0 tab ++ asciiBytes "\n  };\n"

/-- The rows of the table, rus 159-171, eng 131-143. -/
def pspRows (real : Rat → List Byte) : List Byte → Nat → List PspRow → List Byte
  | _, _, [] => []
  | pre, i, r :: rs =>
    (if r.forms ≠ [] then
      pre ++ asciiBytes "\n    { " ++ real r.weight ++ asciiBytes ", psp" ++ hexByte i ++ asciiBytes "_ranges, " ++ decimal r.forms.length ++ asciiBytes " }"
    else pre ++ asciiBytes "\n    { 0.0000, nullptr, 0 }") ++ pspRows real (asciiBytes ",") (i + 1) rs

/-- `DumpMatrix`, rus 144-173, eng 114-147: `head`, `decl`, `name` and `tail` differ. -/
def pspDump (real : Rat → List Byte) (head decl : List Byte) (tail : List Byte) (m : List PspRow) : List Byte :=
  head ++ (m.zipIdx.flatMap fun p => pspRanges real p.2 p.1.forms) ++ decl ++ asciiBytes "[" ++ decimal m.length ++ asciiBytes "] =\n  {" ++
    pspRows real [] 0 m ++ asciiBytes "\n  };\n" ++ tail

/-- rus 151-156. -/
def rusPspDecl : List Byte := asciiBytes
  "  static struct\n  {\n    const float     weight;\n    const float*    ranges;\n    const uint16_t  maxLen;\n  } pspfid_Table"

/-- eng 123-128. -/
def engPspDecl : List Byte := asciiBytes
  "  struct tagPspProbTable\n  {\n    const float           weight;\n    const float*          ranges;\n    const unsigned short  maxLen;\n  } pspfidProbTable"

/-- The object that `main` asks for; a call through the null pointer is undefined. -/
def pspCall (lemm : ApiInst → List Lemm → List Gram → List Byte → Option (Int × LemmState)) (got : Option (Int × PtrWrite)) :
    Option (List Lemm → List Gram → List Byte → Option (Int × LemmState)) := do
  match (← got).2 with
  | .inst i => return lemm i
  | _ => return fun _ _ _ => none

/-- `main`, lang-rus/libprob/tools/make-psp-tab.cpp:175-201: `path` is the path written into the program, `file` what is found there, `got` what
`mlmaruGetAPI` does for the name "libmorph.api.v4:1251".  A file that is not there is reported, and the program goes on. -/
def rusPspMain (real : Rat → List Byte) (lemm : ApiInst → List Lemm → List Gram → List Byte → Option (Int × LemmState)) (got : Option (Int × PtrWrite))
    (stack : Nat → List Lemm × List Gram) (path : List Byte) (file : Option (List Byte)) : Option ToolRun := do
  let call ← pspCall lemm got
  let m ← match file with
    | some text => pspAccumulate rusPsp call stack text
    | none => some []
  return ⟨pspDump real [] rusPspDecl [] (pspNormal m),
    if file.isSome then [] else asciiBytes "Could not open file '" ++ path ++ asciiBytes "'\n", 0⟩

/-- `main`, lang-eng/libprob/tools/make-psp-tab.cpp:149-180: `name` is how the program was called, `args` its arguments, `got` what
`mlmaenGetAPI` does for the name "libmorph.api.v4:utf-8". EINVAL is 22, ENOENT 2. -/
def engPspMain (real : Rat → List Byte) (lemm : ApiInst → List Lemm → List Gram → List Byte → Option (Int × LemmState)) (got : Option (Int × PtrWrite))
    (stack : Nat → List Lemm × List Gram) (name : List Byte) (files : List Byte → Option (List Byte)) (args : List (List Byte)) : Option ToolRun := do
  let call ← pspCall lemm got
  match args with
  | [] => return ⟨[], asciiBytes "usage: " ++ name ++ asciiBytes " sample-text.txt\n", 22⟩
  | path :: _ =>
    match files path with
    | none => return ⟨[], asciiBytes "Could not open file '" ++ path ++ asciiBytes "'\n", 2⟩
    | some text =>
      let m ← pspAccumulate engPsp call stack text
      return ⟨pspDump real (asciiBytes "namespace NAMESPACE {\n\n") engPspDecl (asciiBytes "\n}\n") (pspNormal m), [], 0⟩

end Libmorph
