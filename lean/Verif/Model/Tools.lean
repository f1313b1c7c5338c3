import Verif.Model.Python
import Verif.Model.Factory
import Verif.Model.CodePage
/-
The command line tools utils/lemmatize.cpp and utils/stematize.cpp: what they print.
-/
namespace Libmorph

/-! ### `printf` -/

/-- The decimal digits of a number below `10^f`. -/
def decimalUpTo : Nat → Nat → List Byte
  | 0, _ => []
  | f + 1, n => if n < 10 then [48 + n] else decimalUpTo f (n / 10) ++ [48 + n % 10]

/-- `%u`, `%d` of a number that is not negative. -/
def decimal (n : Nat) : List Byte := decimalUpTo (n + 1) n

/-- A minimal width: spaces in front. -/
def padded (width : Nat) (t : List Byte) : List Byte := List.replicate (width - t.length) 32 ++ t

/-- The loops that print `prefix` and then an item, `prefix` being "" before the first and `sep` before the others:
utils/lemmatize.cpp:24-39, 35-36. -/
def printItems (pre sep : List Byte) : List (List Byte) → List Byte
  | [] => []
  | t :: ts => pre ++ t ++ printItems sep sep ts

/-! ### utils/lemmatize.cpp -/

/-- One round of the loop, utils/lemmatize.cpp:24-39, without the prefix: `plemma` is printed as a zero-terminated string, `pgrams`
is looked at even if `ngrams` is 0.  `none`: it reads outside the buffers. -/
def printLemma (forms : List Byte) (grams : List Gram) (x : Lemm) : Option (List Byte) := do
  let t ← cstring (forms.drop x.plemma)
  let g ← grams[x.pgrams]?
  if x.pgrams + x.ngrams ≤ grams.length then
    return asciiBytes "\n  { \"lemma\": \"" ++ t ++ asciiBytes "\",\t\"lexid\": " ++ padded 6 (decimal x.nlexid) ++ asciiBytes ", \"psp\": " ++
      padded 2 (decimal (g.wdInfo &&& 0x3f)) ++ asciiBytes ", \"forms\": [" ++
      printItems [] (asciiBytes ", ") (((grams.drop x.pgrams).take x.ngrams).map fun g => decimal g.idForm) ++ asciiBytes "] }"
  else none

/-- `Lemmatize`, utils/lemmatize.cpp:8-42: `call` is the call of the analyser with the three buffers, of 0x10 records, 0x100 bytes and
0x40 descriptions, not initialised.  The result is what goes to the standard output and the value returned. -/
def lemmatizeTool (call : Option (List Lemm) → Option (List Byte) → Option (List Gram) → Option (Int × LemmState))
    (lexset : List Lemm) (stbuff : List Byte) (grbuff : List Gram) : Option (List Byte × Nat) := do
  let (lcount, s) ← call (some lexset) (some stbuff) (some grbuff)
  if lcount = 0 then return (asciiBytes "[]", 0)
  else
    let l := s.lemms.getD []
    if lcount.toNat ≤ l.length then
      let ts ← (l.take lcount.toNat).mapM (printLemma (s.forms.buf.getD []) (s.grams.getD []))
      return (asciiBytes "[" ++ printItems [] (asciiBytes ",") ts ++ asciiBytes "\n]", 0)
    else none

/-! ### utils/stematize.cpp -/

/-- One round of the loop, utils/stematize.cpp:26-44; `fmt` is `printf( "%6.4f" )`. -/
def printStem {ω : Type} (fmt : ω → List Byte) (forms : List Byte) (grams : List Gram) (x : FuzzyStem ω) : Option (List Byte) := do
  let p ← x.plemma
  let q ← x.pgrams
  let t ← cstring (forms.drop p)
  let g ← grams[q]?
  if q + x.ngrams ≤ grams.length then
    return asciiBytes "\n  { \"lemma\": \"" ++ t ++ asciiBytes "\",\t\"score\": " ++ fmt x.weight ++ asciiBytes ", \"class\": " ++
      padded 3 (decimal x.nclass) ++ asciiBytes ", \"psp\": " ++ padded 2 (decimal (g.wdInfo &&& 0x3f)) ++ asciiBytes ", \"forms\": [" ++
      printItems [] (asciiBytes ", ") (((grams.drop q).take x.ngrams).map fun g => decimal g.idForm) ++ asciiBytes "] }"
  else none

/-- `Stematize`, utils/stematize.cpp:10-47, with buffers of 0x40 stems, 0x100 bytes and 0x40 descriptions. -/
def stematizeTool {ω : Type} (fmt : ω → List Byte) (call : Option (List (FuzzyStem ω)) → Option (List Byte) → Option (List Gram) →
      Option (Int × Option (List (FuzzyStem ω)) × FuzzyState ω))
    (stmset : List (FuzzyStem ω)) (stbuff : List Byte) (grbuff : List Gram) : Option (List Byte × Nat) := do
  let (scount, stems, s) ← call (some stmset) (some stbuff) (some grbuff)
  if scount = 0 then return (asciiBytes "[]", 0)
  else
    let l := stems.getD []
    if scount.toNat ≤ l.length then
      let ts ← (l.take scount.toNat).mapM (printStem fmt (s.forms.buf.getD []) (s.grams.getD []))
      return (asciiBytes "[" ++ printItems [] (asciiBytes ",") ts ++ asciiBytes "\n]", 0)
    else none

/-! ### `main` -/

/-- What a run of the program leaves: standard output, standard error, exit status. -/
structure ToolRun where
  out : List Byte
  err : List Byte
  status : Nat
deriving DecidableEq, Repr

/-- An exit with a message: the value returned from `main` is the length that `fprintf` returns, of which the system keeps the low
8 bits. -/
def failWith (msg : List Byte) : ToolRun := ⟨[], msg, msg.length % 256⟩

/-- `main`, utils/lemmatize.cpp:50-84 (`magic` = `libmorphMagic`) and utils/stematize.cpp:55-89 (`libfuzzyMagic`).  `load` is the
shared library at a path, `none` when it cannot be loaded: it maps names to functions that hand out objects; `run` is `Lemmatize`
or `Stematize` with an object and the word.  `about` contains no percent sign. -/
def toolMain (magic : String) (about : List Byte) (load : List Byte → Option (List Byte → Option (List Byte → Option (Int × PtrWrite))))
    (run : ApiInst → List Byte → Option (List Byte × Nat)) (args : List (List Byte)) : Option ToolRun :=
  match args with
  | path :: fn :: word :: _ =>
    match load path with
    | none => some (failWith (asciiBytes "Error: could not load library '" ++ path ++ asciiBytes "'\n"))
    | some find =>
      let fnName := fn.takeWhile (· ≠ 58)
      let encode := if 58 ∈ fn then fn.dropWhile (· ≠ 58) else asciiBytes ":utf-8"
      if encode = [] then some (failWith (asciiBytes "Error: empty encoding string\n"))
      else
        match find fnName with
        | none => some (failWith (asciiBytes "Error: could not find function '" ++ fnName ++ asciiBytes "'\n"))
        | some getAPI => do
          let (r, p) ← getAPI (asciiBytes magic ++ encode ++ [0])
          if r ≠ 0 then return failWith (asciiBytes "Error: could not load morphological analyser API. Invalid codepage string?\n")
          else
            match p with
            | .inst i => do
              let (out, status) ← run i word
              return ⟨out, [], status⟩
            | _ => none
  | _ => some ⟨about, [], 0⟩

end Libmorph

namespace Libmorph

/-- The program `lemmatize` with the Russian library: `Lemmatize` is called for the object of the code page (mlmamain.cpp:385-415); the
object for wide characters has another table of functions, calling it is undefined. -/
def rusToolRun (pages : ApiInst → Page) (im : RusImages) (junk : List Byte) (lexset : List Lemm) (stbuff : List Byte) (grbuff : List Gram)
    (i : ApiInst) (word : List Byte) : Option (List Byte × Nat) :=
  match i with
  | .wide => none
  | .cp1251 => lemmatizeTool (fun L B G => rusLemmatize im junk word L B G sfIgnoreCapitals) lexset stbuff grbuff
  | i => lemmatizeTool (fun L B G => rusLemmatizeIn (pages i) im junk word L B G sfIgnoreCapitals) lexset stbuff grbuff

/-- The functions of the Russian library a program finds by name: `mlmaruGetAPI` (mlmamain.cpp:467-481). -/
def rusToolLibrary (name : List Byte) : Option (List Byte → Option (Int × PtrWrite)) :=
  if name = asciiBytes "mlmaruGetAPI" then some fun key => rusGetAPI libmorphMagic (some key) true else none

end Libmorph
