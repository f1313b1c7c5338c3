import Verif.Model.Wrapper
import Verif.Model.RusRun
import Verif.Model.RusWild
import Verif.Model.Fuzzy
/-
The interfaces above the byte interface that are the same for the two languages: the C++ wrappers of api.hpp
196-437 and the Python classes of pybind11/morph-pad.hpp.  They are templates over the interface; here they take
the call of the interface as an argument.  Buffers are on the stack and uninitialised: their contents are
parameters.  Texts are byte strings (code page 1251); the conversions of pybind11 are not modelled, a Python
`bytes` object is its list of bytes.
-/
namespace Libmorph

/-! ### C++ -/

/-- `IMlmaXX::BuildForm( nlexid, idform )`, `IMlmaXX::FindForms( szword, idform, dwsets )`, api.hpp:259-271, 280-292;
`IMlfaXX::BuildForm( plemma, nclass, idform )`, api.hpp:420-431; `call` is the call of the interface with the buffer
of 0x100 bytes. -/
def wrapForms (call : List Byte → Option (Int × Option (List Byte))) (buffer : List Byte) : Option (List (List Byte)) := do
  let (n, out) ← call buffer
  splitForms n.toNat (out.getD [])

/-- `IMlmaXX::Lemmatize( szword, dwsets )`, api.hpp:223-250, as `wrapLemmatize`, for any implementation of the interface. -/
def wrapLemmas (call : Option (List Lemm) → Option (List Byte) → Option (List Gram) → Option (Int × LemmState))
    (lx : List Lemm) (gr : List Gram) (st : List Byte) : Option (Except Int (List Lexeme)) := do
  let (n, s) ← call (some lx) (some st) (some gr)
  if n < 0 then return .error n
  else
    let l := s.lemms.getD []
    if n.toNat ≤ l.length then
      let out ← (l.take n.toNat).mapM (readLexeme (s.forms.buf.getD []) (s.grams.getD []))
      return .ok out
    else none

/-- `IMlmaXX::GetWdInfo( nlexid )`, api.hpp:196-202, `IMlfaXX::GetWdInfo( nlexid )`, 325-331. -/
def wrapWdInfo (call : Option (Int × Option Byte)) : Option Nat := do
  let (n, w) ← call
  return if n > 0 then w.getD 0 else 0

/-- `IMlmaXX<IMlmaMb>::BuildForm( nlexid, idform )` of the Russian dictionary. -/
def rusWrapBuildForm (im : RusImages) (junk buffer : List Byte) (nlexid idform : Nat) : Option (List (List Byte)) :=
  wrapForms (fun b => rusBuildForm im junk (some b) nlexid idform) buffer

/-- `IMlmaXX<IMlmaMb>::FindForms( szword, idform, dwsets )` of the Russian dictionary. -/
def rusWrapFindForms (im : RusImages) (junk buffer w : List Byte) (idform dwsets : Nat) : Option (List (List Byte)) :=
  wrapForms (fun b => rusFindForms im junk (some b) w idform dwsets) buffer

/-- `IMlmaXX<IMlmaMb>::Lemmatize( szword, dwsets )` of the Russian dictionary. -/
def rusWrapLemmatize (im : RusImages) (junk : List Byte) (lx : List Lemm) (gr : List Gram) (st : List Byte) (w : List Byte)
    (dwsets : Nat) : Option (Except Int (List Lexeme)) :=
  wrapLemmas (fun L B G => rusLemmatize im junk w L B G dwsets) lx gr st

/-- `IMlmaXX<IMlmaMb>::GetWdInfo( nlexid )` of the Russian dictionary. -/
def rusWrapWdInfo (im : RusImages) (junk : List Byte) (nlexid : Nat) : Option Nat := wrapWdInfo (rusWdInfo im junk nlexid)

/-! ### Python, the dictionary -/

/-- `(dwsets & SF_IGNORE_CAPITALS) != 0 ? sfIgnoreCapitals : 0`, morph-pad.hpp:103, 122, 259: no other flag goes through. -/
def pySettings (dwsets : Nat) : Nat := if dwsets &&& 2 ≠ 0 then sfIgnoreCapitals else 0

/-- morph-pad.hpp:117, 121, 254, 258: no buffer for strings with SF_NO_LEMMA_STRING. -/
def pyStrings (dwsets : Nat) (st : List Byte) : Option (List Byte) := if dwsets &&& 4 = 0 then some st else none

/-- morph-pad.hpp:118, 122, 255, 259: no buffer for descriptions with SF_NO_GRAMMAR_DATA. -/
def pyGrams (dwsets : Nat) (gr : List Gram) : Option (List Gram) := if dwsets &&& 8 = 0 then some gr else none

/-- `XxLemmInfo`, morph-pad.hpp:13-19. -/
structure PyLemm where
  lexid : Nat
  text : Option (List Byte)
  grams : Option (List Gram)
deriving DecidableEq, Repr

/-- `next.lemma = stringType( lemm.plemma )`, morph-pad.hpp:130-131, 42-43; the pointer is null when there is no buffer. -/
def readPyText (forms : Option (List Byte)) (plemma : Nat) : Option (Option (List Byte)) :=
  match forms with
  | none => some none
  | some f => (cstring (f.drop plemma)).map some

/-- `next.grams = std::vector( lemm.pgrams, lemm.pgrams + lemm.ngrams )`, morph-pad.hpp:133-134, 45-46. -/
def readPyGrams (grams : List Gram) (pgrams ngrams : Nat) : Option (Option (List Gram)) :=
  if ngrams ≠ 0 then
    if pgrams + ngrams ≤ grams.length then some (some ((grams.drop pgrams).take ngrams)) else none
  else some none

/-- The body of the loop, morph-pad.hpp:127-136. -/
def readPyLemm (forms : Option (List Byte)) (grams : List Gram) (x : Lemm) : Option PyLemm := do
  let s ← readPyText forms x.plemma
  let g ← readPyGrams grams x.pgrams x.ngrams
  return ⟨x.nlexid, s, g⟩

/-- `MorphAPI::lemmatize`, morph-pad.hpp:109-139: 32 records, 2048 bytes, 512 descriptions; a negative result makes no turn of
the loop. -/
def pyLemmatize (call : Option (List Lemm) → Option (List Byte) → Option (List Gram) → Nat → Option (Int × LemmState))
    (lx : List Lemm) (st : List Byte) (gr : List Gram) (dwsets : Nat) : Option (List PyLemm) := do
  let (n, s) ← call (some lx) (pyStrings dwsets st) (pyGrams dwsets gr) (pySettings dwsets)
  let l := s.lemms.getD []
  if n.toNat ≤ l.length then (l.take n.toNat).mapM (readPyLemm s.forms.buf (s.grams.getD [])) else none

/-- `MorphAPI::check_word`, morph-pad.hpp:100-104. -/
def pyCheckWord (call : Nat → Option Int) (dwsets : Nat) : Option Int := call (pySettings dwsets)

/-- `MorphAPI::build_form`, morph-pad.hpp:144-160, `FuzzyAPI::build_form`, 271-287: 2048 bytes; the pointer moves behind the
zero of each string. -/
def pyBuildForm (call : List Byte → Option (Int × Option (List Byte))) (stbuff : List Byte) : Option (List (List Byte)) :=
  wrapForms call stbuff

/-! ### Python, the callback -/

/-- What a Python function does when it is called: returns an integer, raises, or returns something that is no integer
(`result.cast<int>()` throws `py::cast_error`). -/
inductive PyAnswer where
  | value (n : Int)
  | raises
  | noInt
deriving DecidableEq, Repr

/-- The lambda of `find_match`, morph-pad.hpp:169-185: an exception of Python is answered with -1; that of the cast goes on
to the caller. -/
def PyAnswer.code : PyAnswer → Option Int
  | .value n => some n
  | .raises => some (-1)
  | .noInt => none

/-- The calls up to and with the first one for which the lambda throws. -/
def heardBy (callback : List (Nat × List StrMatch) → PyAnswer) (before : List (Nat × List StrMatch)) :
    List (Nat × List StrMatch) → List (Nat × List StrMatch) × Bool
  | [] => (before, false)
  | c :: cs => if callback (before ++ [c]) = .noInt then (before ++ [c], true) else heardBy callback (before ++ [c]) cs

/-- `MorphAPI::find_match`, morph-pad.hpp:165-191, over the wrapper api.hpp:300-323; `callback` is what the Python function
does when these are all the calls it has had.  The exception of the cast leaves `FindMatch` at once: no further calls are
made, and the caller gets the exception (`Except.error`).  `search` gives the calls `FindMatch` makes; that these do
not depend on the answers is seen in `findMatch` and `rusFindMatch`. -/
def pyFindMatch (search : (List (Nat × List StrMatch) → Int) → Option (Int × List (Nat × List StrMatch)))
    (callback : List (Nat × List StrMatch) → PyAnswer) : Option (Except Unit Int × List (Nat × List StrMatch)) := do
  let (r, calls) ← search fun cs => (callback cs).code.getD 0
  let (heard, thrown) := heardBy callback [] calls
  return (if thrown then .error () else .ok r, heard)

/-! ### The probabilistic analyser -/

/-- `lexeme`, api.hpp:172-193, over `SStemInfoA`. -/
structure FuzzyLexeme (ω : Type) where
  ccstem : Nat
  nclass : Nat
  weight : ω
  text : Option (List Byte)
  grams : Option (List Gram)
deriving DecidableEq, Repr

/-- The string of a record: `plemma` is a null pointer, or points into the buffer, api.hpp:178, morph-pad.hpp:42-43. -/
def readStemText (forms : List Byte) (plemma : Option Nat) : Option (Option (List Byte)) :=
  match plemma with
  | none => some none
  | some o => (cstring (forms.drop o)).map some

/-- `lexeme( const LemmType& )`, api.hpp:176-182, and `XxStemInfo( stem )`, morph-pad.hpp:33-47. -/
def readStem {ω : Type} (forms : Option (List Byte)) (grams : Option (List Gram)) (x : FuzzyStem ω) : Option (FuzzyLexeme ω) := do
  let s ← readStemText (forms.getD []) x.plemma
  let g ← readPyGrams (grams.getD []) (x.pgrams.getD 0) x.ngrams
  return ⟨x.ccstem, x.nclass, x.weight, s, g⟩

/-- The records of a successful call, api.hpp:383-386, morph-pad.hpp:262-263. -/
def readStems {ω : Type} (n : Nat) (stems : Option (List (FuzzyStem ω))) (s : FuzzyState ω) : Option (List (FuzzyLexeme ω)) :=
  let l := stems.getD []
  if n ≤ l.length then (l.take n).mapM (readStem s.forms.buf s.grams) else none

/-- `IMlfaXX::Lemmatize( pszstr, dwsets )`, api.hpp:373-398: 0x20 stems, 0x200 bytes, 0x50 descriptions. -/
def wrapStems {ω : Type} (call : Option (List (FuzzyStem ω)) → Option (List Byte) → Option (List Gram) →
      Option (Int × Option (List (FuzzyStem ω)) × FuzzyState ω))
    (astems : List (FuzzyStem ω)) (aforms : List Byte) (agrams : List Gram) : Option (Except Int (List (FuzzyLexeme ω))) := do
  let (n, stems, s) ← call (some astems) (some aforms) (some agrams)
  if n < 0 then return .error n
  else
    let out ← readStems n.toNat stems s
    return .ok out

/-- `FuzzyAPI::lemmatize`, morph-pad.hpp:246-266: 32 stems, 2048 bytes, 512 descriptions. -/
def pyStems {ω : Type} (call : Option (List (FuzzyStem ω)) → Option (List Byte) → Option (List Gram) → Nat →
      Option (Int × Option (List (FuzzyStem ω)) × FuzzyState ω))
    (lx : List (FuzzyStem ω)) (st : List Byte) (gr : List Gram) (dwsets : Nat) : Option (List (FuzzyLexeme ω)) := do
  let (n, stems, s) ← call (some lx) (pyStrings dwsets st) (pyGrams dwsets gr) (pySettings dwsets)
  readStems n.toNat stems s

/-- `IMlfaXX::GetModels( uclass )`, api.hpp:339-357: 0x400 bytes; `FuzzyAPI::get_models`, morph-pad.hpp:232-241, hands the
strings on. -/
def wrapModels (im : FuzzyImages) (models : List Byte) (uclass : Nat) : Option (List (List Byte)) := do
  let (n, out) ← fuzzyGetModels im (some models) uclass
  if n > 0 then splitForms n.toNat (out.getD []) else return []

/-- `IMlfaXX::BuildForm( plemma, nclass, idform )`, api.hpp:420-431. -/
def wrapFuzzyForms (L : FuzzyLang) (im : FuzzyImages) (junk buffer stem : List Byte) (nclass idform : Nat) :
    Option (List (List Byte)) :=
  wrapForms (fun b => fuzzyBuildForm L im junk (some b) stem nclass idform) buffer

/-- `IMlfaXX::BuildForm( stinfo, idform )`, api.hpp:433-437: the stem is the first `ccstem` bytes at `plemma`; without
`plemma` the library would be passed a null pointer (undefined here). -/
def wrapStemForms {ω : Type} (L : FuzzyLang) (im : FuzzyImages) (junk buffer : List Byte) (x : FuzzyLexeme ω) (idform : Nat) :
    Option (List (List Byte)) := do
  let s ← x.text
  if x.ccstem ≤ s.length then wrapFuzzyForms L im junk buffer (s.take x.ccstem) x.nclass idform else none

end Libmorph
