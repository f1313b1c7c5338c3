import Verif.Model.EngRun
/-
The C++ wrappers over the byte interface: api.hpp:196-292.  They call the interface with buffers on
the stack; those buffers are uninitialised, so their content is a parameter.
-/
namespace Libmorph

/-- `string( strptr )`: the bytes up to the first zero; `none` when the memory ends before one. -/
def cstring (mem : List Byte) : Option (List Byte) := if 0 ∈ mem then some (mem.takeWhile (· != 0)) else none

/-- api.hpp:267-268, 288-289: take `n` strings, advancing by the length of the last one and its zero. -/
def splitForms : Nat → List Byte → Option (List (List Byte))
  | 0, _ => some []
  | n + 1, mem => do
    let s ← cstring mem
    let l ← splitForms n (mem.drop (s.length + 1))
    return s :: l

/-- `IMlmaXX::BuildForm( nlexid, idform )`, api.hpp:259-271; `buffer` are the 0x100 uninitialised bytes.
A negative result gives no strings. -/
def wrapBuildForm (im : Images) (junk buffer : List Byte) (nlexid idform : Nat) : Option (List (List Byte)) := do
  let (n, out) ← buildForm im junk (some buffer) nlexid idform
  splitForms n.toNat (out.getD [])

/-- `IMlmaXX::FindForms( szword, idform, dwsets )`, api.hpp:280-292. -/
def wrapFindForms (im : Images) (junk buffer w : List Byte) (idform dwsets : Nat) : Option (List (List Byte)) := do
  let (n, out) ← findForms im junk (some buffer) w idform dwsets
  splitForms n.toNat (out.getD [])

/-- `lexeme`, api.hpp:172-193: a record with its own copies of the text and of the descriptions. -/
structure Lexeme where
  nlexid : Nat
  lemma : List Byte
  grams : List Gram
deriving DecidableEq, Repr

/-- `lexeme( const LemmType& )`, api.hpp:176-182: `plemma` is never null here, because the form buffer is
supplied.  Reading outside the buffers is `none`. -/
def readLexeme (forms : List Byte) (grams : List Gram) (x : Lemm) : Option Lexeme := do
  let s ← cstring (forms.drop x.plemma)
  if x.ngrams ≠ 0 then
    if x.pgrams + x.ngrams ≤ grams.length then return ⟨x.nlexid, s, (grams.drop x.pgrams).take x.ngrams⟩ else none
  else return ⟨x.nlexid, s, []⟩

/-- `IMlmaXX::Lemmatize( szword, dwsets )`, api.hpp:223-250: 32 records, 64 descriptions, 256 bytes; an
error code is thrown as an exception (`Except.error`). -/
def wrapLemmatize (im : Images) (junk : List Byte) (lx : List Lemm) (gr : List Gram) (st : List Byte) (w : List Byte)
    (dwsets : Nat) : Option (Except Int (List Lexeme)) := do
  let (n, s) ← lemmatize im junk w (some lx) (some st) (some gr) dwsets
  if n < 0 then return .error n
  else
    let l := s.lemms.getD []
    if n.toNat ≤ l.length then
      let out ← (l.take n.toNat).mapM (readLexeme (s.forms.buf.getD []) (s.grams.getD []))
      return .ok out
    else none

/-- `IMlmaXX::GetWdInfo( nlexid )`, api.hpp:196-202: 0 unless the call succeeds. -/
def wrapGetWdInfo (im : Images) (junk : List Byte) (nlexid : Nat) : Option Nat := do
  let (n, w) ← getWdInfo im junk nlexid
  return if n > 0 then w.getD 0 else 0

end Libmorph
