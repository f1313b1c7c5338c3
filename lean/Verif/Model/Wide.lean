import Verif.Model.EngRun
import Verif.Model.Wild
import Verif.Model.Fuzzy
/-
The interfaces for wide characters: xmorph/mlmawide.hpp, xmorph/mlfawide.hpp.

The word is given with its length (not by `(size_t)-1`, but for `wideFindForms`) and its pointer is not null.  The byte
interface is a parameter.  Arrays on the stack are not initialized: their content is a parameter.
-/
namespace Libmorph

/-- The external conversions (`moonycode`) for code page 1251: `widetombcs( 1251, out, cap, w )` (`none`: it returns -1) and
`mbcstowide( 1251, out, cap, str )` for a zero-terminated string: what it returns (`none`: -1) and what it writes. -/
structure Codec where
  narrow : Nat → List Nat → Option (List Byte)
  widen : Nat → List Byte → Option Nat × List Nat

/-- `SLemmInfoW`, api.h:121-127. -/
structure LemmW where
  nlexid : Nat
  plemma : Option Nat
  pgrams : Nat
  ngrams : Nat
deriving DecidableEq, Repr

/-- `output != nullptr && ...`, `plemma != nullptr && ...` in the conditions of the loops, mlmawide.hpp:91, 99. -/
def whenPtr {α β : Type} (x : Option α) (f : α → Option β) : Option (Option β) :=
  match x with
  | none => some none
  | some a => (f a).map some

/-- mlmawide.hpp:99-106, 129-136, 167-174, mlfawide.hpp:100-106, 138-144: convert `n` zero-terminated strings one after
another; `mem` is the memory from the current string on, `pos` the position in the buffer of the client. -/
def wideLoop (C : Codec) : Nat → List Byte → List Nat → Nat → Option (List Nat)
  | 0, _, out, _ => some out
  | n + 1, mem, out, pos =>
    if 0 ∈ mem then do
      let (r, written) := C.widen (out.length - pos) (mem.takeWhile (· ≠ 0))
      let out ← pokes out pos written
      let nccstr := match r with | some r => r + 1 | none => 0
      wideLoop C n (mem.drop nccstr) out (pos + nccstr)
    else none

/-- `CMlmaWc::CheckWord`, mlmawide.hpp:52-61. -/
def wideCheckWord (C : Codec) (check : List Byte → Option Int) (w : List Nat) : Option Int :=
  match C.narrow 0x30 w with
  | none => some WORDBUFF_FAILED
  | some s => check s

/-- mlmawide.hpp:91-97: the records; `lmbuff` is the array, `isNull` says that the buffer for texts is null. -/
def wideRecords (isNull : Bool) (lmbuff : List Lemm) : Nat → Nat → List LemmW → Option (List LemmW)
  | 0, _, out => some out
  | n + 1, i, out => do
    let x ← lmbuff[i]?
    if i < out.length then
      wideRecords isNull lmbuff n (i + 1) (out.set i ⟨x.nlexid, if isNull then none else some x.plemma, x.pgrams, x.ngrams⟩)
    else none

/-- `CMlmaWc::Lemmatize`, mlmawide.hpp:64-108; `lem` is the byte interface for a word, the arrays `lmbuff` of 32 records and
`szlemm` of 240 bytes have the given content.  (The byte interface may only use the beginnings it is told about.) -/
def wideLemmatize (C : Codec) (lem : List Byte → Option (List Lemm) → Option (List Byte) → Option (List Gram) → Option (Int × LemmState))
    (lmbuff : List Lemm) (szlemm : List Byte) (w : List Nat) (output : Option (List LemmW)) (plemma : Option (List Nat))
    (pgrams : Option (List Gram)) : Option (Int × Option (List LemmW) × Option (List Nat) × Option (List Gram)) := do
  match C.narrow 0xf0 w with
  | none => return (WORDBUFF_FAILED, output, plemma, pgrams)
  | some s =>
    let (lcount, st) ← lem s (output.map fun o => lmbuff.take (min o.length 0x20)) (plemma.map fun p => szlemm.take (min p.length 0xf0)) pgrams
    if lcount ≤ 0 then return (lcount, output, plemma, st.grams)
    else
      let output ← whenPtr output fun o => wideRecords plemma.isNone (st.lemms.getD []) lcount.toNat 0 o
      let plemma ← whenPtr plemma fun p => wideLoop C lcount.toNat (st.forms.buf.getD []) p 0
      return (lcount, output, plemma, st.grams)

/-- `CMlmaWc::BuildForm`, mlmawide.hpp:111-139; `build` is the byte interface for the lexeme and the form. -/
def wideBuildForm (C : Codec) (build : Option (List Byte) → Option (Int × Option (List Byte))) (szform : List Byte)
    (output : Option (List Nat)) : Option (Int × Option (List Nat)) := do
  match output with
  | none => return (ARGUMENT_FAILED, none)
  | some out =>
    if out.length = 0 then return (ARGUMENT_FAILED, some out)
    else
      let (fcount, b) ← build (some (szform.take (min out.length 98 - 1)))
      if fcount ≤ 0 then return (fcount, some out)
      else
        let out ← wideLoop C fcount.toNat (b.getD []) out 0
        return (fcount, some out)

/-- `CMlmaWc::FindForms`, mlmawide.hpp:142-177; `counted`: the length of the word is given (otherwise it is `(size_t)-1`). -/
def wideFindForms (C : Codec) (find : Option (List Byte) → List Byte → Option (Int × Option (List Byte))) (szform : List Byte)
    (output : Option (List Nat)) (w : List Nat) (counted : Bool) : Option (Int × Option (List Nat)) := do
  match output with
  | none => return (ARGUMENT_FAILED, none)
  | some out =>
    if out.length = 0 || counted && w.length = 0 then return (ARGUMENT_FAILED, some out)
    else
      match C.narrow (if counted then min w.length 98 else 98) w with
      | none => return (WORDBUFF_FAILED, some out)
      | some s =>
        let (fcount, b) ← find (some (szform.take (min out.length 98 - 1))) s
        if fcount ≤ 0 then return (fcount, some out)
        else
          let out ← wideLoop C fcount.toNat (b.getD []) out 0
          return (fcount, some out)

/-- `SStrMatch` of the wide interface: the string of `cc` wide characters, and the form. -/
structure StrMatchW where
  text : List Nat
  id : Nat
deriving DecidableEq, Repr

/-- `WcMatch::AddLexeme`, mlmawide.hpp:206-225: what the client is told; `buf` is the array `strbuf` of 0x200 * 0x30, `pos` is
`strptr`, `done` are the filled elements of `amatch` (512 of them), with their position in `strbuf`. -/
def wideMatches (C : Codec) : List StrMatch → List Nat → Nat → List (Nat × Nat × Nat) → Option (List Nat × List (Nat × Nat × Nat))
  | [], buf, _, done => some (buf, done)
  | m :: ms, buf, pos, done =>
    if done.length < 0x200 then do
      let (_, written) := C.widen (buf.length - pos) m.text
      let buf ← pokes buf pos written
      let buf ← pokes buf (pos + m.text.length) [0]
      wideMatches C ms buf (pos + m.text.length + 1) (done ++ [(pos, m.text.length, m.id)])
    else none

/-- `WcMatch::AddLexeme`, mlmawide.hpp:206-225: the strings the client of the wide interface gets. -/
def wideAddLexeme (C : Codec) (strbuf : List Nat) (ms : List StrMatch) : Option (List StrMatchW) := do
  let (buf, done) ← wideMatches C ms strbuf 0 []
  return done.map fun d => ⟨(buf.drop d.1).take d.2.1, d.2.2⟩

/-- `CMlmaWc::FindMatch`, mlmawide.hpp:186-201; `find` is the byte interface, which calls the given client.  The answer of the
wide client to the calls made so far is a function of what it was told; a call that is undefined makes everything
undefined. -/
def wideFindMatch (C : Codec) (strbuf : List Nat)
    (find : (List (Nat × List StrMatch) → Int) → List Byte → Option (Int × List (Nat × List StrMatch)))
    (client : List (Nat × List StrMatchW) → Int) (w : List Nat) : Option (Int × List (Nat × List StrMatchW)) := do
  if w.length = 0 then return (ARGUMENT_FAILED, [])
  else
    match C.narrow 0x30 w with
    | none => return (WORDBUFF_FAILED, [])
    | some s =>
      let told : List (Nat × List StrMatch) → Option (List (Nat × List StrMatchW)) := fun cs =>
        cs.mapM fun c => (wideAddLexeme C strbuf c.2).map fun x => (c.1, x)
      let (r, cs) ← find (fun cs => client ((told cs).getD [])) s
      let cs ← told cs
      return (r, cs)

/-! ### The fuzzy analysers: mlfawide.hpp -/

/-- mlfawide.hpp:90-98: the records. -/
def wideStems {ω : Type} (stbuff : List (FuzzyStem ω)) : Nat → Nat → List (FuzzyStem ω) → Option (List (FuzzyStem ω))
  | 0, _, out => some out
  | n + 1, i, out => do
    let x ← stbuff[i]?
    if i < out.length then wideStems stbuff n (i + 1) (out.set i x) else none

/-- `CMlfaWc::Lemmatize`, mlfawide.hpp:63-108 (an `SStemInfoW` differs from an `SStemInfoA` by what `plemma` points to). -/
def wideFuzzyLemmatize {ω : Type} (C : Codec)
    (lem : List Byte → Option (List (FuzzyStem ω)) → Option (List Byte) → Option (List Gram) →
      Option (Int × Option (List (FuzzyStem ω)) × FuzzyState ω))
    (stbuff : List (FuzzyStem ω)) (szlemm : List Byte) (w : List Nat) (output : Option (List (FuzzyStem ω)))
    (plemma : Option (List Nat)) (pgrams : Option (List Gram)) :
    Option (Int × Option (List (FuzzyStem ω)) × Option (List Nat) × Option (List Gram)) := do
  match C.narrow 0xf0 w with
  | none => return (WORDBUFF_FAILED, output, plemma, pgrams)
  | some s =>
    let (lcount, stems, st) ← lem s (output.map fun o => stbuff.take (min o.length 0x20)) (plemma.map fun p => szlemm.take (min p.length 0xf0)) pgrams
    if lcount ≤ 0 then return (lcount, output, plemma, st.grams)
    else
      let output ← whenPtr output fun o => wideStems (stems.getD []) lcount.toNat 0 o
      let plemma ← whenPtr plemma fun p => wideLoop C lcount.toNat (st.forms.buf.getD []) p 0
      return (lcount, output, plemma, st.grams)

/-- mlfawide.hpp:49-58: as `wideLoop`, but an error of the conversion is reported. -/
def wideModelsLoop (C : Codec) (mcount : Int) : Nat → List Byte → List Nat → Nat → Option (Int × List Nat)
  | 0, _, out, _ => some (mcount, out)
  | n + 1, mem, out, pos =>
    if 0 ∈ mem then do
      let (r, written) := C.widen (out.length - pos) (mem.takeWhile (· ≠ 0))
      let out ← pokes out pos written
      match r with
      | none => return (LEMMBUFF_FAILED, out)
      | some r => wideModelsLoop C mcount n (mem.drop (r + 1)) out (pos + r + 1)
    else none

/-- `CMlfaWc::GetModels`, mlfawide.hpp:39-60 (the buffer is not null); `get` is the byte interface for the class. -/
def wideGetModels (C : Codec) (get : Option (List Byte) → Option (Int × Option (List Byte))) (buffer : List Byte) (models : List Nat) :
    Option (Int × List Nat) := do
  let (mcount, b) ← get (some (buffer.take (min 0x400 models.length)))
  if mcount ≤ 0 then return (mcount, models)
  else wideModelsLoop C mcount mcount.toNat (b.getD []) models 0

/-- `CMlfaWc::BuildForm`, mlfawide.hpp:111-147 (the pointers are not null); `build` is the byte interface for the class and the
form. -/
def wideFuzzyForm (C : Codec) (build : Option (List Byte) → List Byte → Option (Int × Option (List Byte))) (szform : List Byte)
    (output : List Nat) (stem : List Nat) : Option (Int × List Nat) := do
  match C.narrow 0x40 stem with
  | none => return (WORDBUFF_FAILED, output)
  | some s =>
    let (fcount, b) ← build (some (szform.take (min output.length 0x5f))) s
    let out ← wideLoop C fcount.toNat (b.getD []) output 0
    return (fcount, out)

end Libmorph
