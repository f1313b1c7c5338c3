import Verif.Model.EngBuild
/-
The English analyser: lang-eng/libdict/*.  All functions work on the images the compiler wrote.

Conventions: an outer `none` is undefined behaviour (a read or write outside a buffer, a read of
memory never written); a callback returns `some r` for a non-zero result `r` (the scan stops).
-/
namespace Libmorph

/-- xmorph/typedefs.h or api.h error codes. -/
abbrev LEMMBUFF_FAILED : Int := -1
abbrev LIDSBUFF_FAILED : Int := -2
abbrev GRAMBUFF_FAILED : Int := -3
abbrev WORDBUFF_FAILED : Int := -4
abbrev ARGUMENT_FAILED : Int := -5

/-- A C++ result: zero lets the scan go on, anything else stops it (xmorph/scandict.h:181-186, 238). -/
def retInt (r : Int) : Option Int := if r = 0 then none else some r

/-- `steminfo`, lang-eng/libdict/mlmadefs.h:66-69. -/
structure StemInfo where
  wdinfo : Nat
  tfoffs : Nat
deriving DecidableEq, Repr

/-- `steminfo::Load( classmap + oclass )`, mlmadefs.h:72-85. -/
def loadStem (classmap : List Byte) (oclass : Nat) : Option StemInfo := do
  let (w, p) ← getword16 (classmap.drop oclass)
  let (t, _) ← getword16 p
  return ⟨w, t⟩

/-- `steminfo::MinCapScheme`, mlmadefs.h:86-89. -/
def StemInfo.minCap (s : StemInfo) : Nat := (s.wdinfo >>> 7) &&& 0x3

/-- `steminfo::GetFlexTable`, mlmadefs.h:90-93. -/
def StemInfo.flexTable (s : StemInfo) (flexTree : List Byte) : Option (List Byte) :=
  if s.tfoffs ≠ 0 then some (flexTree.drop s.tfoffs) else none

/-- `SGramInfo`, api.h. -/
structure Gram where
  wdInfo : Nat
  idForm : Nat
  grInfo : Nat
  bFlags : Nat
deriving DecidableEq, Repr

/-- `memcmp( a, b, n )` as an ordering; `none` when one of the two memories is shorter than `n`. -/
def memcmp : List Byte → List Byte → Nat → Option Ordering
  | _, _, 0 => some .eq
  | x :: a, y :: b, n + 1 => if x < y then some .lt else if y < x then some .gt else memcmp a b n
  | _, _, _ + 1 => none

/-- `rescmp`, lang-eng/libdict/scanClass.hpp:55. -/
def cmpFlex (szflex inflex : List Byte) (cmplen : Nat) : Option Ordering :=
  if cmplen > 0 then memcmp szflex inflex cmplen else some .eq

/-- `ScanDict::ScanTables`, lang-eng/libdict/scanClass.hpp:49-67: the loop over the table. -/
def scanTabLoop (wdinfo : Nat) (inflex : Frag) : Nat → List Byte → List Gram → Option (List Gram)
  | 0, _, acc => some acc
  | n + 1, p, acc => do
    let (idform, p) ← getbyte p
    let (ccflex, p) ← getbyte p
    let cmplen := min ccflex inflex.len
    let rescmp ← cmpFlex p inflex.mem cmplen
    if cmplen > 0 && rescmp == .gt then return acc
    else if ccflex ≠ inflex.len || rescmp == .lt then scanTabLoop wdinfo inflex n (p.drop ccflex) acc
    else if acc.length ≥ 0x40 then none
    else scanTabLoop wdinfo inflex n (p.drop ccflex) (acc ++ [⟨wdinfo &&& 0x7f, idform, 0, 0⟩])

/-- `ScanDict::ScanTables`, scanClass.hpp:40-69; the buffer has 0x40 elements (line 117). -/
def scanTables (table : List Byte) (wdinfo : Nat) (inflex : Frag) : Option (List Gram) := do
  let (n, p) ← getbyte table
  scanTabLoop wdinfo inflex n p []

/-- `sfStopAfterFirst`, `sfIgnoreCapitals`: api.h. -/
abbrev sfIgnoreCapitals : Nat := 2

/-- What a collector receives: lexeme id, stem information, ending, suffix, grammatical descriptions. -/
abbrev Target (σ ρ : Type) := Nat → StemInfo → Frag → List Byte → List Gram → σ → Option (Option ρ × σ)

/-- `MatchClass::operator()`, scanClass.hpp:110-139. -/
def matchClass {σ ρ : Type} (im : Images) (scheme dwsets : Nat) (target : Target σ ρ)
    (nlexid oclass : Nat) (inflex : Frag) (suffix : List Byte) (s : σ) : Option (Option ρ × σ) := do
  let lextem ← loadStem im.classmap oclass
  if dwsets &&& sfIgnoreCapitals = 0 && !isGood scheme lextem.minCap then return (none, s)
  match lextem.flexTable im.flexTree with
  | none =>
    if inflex.len = 0 then target nlexid ⟨lextem.wdinfo, 0⟩ inflex suffix [⟨0, 0, lextem.tfoffs, 0⟩] s
    else return (none, s)
  | some table =>
    let grams ← scanTables table lextem.wdinfo inflex
    if grams.length ≠ 0 then target nlexid lextem inflex suffix grams s else return (none, s)

/-! ### The word -/

/-- The bytes of the word the caller passes: `mem` is the memory at the pointer (`none`: null
pointer), `cch` the length (`none`: `(size_t)-1`, i.e. up to the terminating zero); mlmamain.cpp:340-347.
Outer `none`: the memory is shorter than announced. -/
def argBytes (mem : Option (List Byte)) (cch : Option Nat) : Option (List Byte) :=
  match mem, cch with
  | none, _ => some []
  | some m, some n => if m.length < n then none else some (m.take n)
  | some m, none => if 0 ∈ m then some (m.takeWhile (· != 0)) else none

/-- `maximal::form_length`, mlmamain.cpp:62. -/
abbrev formLength : Nat := 48

/-- `CMlmaMb::ToCanonic`, mlmamain.cpp:335-359, for code page 1251 (the only instance, mlmamain.cpp:106):
`some none` is `(unsigned)-1`, otherwise the stored bytes and the returned word. -/
def toCanonic (w : List Byte) : Option (Option (List Byte × Nat)) :=
  if w.length = 0 then some (some ([], 0)) else capGet engTab formLength w

/-- mlmamain.cpp:114-123 (the same in 138-148 and 204-218): prepare the word, then either answer at once
(`Except.error`) or scan with the canonical word and its scheme. -/
def prepare (w : List Byte) (dwsets : Nat) : Option (Except Int (List Byte × Nat)) := do
  match ← toCanonic w with
  | none => return .error WORDBUFF_FAILED
  | some (locase, scheme) =>
    if scheme = 0 then return .error 0
    else if scheme % 256 = 0xff && dwsets &&& sfIgnoreCapitals = 0 then return .error 0
    else return .ok (locase, scheme)

/-- mlmamain.cpp:126-128, 156-159, 224-227: scan the stem tree with the canonical word.  `junk` is the
content of the array `locase` after the terminator. -/
def scanWord {σ ρ : Type} (im : Images) (locase junk : List Byte) (scheme dwsets : Nat) (target : Target σ ρ) (s : σ) :
    Option (Option ρ × σ) :=
  scanTree .u8 (lookupList (matchClass im (scheme % 65536) dwsets target)) im.stemtree
    ⟨locase ++ 0 :: junk, scheme >>> 16⟩ s

/-- The stem a collector sees, `{ szstem, inflex.str - szstem }`: lemmatize.cpp:121, buildform.cpp:154. -/
def stemOf (locase junk : List Byte) (inflex : Frag) : List Byte :=
  (locase ++ 0 :: junk).take ((locase ++ 0 :: junk).length - inflex.mem.length)

/-- `anyway_ok`, mlmamain.cpp:54-58. -/
def anywayOk : Target Unit Int := fun _ _ _ _ _ s => some (some 1, s)

/-- `CMlmaMb::CheckWord`, mlmamain.cpp:111-130. -/
def checkWord (im : Images) (junk : List Byte) (w : List Byte) (dwsets : Nat) : Option Int := do
  match ← prepare w dwsets with
  | .error e => return e
  | .ok (locase, scheme) =>
    let (r, _) ← scanWord im locase junk scheme dwsets anywayOk ()
    return r.getD 0

/-! ### Building forms -/

/-- `Collector::append`, xmorph/buildforms.hpp:58-73 (both overloads): fails when the bytes do not fit. -/
def collAppend (cap : Nat) (out p : List Byte) : Option (List Byte) :=
  if out.length + p.length > cap then none else some (out ++ p)

/-- `GetFlexForms`, lang-eng/libdict/buildform.cpp:44-62. -/
def getFlexLoop (cap : Nat) (pre suf : List Byte) (idform : Nat) :
    Nat → List Byte → List Byte → Int → Option (Int × List Byte)
  | 0, _, out, ntails => some (ntails, out)
  | n + 1, p, out, ntails => do
    let (formid, p) ← getbyte p
    let (len, p) ← getbyte p
    if formid ≠ idform then getFlexLoop cap pre suf idform n (p.drop len) out ntails
    else if p.length < len then none
    else
      match (((collAppend cap out pre).bind fun o => collAppend cap o (p.take len)).bind
          fun o => collAppend cap o suf).bind fun o => collAppend cap o [0] with
      | some out => getFlexLoop cap pre suf idform n (p.drop len) out (ntails + 1)
      | none => return (-1, out)

/-- `GetWordForms`, buildform.cpp:71-87.  A stem without endings is built without the suffix. -/
def getWordForms (flexTree : List Byte) (cap : Nat) (pre suf : List Byte) (st : StemInfo) (idform : Nat)
    (out : List Byte) : Option (Int × List Byte) :=
  match st.flexTable flexTree with
  | none =>
    match (collAppend cap out pre).bind fun o => collAppend cap o [0] with
    | some out => some (1, out)
    | none => some (-1, out)
  | some table => do
    let (n, p) ← getbyte table
    getFlexLoop cap pre suf idform n p out 0

/-- `GetDictForms`, buildform.cpp:103-107: the form ids from `idform` on, `n` of them. -/
def dictFormsLoop (flexTree : List Byte) (cap : Nat) (pre suf : List Byte) (st : StemInfo) :
    Nat → Nat → List Byte → Option (Int × List Byte)
  | 0, _, out => some (0, out)
  | n + 1, idform, out => do
    let (r, out) ← getWordForms flexTree cap pre suf st idform out
    if r ≠ 0 then return (r, out) else dictFormsLoop flexTree cap pre suf st n (idform + 1) out

/-- `GetDictForms`, buildform.cpp:95-108. -/
def getDictForms (flexTree : List Byte) (cap : Nat) (pre suf : List Byte) (st : StemInfo) : Option (Int × List Byte) :=
  dictFormsLoop flexTree cap pre suf st 0x10 0 []

/-- `strlen`; `none` when there is no zero in the memory that was written. -/
def strLen (mem : List Byte) : Option Nat := if 0 ∈ mem then some (mem.takeWhile (· != 0)).length else none

/-- Overwrite a part of a buffer; `none` when it does not lie inside. -/
def pokes (buf : List Byte) (pos : Nat) (p : List Byte) : Option (List Byte) :=
  if pos + p.length ≤ buf.length then some (buf.take pos ++ p ++ buf.drop (pos + p.length)) else none

/-- `MbcsCoder`, xmorph/codepages.hpp:8-40, code page 1251: the buffer (`none`: null pointer) and
`outptr - outbeg`. -/
structure Coder where
  buf : Option (List Byte)
  pos : Nat
deriving DecidableEq, Repr

/-- `MbcsCoder::append( p, l )`, codepages.hpp:89-94 with `ToCodepage`, 56-71 (equal code pages): the
bytes and a zero after them, if they fit (`true`). -/
def Coder.append (c : Coder) (p : List Byte) : Option (Bool × Coder) :=
  match c.buf with
  | none => none
  | some buf =>
    if p.length ≥ buf.length - c.pos then some (false, c)
    else do
      let buf ← pokes buf c.pos (p ++ [0])
      return (true, ⟨some buf, c.pos + p.length⟩)

/-- `pforms.append( p, ccform ) && pforms.append( '\0' )`, lemmatize.cpp:131, buildform.cpp:166. -/
def Coder.appendz (c : Coder) (p : List Byte) : Option (Bool × Coder) := do
  let (ok, c) ← c.append p
  if ok then c.append [0] else return (false, c)

/-- The state of `FormBuild` (buildform.hpp): target and number of forms. -/
structure FormState where
  pforms : Coder
  nbuilt : Int
deriving DecidableEq, Repr

/-- `FormBuild::operator()`, buildform.cpp:160-168: capitalize and copy the forms.  `mem` is `fmbuff`
from `p` on, as far as it has been written; `T` are the character tables (the Russian loop,
lang-rus/libdict/buildform.cpp:236-244, differs only in them and in the demand). -/
def formCopyLoop (T : CharTab) (mincap : Nat) : Nat → List Byte → FormState → Option (Option Int × FormState)
  | 0, _, s => some (none, s)
  | n + 1, mem, s => do
    let ccform ← strLen mem
    let mem ← capSet T mem ccform mincap
    let (ok, c) ← s.pforms.appendz (mem.take ccform)
    if ok then formCopyLoop T mincap n (mem.drop (ccform + 1)) ⟨c, s.nbuilt + 1⟩
    else return (some LEMMBUFF_FAILED, ⟨c, s.nbuilt⟩)

/-- `FormBuild::operator()`, buildform.cpp:138-171, with the stem and the stem information given. -/
def formBuild (flexTree : List Byte) (idform : Nat) (stem suffix : List Byte) (lextem : StemInfo) (s : FormState) :
    Option (Option Int × FormState) := do
  if (lextem.tfoffs ≠ 0) ≠ (idform ≠ 0xff) then return (none, s)
  else
    let (nforms, out) ← getWordForms flexTree 256 stem suffix lextem idform []
    if nforms ≤ 0 then return (retInt nforms, s)
    else formCopyLoop engTab ((lextem.wdinfo >>> 7) &&& 3) nforms.toNat out s

/-- `BuildClass::operator()`, scanClass.hpp:82-90, with `FormBuild` as the target: the stem is the
track (lang-eng/libdict/mlmamain.cpp:184-190). -/
def buildClass (im : Images) (idform : Nat) (_nlexid oclass : Nat) (track suffix : List Byte) (s : FormState) :
    Option (Option Int × FormState) := do
  let lextem ← loadStem im.classmap oclass
  formBuild im.flexTree idform track suffix lextem s

/-- The result of `BuildForm` and `FindForms`: mlmamain.cpp:192, 229. -/
def formResult (r : Option Int × FormState) : Int × Coder :=
  match r.1 with
  | some e => if e < 0 then (e, r.2.pforms) else (r.2.nbuilt, r.2.pforms)
  | none => (r.2.nbuilt, r.2.pforms)

/-- `CMlmaMb::BuildForm`, mlmamain.cpp:165-196; `output` is the buffer (its length is `cchout`), `junk`
the rest of `lidkey`.  Result: the returned number and the buffer afterwards. -/
def buildForm (im : Images) (junk : List Byte) (output : Option (List Byte)) (nlexid idform : Nat) :
    Option (Int × Option (List Byte)) := do
  match output with
  | none => return (ARGUMENT_FAILED, none)
  | some buf =>
    if buf.length = 0 then return (ARGUMENT_FAILED, some buf)
    else
      match ← lidLookup im.lidstree junk nlexid with
      | none => return (0, some buf)
      | some ofs =>
        let pos := im.stemtree.length - ofs
        let r ← getTrack .u8 (selectView (buildClass im idform) pos) (some pos) formLength im.stemtree []
          ⟨⟨some buf, 0⟩, 0⟩
        let (n, c) := formResult r
        return (n, c.buf)

/-- `CMlmaMb::FindForms`, mlmamain.cpp:198-231: the word is prepared before the arguments are checked. -/
def findForms (im : Images) (junk : List Byte) (output : Option (List Byte)) (w : List Byte) (idform dwsets : Nat) :
    Option (Int × Option (List Byte)) := do
  let pr ← prepare w dwsets
  match output with
  | none => return (ARGUMENT_FAILED, none)
  | some buf =>
    if buf.length = 0 then return (ARGUMENT_FAILED, some buf)
    else
      match pr with
      | .error e => return (e, some buf)
      | .ok (locase, scheme) =>
        let r ← scanWord im locase junk scheme dwsets
          (fun _ lextem inflex suffix _ s => formBuild im.flexTree idform (stemOf locase junk inflex) suffix lextem s)
          ⟨⟨some buf, 0⟩, 0⟩
        let (n, c) := formResult r
        return (n, c.buf)

/-- `CMlmaMb::GetWdInfo`, mlmamain.cpp:233-256: the returned number and the byte stored. -/
def getWdInfo (im : Images) (junk : List Byte) (nlexid : Nat) : Option (Int × Option Nat) := do
  match ← lidLookup im.lidstree junk nlexid with
  | none => return (0, none)
  | some ofs =>
    let (id, p) ← getserial (im.stemtree.drop (ofs + 2))
    let (oclass, _) ← getword16 p
    if id ≠ nlexid then return (LIDSBUFF_FAILED, none)
    else
      let st ← loadStem im.classmap (oclass &&& 0x7fff)
      return (1, some (st.wdinfo &&& 0x3f))

/-! ### Lemmatize -/

/-- `SLemmInfoA`, api.h:113-119; the pointers are given as offsets in the caller's buffers. -/
structure Lemm where
  nlexid : Nat
  plemma : Nat
  pgrams : Nat
  ngrams : Nat
deriving DecidableEq, Repr

/-- The state of `Lemmatizer`, lang-eng/libdict/lemmatize.hpp:46-61, 88-100: the three targets (`none`:
null pointer) with their positions, and `nbuilt`. -/
structure LemmState where
  lemms : Option (List Lemm)
  lcur : Nat
  forms : Coder
  grams : Option (List Gram)
  gcur : Nat
  nbuilt : Int
deriving DecidableEq, Repr

/-- `set_graminfo`, lemmatize.cpp:50-60. -/
def setGram (st : StemInfo) (g : Gram) : Gram :=
  if st.tfoffs ≠ 0 then g else ⟨st.wdinfo % 0x2000, 0xff, g.grInfo, g.bFlags⟩

/-- lemmatize.cpp:104-113: open a new lemma (`.ok false`), or merge into the last one (`.ok true`). -/
def lemmOpen (nlexid : Nat) (s : LemmState) : Option (Except Int Bool × LemmState) :=
  match s.lemms with
  | none => some (.ok false, s)
  | some l =>
    let fresh : Except Int Bool × LemmState :=
      if s.lcur = l.length then (.error LIDSBUFF_FAILED, { s with nbuilt := LIDSBUFF_FAILED })
      else (.ok false, { s with lemms := some (l.set s.lcur ⟨nlexid, s.forms.pos, s.gcur, 0⟩) })
    if s.nbuilt = 0 then some fresh
    else if s.lcur = 0 then none
    else
      match l[s.lcur - 1]? with
      | none => none
      | some prev => if prev.nlexid ≠ nlexid then some fresh else some (.ok true, s)

/-- lemmatize.cpp:117-133: the dictionary form of a new lemma. -/
def lemmForm (flexTree stem suffix : List Byte) (lextem : StemInfo) (merge : Bool) (s : LemmState) :
    Option (Except Int Unit × LemmState) := do
  if s.forms.buf.isSome && !merge then
    let (nforms, out) ← getDictForms flexTree 256 stem suffix lextem
    if nforms ≤ 0 then return (.error nforms, s)
    else
      let ccform ← strLen out
      let out ← capSet engTab out ccform ((lextem.wdinfo >>> 7) &&& 3)
      let (ok, c) ← s.forms.appendz (out.take ccform)
      if ok then return (.ok (), { s with forms := c })
      else return (.error LEMMBUFF_FAILED, { s with forms := c })
  else return (.ok (), s)

/-- `has_graminfo`, lemmatize.cpp:41-48, on the last lemma. -/
def hasGram (l : Lemm) (grams : List Gram) (g : Gram) : Option Bool :=
  if l.pgrams + l.ngrams ≤ grams.length then
    some (((grams.drop l.pgrams).take l.ngrams).any fun x => x.idForm = g.idForm)
  else none

/-- lemmatize.cpp:138-149: copy the descriptions while there is room; returns those left over.
`last` is the lemma merged into, if any; `put` is what `set_graminfo` stores (the Russian loop,
lang-rus/libdict/lemmatize.cpp:154-165, differs only in it). -/
def gramLoop (put : Gram → Gram) (last : Option Lemm) : List Gram → List Gram → Nat → Option (List Gram × List Gram × Nat)
  | [], buf, cur => some ([], buf, cur)
  | g :: gs, buf, cur =>
    if cur = buf.length then some (g :: gs, buf, cur)
    else do
      let has ← match last with
        | some l => hasGram l buf g
        | none => some false
      if has then gramLoop put last gs buf cur
      else gramLoop put last gs (buf.set cur (put g)) (cur + 1)

/-- lemmatize.cpp:136-153: the descriptions; line 151 updates the record at `plemms.cur`, also when the
lemma was merged into the one before it.  The same in lang-rus/libdict/lemmatize.cpp:152-169. -/
def lemmGrams (put : Gram → Gram) (grs : List Gram) (merge : Bool) (s : LemmState) :
    Option (Except Int Unit × LemmState) := do
  match s.lemms, s.grams with
  | some l, some buf =>
    let last ← if merge then (l[s.lcur - 1]?).map some else some none
    let (left, buf, cur) ← gramLoop put last grs buf s.gcur
    let s := { s with grams := some buf, gcur := cur }
    if left = [] then
      match l[s.lcur]? with
      | none => none
      | some x => return (.ok (), { s with lemms := some (l.set s.lcur { x with ngrams := (cur + 2 ^ 32 - x.pgrams) % 2 ^ 32 }) })
    else return (.error GRAMBUFF_FAILED, s)
  | _, _ => return (.ok (), s)

/-- `Lemmatizer::operator()`, lang-eng/libdict/lemmatize.cpp:89-163 and lang-rus/libdict/lemmatize.cpp:92-179,
which differ in the dictionary form (`form`) and in the description stored (`put`). -/
def lemmCallWith (form : Bool → LemmState → Option (Except Int Unit × LemmState)) (put : Gram → Gram)
    (nlexid : Nat) (grs : List Gram) (s : LemmState) : Option (Option Int × LemmState) := do
  if s.nbuilt < 0 then return (retInt s.nbuilt, s)
  let (r, s) ← lemmOpen nlexid s
  match r with
  | .error e => return (retInt e, s)
  | .ok merge =>
    let (r, s) ← form merge s
    match r with
    | .error e => return (retInt e, s)
    | .ok () =>
      let (r, s) ← lemmGrams put grs merge s
      match r with
      | .error e => return (retInt e, s)
      | .ok () =>
        if merge then return (none, s)
        else return (none, { s with lcur := if s.lemms.isSome then s.lcur + 1 else s.lcur, nbuilt := s.nbuilt + 1 })

/-- `Lemmatizer::operator()`, lang-eng/libdict/lemmatize.cpp:89-163. -/
def lemmCall (flexTree : List Byte) (nlexid : Nat) (lextem : StemInfo) (stem suffix : List Byte) (grs : List Gram)
    (s : LemmState) : Option (Option Int × LemmState) :=
  lemmCallWith (lemmForm flexTree stem suffix lextem) (setGram lextem) nlexid grs s

/-- `CMlmaMb::Lemmatize`, mlmamain.cpp:132-163: the returned number and the three buffers. -/
def lemmatize (im : Images) (junk : List Byte) (w : List Byte) (plemma : Option (List Lemm)) (pforms : Option (List Byte))
    (pgrams : Option (List Gram)) (dwsets : Nat) : Option (Int × LemmState) := do
  let s0 : LemmState := ⟨plemma, 0, ⟨pforms, 0⟩, pgrams, 0, 0⟩
  match ← prepare w dwsets with
  | .error e => return (e, s0)
  | .ok (locase, scheme) =>
    let (r, s) ← scanWord im locase junk scheme dwsets
      (fun id lextem inflex suffix grs s => lemmCall im.flexTree id lextem (stemOf locase junk inflex) suffix grs s) s0
    match r with
    | some e => if e < 0 then return (e, s) else return (s.nbuilt, s)
    | none => return (s.nbuilt, s)

end Libmorph
