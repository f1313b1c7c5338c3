import Verif.Model.RusRun
import Verif.Model.RusWild
/-
The Russian dictionary in code pages other than 1251 (`CMlmaMb<codepage>`, lang-rus/libdict/mlmamain.cpp): what is different
there is the conversion of the word (`ToCanonic`, 358-383), of the template and the matches (`FindMatch`, 268-356) and of the
texts delivered (`MbcsCoder`, xmorph/codepages.hpp:8-40, 89-94).  The rest is the code modelled in `Model/RusRun`.
-/
namespace Libmorph

/-- The external conversion `codepages::mbcstombcs` (`moonycode`) for a code page other than 1251.
`into`: `mbcstombcs( 1251, out, room, codepage, w )`, what is written up to the length returned (`none`: it returns -1).
`from1251`: `mbcstombcs( codepage, out, room, 1251, p )`, the length returned and all that is written (`none`: -1). -/
structure Page where
  into : Nat → List Byte → Option (List Byte)
  from1251 : Nat → List Byte → Option (Nat × List Byte)

/-- `MbcsCoder::append( p, l )`, codepages.hpp:89-94 with `ToCodepage`, 56-60 (different code pages): the text goes where
`outptr` is, which is moved by the length returned.  (After a failure the buffer is taken to be unchanged: what
`mbcstombcs` leaves there is not looked at.) -/
def Coder.appendIn (P : Page) (c : Coder) (p : List Byte) : Option (Bool × Coder) :=
  match c.buf with
  | none => none
  | some buf =>
    match P.from1251 (buf.length - c.pos) p with
    | none => some (false, c)
    | some (n, o) => do
      let buf ← pokes buf c.pos o
      return (true, ⟨some buf, c.pos + n⟩)

/-- `pforms.append( p, ccform ) && pforms.append( '\0' )`, lemmatize.cpp:146, buildform.cpp:242. -/
def Coder.appendzIn (P : Page) (c : Coder) (p : List Byte) : Option (Bool × Coder) := do
  let (ok, c) ← c.appendIn P p
  if ok then c.appendIn P [0] else return (false, c)

/-- `FormBuild::operator()`, lang-rus/libdict/buildform.cpp:236-244: capitalize and copy the forms. -/
def formCopyLoopIn (P : Page) (T : CharTab) (mincap : Nat) : Nat → List Byte → FormState → Option (Option Int × FormState)
  | 0, _, s => some (none, s)
  | n + 1, mem, s => do
    let ccform ← strLen mem
    let mem ← capSet T mem ccform mincap
    let (ok, c) ← s.pforms.appendzIn P (mem.take ccform)
    if ok then formCopyLoopIn P T mincap n (mem.drop (ccform + 1)) ⟨c, s.nbuilt + 1⟩
    else return (some LEMMBUFF_FAILED, ⟨c, s.nbuilt⟩)

/-- `FormBuild::operator()`, lang-rus/libdict/buildform.cpp:205-249, as `rusFormBuild`. -/
def rusFormBuildIn (P : Page) (im : RusImages) (idform : Nat) (stem suffix : List Byte) (lextem : RusStem) (s : FormState) :
    Option (Option Int × FormState) := do
  let grinfo := getGramInfo lextem.wdinfo idform
  if grinfo = noInfo ∧ idform ≠ 0xff then return (none, s)
  else if (lextem.tfoffs ≠ 0) ≠ (idform ≠ 0xff) then return (none, s)
  else
    let (nforms, out) ← rusWordForms im 256 stem suffix lextem grinfo []
    if nforms ≤ 0 then return (retInt nforms, s)
    else formCopyLoopIn P rusTab lextem.minCap nforms.toNat out s

/-- `BuildClass::operator()` over it, as `rusBuildClass`. -/
def rusBuildClassIn (P : Page) (im : RusImages) (idform : Nat) (_nlexid oclass : Nat) (track suffix : List Byte) (s : FormState) :
    Option (Option Int × FormState) := do
  let lextem ← loadRus im.classmap oclass
  rusFormBuildIn P im idform track suffix lextem s

/-- `CMlmaMb::ToCanonic`, mlmamain.cpp:358-383, for another code page: the word is converted into an array of 48 bytes. -/
def rusCanonicIn (P : Page) (w : List Byte) : Option (Option (List Byte × Nat)) :=
  if w.length = 0 then some (some ([], 0))
  else
    match P.into formLength w with
    | none => some none
    | some t => capGet rusTab formLength t

/-- mlmamain.cpp:121-130, as `rusPrepare`. -/
def rusPrepareIn (P : Page) (w : List Byte) (dwsets : Nat) : Option (Except Int (List Byte × Nat)) := do
  match ← rusCanonicIn P w with
  | none => return .error WORDBUFF_FAILED
  | some (locase, scheme) =>
    if scheme = 0 then return .error 0
    else if scheme % 256 = 0xff && dwsets &&& sfIgnoreCapitals = 0 then return .error 0
    else return .ok (locase, scheme)

/-- `CMlmaMb<codepage>::CheckWord`, mlmamain.cpp:117-138. -/
def rusCheckIn (P : Page) (im : RusImages) (junk : List Byte) (w : List Byte) (dwsets : Nat) : Option Int := do
  match ← rusPrepareIn P w dwsets with
  | .error e => return e
  | .ok (locase, scheme) =>
    let (r, _) ← rusScan im locase junk scheme dwsets (fun _ _ _ _ _ s => some (some 1, s)) ()
    return r.getD 0

/-- `CMlmaMb<codepage>::BuildForm`, mlmamain.cpp:174-204, as `rusBuildForm`. -/
def rusBuildFormIn (P : Page) (im : RusImages) (junk : List Byte) (output : Option (List Byte)) (nlexid idform : Nat) :
    Option (Int × Option (List Byte)) := do
  match output with
  | none => return (ARGUMENT_FAILED, none)
  | some buf =>
    if buf.length = 0 then return (ARGUMENT_FAILED, some buf)
    else
      match ← lidLookup im.lidstree junk nlexid with
      | none => return (0, some buf)
      | some ofs =>
        let pos := im.stemtree.length - ofs
        let r ← getTrack .u8 (selectView (rusBuildClassIn P im idform) pos) (some pos) formLength im.stemtree []
          ⟨⟨some buf, 0⟩, 0⟩
        let (n, c) := formResult r
        return (n, c.buf)

/-- `CMlmaMb<codepage>::FindForms`, mlmamain.cpp:206-240, as `rusFindForms`. -/
def rusFindFormsIn (P : Page) (im : RusImages) (junk : List Byte) (output : Option (List Byte)) (w : List Byte) (idform dwsets : Nat) :
    Option (Int × Option (List Byte)) := do
  let pr ← rusPrepareIn P w dwsets
  match output with
  | none => return (ARGUMENT_FAILED, none)
  | some buf =>
    if buf.length = 0 then return (ARGUMENT_FAILED, some buf)
    else
      match pr with
      | .error e => return (e, some buf)
      | .ok (locase, scheme) =>
        let r ← rusScan im locase junk scheme dwsets
          (fun _ lextem inflex suffix _ s => rusFormBuildIn P im idform (stemOf locase junk inflex) suffix lextem s)
          ⟨⟨some buf, 0⟩, 0⟩
        let (n, c) := formResult r
        return (n, c.buf)

/-- lang-rus/libdict/lemmatize.cpp:117-148, as `rusLemmForm`. -/
def rusLemmFormIn (P : Page) (im : RusImages) (dwsets : Nat) (stem suffix : List Byte) (lextem : RusStem) (fx : FlexInfo)
    (merge : Bool) (s : LemmState) : Option (Except Int Unit × LemmState) := do
  if s.forms.buf.isSome && !merge then
    let (nforms, out) ← rusDictForms im 256 stem suffix lextem fx dwsets
    if nforms ≤ 0 then return (.error nforms, s)
    else
      let sel ← pickLeast (nforms.toNat - 1) out out
      let ccform ← strLen sel
      let sel ← capSet rusTab sel ccform lextem.minCap
      let (ok, c) ← s.forms.appendzIn P (sel.take ccform)
      if ok then return (.ok (), { s with forms := c })
      else return (.error LEMMBUFF_FAILED, { s with forms := c })
  else return (.ok (), s)

/-- `Lemmatizer::operator()`, lemmatize.cpp:91-178, as `rusLemmCall`. -/
def rusLemmCallIn (P : Page) (im : RusImages) (dwsets : Nat) (nlexid : Nat) (lextem : RusStem) (stem suffix : List Byte)
    (grs : List Gram) (s : LemmState) : Option (Option Int × LemmState) :=
  match grs with
  | [] => none
  | g :: _ => lemmCallWith (rusLemmFormIn P im dwsets stem suffix lextem ⟨g.grInfo, g.bFlags⟩) (rusPut lextem) nlexid grs s

/-- `CMlmaMb<codepage>::Lemmatize`, mlmamain.cpp:140-172, as `rusLemmatize`. -/
def rusLemmatizeIn (P : Page) (im : RusImages) (junk : List Byte) (w : List Byte) (plemma : Option (List Lemm))
    (pforms : Option (List Byte)) (pgrams : Option (List Gram)) (dwsets : Nat) : Option (Int × LemmState) := do
  let s0 : LemmState := ⟨plemma, 0, ⟨pforms, 0⟩, pgrams, 0, 0⟩
  match ← rusPrepareIn P w dwsets with
  | .error e => return (e, s0)
  | .ok (locase, scheme) =>
    let (r, s) ← rusScan im locase junk scheme dwsets
      (fun id lextem inflex suffix grs s => rusLemmCallIn P im dwsets id lextem (stemOf locase junk inflex) suffix grs s) s0
    match r with
    | some e => if e < 0 then return (e, s) else return (s.nbuilt, s)
    | none => return (s.nbuilt, s)

/-- `reglex`, mlmamain.cpp:278-312, for another code page: the form is converted into an array of 96 bytes; when that fails,
the length is `(size_t)-1` and the copy runs over all memory (undefined). -/
def rusRegIn (P : Page) : WildReg MatchSt := fun nlexid text g s => do
  let (n, o) ← P.from1251 96 text
  let s ← (s.enter nlexid).push 512 (256 * 96) (o.take n) g.idForm
  return (0, s)

/-- `CMlmaMb<codepage>::FindMatch`, mlmamain.cpp:268-356: the length is checked before the conversion. -/
def rusFindMatchIn (P : Page) (im : RusImages) (tail smatch : List Byte) (client : List (Nat × List StrMatch) → Int)
    (str : List Byte) : Option (Int × List (Nat × List StrMatch)) := do
  if str.length = 0 then return (0, [])
  else if str.length ≥ formLength then return (WORDBUFF_FAILED, [])
  else
    match P.into formLength str with
    | none => return (WORDBUFF_FAILED, [])
    | some t =>
      match ← capGet rusTab formLength t with
      | none => none
      | some (locase, _) =>
        let (r, _, s) ← wildScan (rusWildTarget im (rusRegIn P)) (im.stemtree ++ tail) locase (smatch, {})
        return s.finish client r

end Libmorph
