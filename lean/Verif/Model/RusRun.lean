import Verif.Model.RusBuild
import Verif.Model.EngRun
/-
The Russian analyser: lang-rus/libdict/*, xmorph/buildforms.cpp.  The conventions are those of
`Model/EngRun.lean`.
-/
namespace Libmorph

/-- `steminfo::Load( classmap + oclass )`, lang-rus/libdict/mlmadefs.h:154-160. -/
def loadRus (classmap : List Byte) (oclass : Nat) : Option RusStem := do
  let (w, p) ← getword16 (classmap.drop oclass)
  let (t, p) ← (if w &&& 0x2000 ≠ 0 ∨ w &&& 0x3f = 51 then getword16 p else some (0, p) : Option (Nat × List Byte))
  let (m, _) ← (if w &&& 0x4000 ≠ 0 then getword16 p else some (0, p) : Option (Nat × List Byte))
  return ⟨w, t, m⟩

/-- `pspMinCapValue`, lang-rus/chartype.cpp:206-212. -/
def pspMinCap (i : Nat) : Nat := if 37 ≤ i ∧ i ≤ 47 then 1 else if i = 59 then 2 else 0

/-- `steminfo::MinCapScheme`, mlmadefs.h:161-164. -/
def RusStem.minCap (s : RusStem) : Nat := pspMinCap (s.wdinfo &&& 0x3f)

/-- `steminfo::GetFlexTable`, mlmadefs.h:165-168. -/
def RusStem.flexTable (s : RusStem) (flexTree : List Byte) : Option (List Byte) :=
  if s.tfoffs ≠ 0 ∧ s.wdinfo &&& 0x3f ≠ 51 then some (flexTree.drop (s.tfoffs <<< 4)) else none

/-- `steminfo::GetSwapTable`, mlmadefs.h:169-172. -/
def RusStem.swapTable (s : RusStem) (mxTables : List Byte) : Option (List Byte) :=
  if s.mtoffs ≠ 0 then some (mxTables.drop s.mtoffs) else none

/-- What a collector receives. -/
abbrev RusTarget (σ ρ : Type) := Nat → RusStem → Frag → List Byte → List Gram → σ → Option (Option ρ × σ)

/-- `SGramInfo` as scanClass.hpp:65 fills it. -/
def rawGram (g : FlexInfo) : Gram := ⟨0, 0, g.gramm, g.flags⟩

/-- `MatchClass::operator()`, lang-rus/libdict/scanClass.hpp:192-264. -/
def rusMatch {σ ρ : Type} (im : RusImages) (scheme dwsets : Nat) (target : RusTarget σ ρ)
    (nlexid oclass : Nat) (inflex : Frag) (suffix : List Byte) (s : σ) : Option (Option ρ × σ) := do
  let lextem ← loadRus im.classmap oclass
  if dwsets &&& sfIgnoreCapitals = 0 && !isGood scheme lextem.minCap then return (none, s)
  match lextem.flexTable im.flexTree with
  | none =>
    if inflex.len = 0 then target nlexid ⟨lextem.wdinfo, 0, 0⟩ inflex suffix [⟨0, 0, lextem.tfoffs, 0⟩] s
    else return (none, s)
  | some table =>
    match lextem.swapTable im.mxTables with
    | none =>
      let gs ← scanFlex (flexFilter lextem.wdinfo) table inflex
      if gs.length ≠ 0 then target nlexid lextem inflex suffix (gs.map rawGram) s else return (none, s)
    | some mixtab =>
      mixScan (fun powers rest s => do
        let gs ← scanFlex (altFilter lextem.wdinfo powers) table rest
        if gs.length ≠ 0 then target nlexid lextem inflex suffix (gs.map rawGram) s else return (none, s))
        mixtab inflex s

/-! ### The word -/

/-- `CMlmaMb::ToCanonic`, lang-rus/libdict/mlmamain.cpp:358-383, for code page 1251 (no conversion). -/
def rusCanonic (w : List Byte) : Option (Option (List Byte × Nat)) :=
  if w.length = 0 then some (some ([], 0)) else capGet rusTab formLength w

/-- mlmamain.cpp:121-130 (the same in 147-157 and 213-227). -/
def rusPrepare (w : List Byte) (dwsets : Nat) : Option (Except Int (List Byte × Nat)) := do
  match ← rusCanonic w with
  | none => return .error WORDBUFF_FAILED
  | some (locase, scheme) =>
    if scheme = 0 then return .error 0
    else if scheme % 256 = 0xff && dwsets &&& sfIgnoreCapitals = 0 then return .error 0
    else return .ok (locase, scheme)

/-- mlmamain.cpp:133-136, 165-168, 233-236: scan the stem tree with the canonical word. -/
def rusScan {σ ρ : Type} (im : RusImages) (locase junk : List Byte) (scheme dwsets : Nat) (target : RusTarget σ ρ) (s : σ) :
    Option (Option ρ × σ) :=
  scanTree .u8 (lookupList (rusMatch im (scheme % 65536) dwsets target)) im.stemtree
    ⟨locase ++ 0 :: junk, scheme >>> 16⟩ s

/-- `CMlmaMb::CheckWord`, mlmamain.cpp:117-138. -/
def rusCheck (im : RusImages) (junk : List Byte) (w : List Byte) (dwsets : Nat) : Option Int := do
  match ← rusPrepare w dwsets with
  | .error e => return e
  | .ok (locase, scheme) =>
    let (r, _) ← rusScan im locase junk scheme dwsets (fun _ _ _ _ _ s => some (some 1, s)) ()
    return r.getD 0

/-! ### Building forms -/

/-- xmorph/buildforms.cpp:62-65: prefix, ending, suffix and a zero, if they fit. -/
def putForm (cap : Nat) (out pre flex suf : List Byte) : Option (List Byte) :=
  (((collAppend cap out pre).bind fun o => collAppend cap o flex).bind fun o => collAppend cap o suf).bind
    fun o => collAppend cap o [0]

/-- xmorph/buildforms.cpp:56-68: the descriptions of one ending; the first that meets the request puts
the form out. -/
def flexFormLoop (cap : Nat) (pre flex suf : List Byte) (fx : FlexInfo) :
    Nat → List Byte → List Byte × Int → Option (Option Int × (List Byte × Int))
  | 0, _, s => some (none, s)
  | n + 1, p, s => do
    let (gr, p) ← getword16 p
    let (fl, p) ← getbyte p
    if gr = fx.gramm ∧ fl &&& fx.flags ≠ 0 then
      match putForm cap s.1 pre flex suf with
      | some out => return (none, (out, s.2 + 1))
      | none => return (some (-1), s)
    else flexFormLoop cap pre flex suf fx n p s

/-- `GetFlexForms`, xmorph/buildforms.cpp:45-72. -/
def rusFlexForms (cap : Nat) (table pre suf : List Byte) (fx : FlexInfo) (out : List Byte) : Option (Int × List Byte) := do
  let (r, s) ← getTrack .u8 (fun p tr s => do
    let (n, p) ← getbyte p
    flexFormLoop cap pre tr suf fx n p s) none 0x40 table [] (out, (0 : Int))
  return (r.getD s.2, s.1)

/-- lang-rus/libdict/buildform.cpp:70-74, 126-130: the first alternant whose head has a bit of the mask
(its head byte and the memory behind it). -/
def findAlt (mpmask : Nat) : Nat → List Byte → Option (Option (Nat × List Byte))
  | 0, _ => some none
  | n + 1, p => do
    let (head, p) ← getbyte p
    if head &&& mpmask ≠ 0 then return some (head, p) else findAlt mpmask n (p.drop (head &&& 0x0f))

/-- buildform.cpp:62-74: the alternant for a description. -/
def altFor (lextem : RusStem) (mixtab : List Byte) (fx : FlexInfo) : Option (Option (Nat × List Byte)) := do
  let (n, p) ← getbyte mixtab
  findAlt (0x08 <<< swapLevel lextem.wdinfo fx.gramm fx.flags) n p

/-- `GetWordForms`, buildform.cpp:44-89.  The new prefix is kept in an array of 0x40 bytes; one that does
not fit is not copied, and what is then read is undefined (lines 80-83). -/
def rusWordForms (im : RusImages) (cap : Nat) (pre suf : List Byte) (lextem : RusStem) (fx : FlexInfo) (out : List Byte) :
    Option (Int × List Byte) :=
  match lextem.flexTable im.flexTree with
  | none =>
    match ((collAppend cap out pre).bind fun o => collAppend cap o suf).bind fun o => collAppend cap o [0] with
    | some out => some (1, out)
    | none => some (-1, out)
  | some table =>
    match lextem.swapTable im.mxTables with
    | none => rusFlexForms cap table pre suf fx out
    | some mixtab => do
      match ← altFor lextem mixtab fx with
      | none => return (0, out)
      | some (head, p) =>
        let n := head &&& 0x0f
        if pre.length + n ≥ 0x40 then none
        else if p.length < n then none
        else rusFlexForms cap table (pre ++ p.take n) suf fx out

/-- `GetFirstFlex`, xmorph/buildforms.cpp:82-101: the length and the description of the ending selected.
Its text is in an array that no longer exists when the function has returned; while it runs, both sides of
the comparison lie in the same array, so that only the lengths count. -/
def firstFlex (table : List Byte) : Option (Option (Nat × FlexInfo)) := do
  let (_, s) ← getTrack (ρ := Int) .u8 (fun p tr (s : Option (Nat × FlexInfo)) =>
    if s.isNone || s.any (fun x => tr.length < x.1) then do
      let (_, p) ← getbyte p
      let (gr, p) ← getword16 p
      let (fl, _) ← getbyte p
      return (none, some (tr.length, ⟨gr, fl⟩))
    else return (none, s)) none 0x40 table [] none
  return s

/-- `GetFirstForm`, buildform.cpp:97-147.  Appending the ending reads the dead array (138, 144): undefined. -/
def rusFirstForm (im : RusImages) (cap : Nat) (pre suf : List Byte) (lextem : RusStem) (out : List Byte) :
    Option (Int × List Byte) :=
  match lextem.flexTable im.flexTree with
  | none =>
    match ((collAppend cap out pre).bind fun o => collAppend cap o suf).bind fun o => collAppend cap o [0] with
    | some out => some (1, out)
    | none => some (-1, out)
  | some table => do
    match ← firstFlex table with
    | none => return (0, out)
    | some (_, fx) =>
      match lextem.swapTable im.mxTables with
      | none =>
        match collAppend cap out pre with
        | none => return (-1, out)
        | some _ => none
      | some mixtab =>
        match ← altFor lextem mixtab fx with
        | none => return (0, out)
        | some (head, p) =>
          if p.length < head then none
          else
            match (collAppend cap out pre).bind fun o => collAppend cap o (p.take head) with
            | none => return (-1, out)
            | some _ => none

/-- `GetDictForms`, buildform.cpp:155-179. -/
def rusDictForms (im : RusImages) (cap : Nat) (pre suf : List Byte) (lextem : RusStem) (fx : FlexInfo) (dwsets : Nat) :
    Option (Int × List Byte) := do
  let nf := findDictForm lextem.wdinfo fx dwsets
  let (n, out) ← rusWordForms im cap pre suf lextem nf []
  if n ≠ 0 then return (n, out)
  else
    let (n, out) ← (if nf.gramm &&& gfRetForms = 0 && (isVerb lextem.wdinfo || isAdjective lextem.wdinfo) then
        rusWordForms im cap pre suf lextem ⟨nf.gramm ||| gfRetForms, nf.flags⟩ out
      else some (0, out) : Option (Int × List Byte))
    if n ≠ 0 then return (n, out) else rusFirstForm im cap pre suf lextem out

/-- `FormBuild::operator()`, buildform.cpp:209-247. -/
def rusFormBuild (im : RusImages) (idform : Nat) (stem suffix : List Byte) (lextem : RusStem) (s : FormState) :
    Option (Option Int × FormState) := do
  let grinfo := getGramInfo lextem.wdinfo idform
  if grinfo = noInfo ∧ idform ≠ 0xff then return (none, s)
  else if (lextem.tfoffs ≠ 0) ≠ (idform ≠ 0xff) then return (none, s)
  else
    let (nforms, out) ← rusWordForms im 256 stem suffix lextem grinfo []
    if nforms ≤ 0 then return (retInt nforms, s)
    else formCopyLoop rusTab lextem.minCap nforms.toNat out s

/-- `BuildClass::operator()`, scanClass.hpp:164-172, with `FormBuild` as the target. -/
def rusBuildClass (im : RusImages) (idform : Nat) (_nlexid oclass : Nat) (track suffix : List Byte) (s : FormState) :
    Option (Option Int × FormState) := do
  let lextem ← loadRus im.classmap oclass
  rusFormBuild im idform track suffix lextem s

/-- `CMlmaMb::BuildForm`, mlmamain.cpp:174-204. -/
def rusBuildForm (im : RusImages) (junk : List Byte) (output : Option (List Byte)) (nlexid idform : Nat) :
    Option (Int × Option (List Byte)) := do
  match output with
  | none => return (ARGUMENT_FAILED, none)
  | some buf =>
    if buf.length = 0 then return (ARGUMENT_FAILED, some buf)
    else
      match ← lidLookup im.lidstree junk nlexid with
      | none => return (0, some buf)
      | some ofs =>
        let pos := im.stemtree.length - ofs
        let r ← getTrack .u8 (selectView (rusBuildClass im idform) pos) (some pos) formLength im.stemtree []
          ⟨⟨some buf, 0⟩, 0⟩
        let (n, c) := formResult r
        return (n, c.buf)

/-- `CMlmaMb::FindForms`, mlmamain.cpp:206-240. -/
def rusFindForms (im : RusImages) (junk : List Byte) (output : Option (List Byte)) (w : List Byte) (idform dwsets : Nat) :
    Option (Int × Option (List Byte)) := do
  let pr ← rusPrepare w dwsets
  match output with
  | none => return (ARGUMENT_FAILED, none)
  | some buf =>
    if buf.length = 0 then return (ARGUMENT_FAILED, some buf)
    else
      match pr with
      | .error e => return (e, some buf)
      | .ok (locase, scheme) =>
        let r ← rusScan im locase junk scheme dwsets
          (fun _ lextem inflex suffix _ s => rusFormBuild im idform (stemOf locase junk inflex) suffix lextem s)
          ⟨⟨some buf, 0⟩, 0⟩
        let (n, c) := formResult r
        return (n, c.buf)

/-- `CMlmaMb::GetWdInfo`, mlmamain.cpp:242-266. -/
def rusWdInfo (im : RusImages) (junk : List Byte) (nlexid : Nat) : Option (Int × Option Nat) := do
  match ← lidLookup im.lidstree junk nlexid with
  | none => return (0, none)
  | some ofs =>
    let (id, p) ← getserial (im.stemtree.drop (ofs + 2))
    let (oclass, _) ← getword16 p
    if id ≠ nlexid then return (LIDSBUFF_FAILED, none)
    else
      let st ← loadRus im.classmap (oclass &&& 0x7fff)
      return (1, some (st.wdinfo &&& 0x3f))

/-! ### Lemmatize -/

/-- `set_graminfo`, lang-rus/libdict/lemmatize.cpp:51-63. -/
def rusPut (st : RusStem) (g : Gram) : Gram :=
  if st.tfoffs ≠ 0 then
    let w := st.wdinfo &&& 0x07ff
    ⟨w, mapWordInfo w g.grInfo g.bFlags, g.grInfo, g.bFlags⟩
  else ⟨st.wdinfo &&& 0x1fff, 0xff, g.grInfo, g.bFlags⟩

/-- lemmatize.cpp:134-141: the least of the forms (`strcmp`); `cur` is `fmnext`, `sel` is `select`. -/
def pickLeast : Nat → List Byte → List Byte → Option (List Byte)
  | 0, _, sel => some sel
  | n + 1, cur, sel => do
    let l ← strLen cur
    let cur := cur.drop (l + 1)
    let lc ← strLen cur
    let ls ← strLen sel
    pickLeast n cur (if bytesLt (cur.take lc) (sel.take ls) then cur else sel)

/-- lemmatize.cpp:120-149: the dictionary form of a new lemma. -/
def rusLemmForm (im : RusImages) (dwsets : Nat) (stem suffix : List Byte) (lextem : RusStem) (fx : FlexInfo)
    (merge : Bool) (s : LemmState) : Option (Except Int Unit × LemmState) := do
  if s.forms.buf.isSome && !merge then
    let (nforms, out) ← rusDictForms im 256 stem suffix lextem fx dwsets
    if nforms ≤ 0 then return (.error nforms, s)
    else
      let sel ← pickLeast (nforms.toNat - 1) out out
      let ccform ← strLen sel
      let sel ← capSet rusTab sel ccform lextem.minCap
      let (ok, c) ← s.forms.appendz (sel.take ccform)
      if ok then return (.ok (), { s with forms := c })
      else return (.error LEMMBUFF_FAILED, { s with forms := c })
  else return (.ok (), s)

/-- `Lemmatizer::operator()`, lemmatize.cpp:92-179; the dictionary form is that of the first description
(line 125). -/
def rusLemmCall (im : RusImages) (dwsets : Nat) (nlexid : Nat) (lextem : RusStem) (stem suffix : List Byte) (grs : List Gram)
    (s : LemmState) : Option (Option Int × LemmState) :=
  match grs with
  | [] => none
  | g :: _ => lemmCallWith (rusLemmForm im dwsets stem suffix lextem ⟨g.grInfo, g.bFlags⟩) (rusPut lextem) nlexid grs s

/-- `CMlmaMb::Lemmatize`, mlmamain.cpp:140-172. -/
def rusLemmatize (im : RusImages) (junk : List Byte) (w : List Byte) (plemma : Option (List Lemm)) (pforms : Option (List Byte))
    (pgrams : Option (List Gram)) (dwsets : Nat) : Option (Int × LemmState) := do
  let s0 : LemmState := ⟨plemma, 0, ⟨pforms, 0⟩, pgrams, 0, 0⟩
  match ← rusPrepare w dwsets with
  | .error e => return (e, s0)
  | .ok (locase, scheme) =>
    let (r, s) ← rusScan im locase junk scheme dwsets
      (fun id lextem inflex suffix grs s => rusLemmCall im dwsets id lextem (stemOf locase junk inflex) suffix grs s) s0
    match r with
    | some e => if e < 0 then return (e, s) else return (s.nbuilt, s)
    | none => return (s.nbuilt, s)

end Libmorph
