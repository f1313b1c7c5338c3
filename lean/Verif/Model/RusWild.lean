import Verif.Model.Wild
import Verif.Model.RusRun
/-
Wildcard search in the Russian analyser: lang-rus/libdict/wildClass.hpp, FindMatch.
The conventions are those of `Model/Wild.lean`.
-/
namespace Libmorph

/-- lang-rus/libdict/wildClass.hpp:127-150, the children of a node; `step` is what is done with a character and the
node below it.  Unlike `anyKids` nothing is read behind the last child. -/
def flexKids {σ : Type} (step : Byte → List Byte → WildRun σ) (n : Nat) :
    Nat → List Byte → WildSt σ → Option (Int × List Byte × WildSt σ)
  | 0, p, st => some (0, p, st)
  | k + 1, p, st => do
    let (c, p) ← getbyte p
    let st ← poke1 n c st
    let (sublen, sub) ← getserial p
    let (r, st) ← step c sub st
    if r ≠ 0 then return (r, sub.drop sublen, st) else flexKids step n k (sub.drop sublen) st

/-- wildClass.hpp:162-171: the descriptions of an ending. -/
def flexOwn {σ : Type} (out : WildOut σ) (filter : FlexInfo → Bool) (inflex suffix : List Byte) (n : Nat) :
    Nat → List Byte → WildRun σ
  | 0, _, st => some (0, st)
  | k + 1, p, st => do
    let (gr, p) ← getword16 p
    let (fl, p) ← getbyte p
    if filter ⟨gr, fl⟩ then
      (WildRun.seq (scanSuffix out inflex suffix n ⟨0, 0, gr, fl⟩) (flexOwn out filter inflex suffix n k p)) st
    else flexOwn out filter inflex suffix n k p st

/-- wildClass.hpp:101-174 `Wildcard::FlexSearch`.  The first argument bounds the depth of the recursion: every call has
a shorter template or a shorter image. -/
def rusFlexAux {σ : Type} (out : WildOut σ) (filter : FlexInfo → Bool) (suffix : List Byte) :
    Nat → List Byte → List Byte → Nat → Bool → WildRun σ
  | 0, _, _, _, _, _ => none
  | fuel + 1, dic, inflex, n, goZero, st => do
    let (u, p) ← getcount .u8 dic
    let count := Counter.getlower .u8 u
    let (r, p, st) ← (match inflex with
      | [] => do
        let p ← skipKids count p
        return (0, p, st)
      | c :: rest => do
        let (r, st) ← (if c = 42 ∧ goZero = true then rusFlexAux out filter suffix fuel dic rest n true st else some (0, st) :
          Option (Int × WildSt σ))
        if r ≠ 0 then return (r, p, st)
        else flexKids (fun ch sub =>
          if c = 63 ∨ ch = c then rusFlexAux out filter suffix fuel sub rest (n + 1) true
          else if c = 42 then
            (rusFlexAux out filter suffix fuel sub rest (n + 1) true).seq (rusFlexAux out filter suffix fuel sub (c :: rest) (n + 1) false)
          else fun st => some (0, st)) n count p st : Option (Int × List Byte × WildSt σ))
    if r ≠ 0 then return (r, st)
    else if inflex.isEmpty || !suffix.isEmpty then
      if Counter.hasupper .u8 u then
        let (nforms, p) ← getserial p
        flexOwn out filter inflex suffix n nforms p st
      else return (0, st)
    else return (0, st)

/-- `FlexSearch` with a bound that is never reached. -/
def rusFlex {σ : Type} (out : WildOut σ) (filter : FlexInfo → Bool) (suffix dic inflex : List Byte) (n : Nat) : WildRun σ :=
  rusFlexAux out filter suffix (dic.length + inflex.length + 1) dic inflex n true

/-- wildClass.hpp:247-255 `output` in `MatchModel::operator()`. -/
def rusWildOut {σ : Type} (reg : WildReg σ) (nlexid wdinfo : Nat) : WildOut σ := fun n g st => do
  if st.1.length < n then none
  else
    let id := if g.idForm ≠ 0xff then mapWordInfo wdinfo g.grInfo g.bFlags else g.idForm
    let (r, s) ← reg nlexid (st.1.take n) ⟨wdinfo, id, g.grInfo, g.bFlags⟩ st.2
    return (r, (st.1, s))

/-- wildClass.hpp:294-322: the alternants in turn. -/
def rusMixLoop {σ : Type} (swap : Nat → List Byte → WildRun σ) : Nat → List Byte → WildRun σ
  | 0, _, st => some (0, st)
  | k + 1, p, st => do
    let (head, p) ← getbyte p
    let len := head &&& 0x0f
    if p.length < len then none
    else (WildRun.seq (swap (head >>> 4) (p.take len)) (rusMixLoop swap k (p.drop len))) st

/-- lang-rus/libdict/wildClass.hpp:238-325 `MatchModel::operator()`. -/
def rusWildTarget {σ : Type} (im : RusImages) (reg : WildReg σ) : WildTarget σ := fun nlexid oclass inflex suffix n st => do
  let lextem ← loadRus im.classmap oclass
  let out := rusWildOut reg nlexid lextem.wdinfo
  match lextem.flexTable im.flexTree with
  | none => if inflex.isEmpty || isAsterisk inflex then out n ⟨0, 0xff, 0, 0⟩ st else return (0, st)
  | some table =>
    match lextem.swapTable im.mxTables with
    | none => rusFlex out (flexFilter lextem.wdinfo) suffix table inflex n st
    | some mixtab =>
      let (k, p) ← getbyte mixtab
      rusMixLoop (fun powers mix =>
        scanString (fun inflex n => rusFlex out (altFilter lextem.wdinfo powers) suffix table inflex n) inflex mix n) k p st

/-- `reglex`, lang-rus/libdict/mlmamain.cpp:278-312, for code page 1251: the same form may be registered again. -/
def rusReg : WildReg MatchSt := fun nlexid text g s => do
  let s ← (s.enter nlexid).push 512 (256 * 96) text g.idForm
  return (0, s)

/-- `CMlmaMb::FindMatch`, lang-rus/libdict/mlmamain.cpp:268-356, for code page 1251, a template of known length and a
client that is not null; `tail` and `smatch` as in `findMatch`. -/
def rusFindMatch (im : RusImages) (tail smatch : List Byte) (client : List (Nat × List StrMatch) → Int) (str : List Byte) :
    Option (Int × List (Nat × List StrMatch)) := do
  if str.length = 0 then return (0, [])
  else if str.length ≥ formLength then return (WORDBUFF_FAILED, [])
  else
    match ← capGet rusTab formLength str with
    | none => none
    | some (locase, _) =>
      let (r, _, s) ← wildScan (rusWildTarget im rusReg) (im.stemtree ++ tail) locase (smatch, {})
      return s.finish client r

end Libmorph
