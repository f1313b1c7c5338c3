import Verif.Model.Stems
import Verif.Model.EngRun
/-
Wildcard search: xmorph/wildscan.h, lang-eng/libdict/wildClass.hpp, FindMatch.

Conventions: `none` is undefined behaviour; a result other than 0 stops the search.  The array `smatch` is part
of the state, `n` (`nmatch`, `lmatch`) is the position up to which it is filled.
-/
namespace Libmorph

/-- The array `smatch` and the state of the collector. -/
abbrev WildSt (σ : Type) := List Byte × σ

/-- A step of the search. -/
abbrev WildRun (σ : Type) := WildSt σ → Option (Int × WildSt σ)

/-- `smatch[n] = c`. -/
def poke1 {σ : Type} (n : Nat) (c : Byte) (st : WildSt σ) : Option (WildSt σ) :=
  if n < st.1.length then some (st.1.set n c, st.2) else none

/-- `if ( (nerror = f(...)) != 0 ) return nerror; g(...)` -/
def WildRun.seq {σ : Type} (f g : WildRun σ) : WildRun σ := fun st => do
  let (r, st) ← f st
  if r ≠ 0 then return (r, st) else g st

/-- xmorph/wildscan.h:40-43 `IsWildcard( uint8_t )`. -/
def isWild (c : Byte) : Bool := c == 42 || c == 63

/-- xmorph/wildscan.h:52-64 `IsAsterisk`. -/
def isAsterisk (s : List Byte) : Bool := !s.isEmpty && s.all (· == 42)

/-- xmorph/wildscan.h:97-99 and 108-110: all children in turn.  The character is stored before the number of
children is looked at, so that the byte behind the last child is read and stored too. -/
def anyKids {σ : Type} (desc : List Byte → WildRun σ) (n : Nat) : Nat → List Byte → WildSt σ → Option (Int × List Byte × WildSt σ)
  | 0, p, st => do
    let (c, _) ← getbyte p
    let st ← poke1 n c st
    return (0, p, st)
  | k + 1, p, st => do
    let (c, p) ← getbyte p
    let st ← poke1 n c st
    let (sublen, sub) ← getserial p
    let (r, st) ← desc sub st
    if r ≠ 0 then return (r, sub.drop sublen, st) else anyKids desc n k (sub.drop sublen) st

/-- xmorph/wildscan.h:115-119: the children with a given character. -/
def litKids {σ : Type} (ch : Byte) (desc : List Byte → WildRun σ) (n : Nat) :
    Nat → List Byte → WildSt σ → Option (Int × List Byte × WildSt σ)
  | 0, p, st => some (0, p, st)
  | k + 1, p, st => do
    let (c, p) ← getbyte p
    let st ← poke1 n c st
    let (sublen, sub) ← getserial p
    if c ≠ ch then litKids ch desc n k (sub.drop sublen) st
    else
      let (r, st) ← desc sub st
      if r ≠ 0 then return (r, sub.drop sublen, st) else litKids ch desc n k (sub.drop sublen) st

/-- xmorph/wildscan.h:124-125: pass over the children. -/
def skipKids : Nat → List Byte → Option (List Byte)
  | 0, p => some p
  | k + 1, p => do
    let (_, p) ← getbyte p
    let (sublen, sub) ← getserial p
    skipKids k (sub.drop sublen)

/-- xmorph/wildscan.h:74-129 `Wild::ScanTree`.  `act` is `ScanList` on the target.  The first argument bounds the
depth of the recursion: every call has a shorter template or a shorter image, so that the sum of the lengths
(`wildScan`) is never exhausted. -/
def wildTree {σ : Type} (act : List Byte → List Byte → Nat → WildRun σ) :
    Nat → List Byte → List Byte → Nat → WildRun σ
  | 0, _, _, _, _ => none
  | fuel + 1, dic, str, n, st => do
    let (u, p) ← getcount .u8 dic
    let count := Counter.getlower .u8 u
    let (r, p, st) ← (match str with
      | [] => do
        let p ← skipKids count p
        return (0, p, st)
      | c :: rest =>
        if c = 63 then anyKids (fun sub => wildTree act fuel sub rest (n + 1)) n count p st
        else if c = 42 then do
          let (r, st) ← (if rest ≠ [] then wildTree act fuel dic rest n st else some (0, st) : Option (Int × WildSt σ))
          if r ≠ 0 then return (r, p, st)
          else anyKids (fun sub => wildTree act fuel sub (c :: rest) (n + 1)) n count p st
        else litKids c (fun sub => wildTree act fuel sub rest (n + 1)) n count p st : Option (Int × List Byte × WildSt σ))
    if r ≠ 0 then return (r, st)
    else if Counter.hasupper .u8 u then act p str n st else return (0, st)

/-- The arguments of the target: id, class, rest of the template, suffix, position. -/
abbrev WildTarget (σ : Type) := Nat → Nat → List Byte → List Byte → Nat → WildRun σ

/-- xmorph/wildscan.h:162-166. -/
def wildPrune (str : List Byte) (chrmin chrmax : Byte) : Prune :=
  match str with
  | [] => .call 0
  | c :: _ =>
    if isWild c then .call 0
    else if c > chrmax then .stop else if c < chrmin then .skip else .call 0

/-- xmorph/wildscan.h:147-171 `Wild::ScanList`, the loop. -/
def wildListLoop {σ : Type} (target : WildTarget σ) (str : List Byte) (n : Nat) : Nat → List Byte → WildRun σ
  | 0, _, st => some (0, st)
  | k + 1, p, st => do
    let ((chrmin, chrmax, nlexid, oclass, suf), p) ← readEntry p
    match wildPrune str chrmin chrmax with
    | .stop => return (0, st)
    | .skip => wildListLoop target str n k p st
    | .call _ => (WildRun.seq (target nlexid oclass str (suf.getD []) n) (wildListLoop target str n k p)) st

/-- xmorph/wildscan.h:137-173 `Wild::ScanList`. -/
def wildList {σ : Type} (target : WildTarget σ) (p str : List Byte) (n : Nat) : WildRun σ := fun st => do
  let (k, p) ← getserial p
  wildListLoop target str n k p st

/-- The recursion with bounds that are never reached. -/
def wildScan {σ : Type} (target : WildTarget σ) (dic str : List Byte) : WildRun σ :=
  wildTree (wildList target) (dic.length + str.length + 1) dic str 0

/-! ### Suffix and string -/

/-- What is called for a match: the position and the description (the text is in `smatch`). -/
abbrev WildOut (σ : Type) := Nat → Gram → WildRun σ

/-- lang-eng/libdict/wildClass.hpp:46-92 (lang-rus/libdict/wildClass.hpp:48-94) `Wildcard::ScanSuffix`.
Simplification: a turn of the loop in lines 58-59 is a call of the function. -/
def scanSuffixAux {σ : Type} (out : WildOut σ) : Nat → List Byte → List Byte → Nat → Gram → WildRun σ
  | 0, _, _, _, _, _ => none
  | fuel + 1, inflex, suffix, n, g, st =>
    match inflex, suffix with
    | [], [] => out n g st
    | [], _ :: _ => some (0, st)
    | i :: is, [] => if i = 42 then (scanSuffixAux out fuel is [] n g).seq (fun st => some (0, st)) st else some (0, st)
    | i :: is, s :: ss =>
      if i = s then do
        let st ← poke1 n s st
        scanSuffixAux out fuel is ss (n + 1) g st
      else if i = 42 then
        (scanSuffixAux out fuel is (s :: ss) n g).seq (fun st => do
          let st ← poke1 n s st
          scanSuffixAux out fuel (i :: is) ss (n + 1) g st) st
      else if i = 63 then do
        let st ← poke1 n s st
        scanSuffixAux out fuel is ss (n + 1) g st
      else some (0, st)

/-- `Wildcard::ScanSuffix`; every call has a shorter template or suffix. -/
def scanSuffix {σ : Type} (out : WildOut σ) (inflex suffix : List Byte) (n : Nat) (g : Gram) : WildRun σ :=
  scanSuffixAux out (inflex.length + suffix.length + 1) inflex suffix n g

/-- lang-eng/libdict/wildClass.hpp:94-134 `Wildcard::ScanString` and lang-rus/libdict/wildClass.hpp:181-225
`Wildcard::SwapSearch`: match the template with a string, then go on with `next`.  Simplification: a turn of the
first loop is a call of the function. -/
def scanStringAux {σ : Type} (next : List Byte → Nat → WildRun σ) : Nat → List Byte → List Byte → Nat → WildRun σ
  | 0, _, _, _, _ => none
  | fuel + 1, inflex, stflex, n, st =>
    match stflex, inflex with
    | [], inflex => next inflex n st
    | _ :: _, [] => some (0, st)
    | x :: xs, i :: is => do
      let st ← poke1 n x st
      if x = i then scanStringAux next fuel is xs (n + 1) st
      else if i = 63 then scanStringAux next fuel is xs (n + 1) st
      else if i = 42 then
        (scanStringAux next fuel is (x :: xs) n).seq (scanStringAux next fuel (i :: is) xs (n + 1)) st
      else return (0, st)

/-- The same with a bound that is never reached. -/
def scanString {σ : Type} (next : List Byte → Nat → WildRun σ) (inflex stflex : List Byte) (n : Nat) : WildRun σ :=
  scanStringAux next (inflex.length + stflex.length + 1) inflex stflex n

/-! ### English -/

/-- lang-eng/libdict/wildClass.hpp:141-169 `Wildcard::FlexSearch`. -/
def engFlexLoop {σ : Type} (out : WildOut σ) (inflex suffix : List Byte) (n : Nat) : Nat → List Byte → WildRun σ
  | 0, _, st => some (0, st)
  | k + 1, p, st => do
    let (idform, p) ← getbyte p
    let (cc, p) ← getbyte p
    if p.length < cc then none
    else
      (if cc = 0 then scanSuffix out inflex suffix n ⟨0, idform, idform, 0⟩
       else scanString (fun inflex n => scanSuffix out inflex suffix n ⟨0, idform, idform, 0⟩) inflex (p.take cc) n).seq
        (engFlexLoop out inflex suffix n k (p.drop cc)) st

/-- What is registered: lexeme, text and its length in `smatch`, description. -/
abbrev WildReg (σ : Type) := Nat → List Byte → Gram → σ → Option (Int × σ)

/-- lang-eng/libdict/wildClass.hpp:243-251 `output` in `MatchModel::operator()`: the text is read from `smatch`. -/
def engWildOut {σ : Type} (reg : WildReg σ) (nlexid wdinfo : Nat) : WildOut σ := fun n g st => do
  if st.1.length < n then none
  else
    let (r, s) ← reg nlexid (st.1.take n) ⟨wdinfo, g.idForm, g.grInfo, g.bFlags⟩ st.2
    return (r, (st.1, s))

/-- lang-eng/libdict/wildClass.hpp:234-271 `MatchModel::operator()`. -/
def engWildTarget {σ : Type} (im : Images) (reg : WildReg σ) : WildTarget σ := fun nlexid oclass inflex suffix n st => do
  let lextem ← loadStem im.classmap oclass
  let out := engWildOut reg nlexid lextem.wdinfo
  match lextem.flexTable im.flexTree with
  | none => if inflex.isEmpty || isAsterisk inflex then out n ⟨0, 0xff, 0, 0⟩ st else return (0, st)
  | some table =>
    let (k, p) ← getbyte table
    engFlexLoop out inflex suffix n k p st

/-- `SStrMatch`, api.h: the text (address and length) and the form number. -/
structure StrMatch where
  text : List Byte
  id : Nat
deriving DecidableEq, Repr

/-- The variables of `FindMatch` the collector works on, lang-eng/libdict/mlmamain.cpp:263-267: the calls of
`AddLexeme` made so far, `lastId`, the first `nmatch` elements of `amatch`, and `pforms` as the number of bytes used
in `sforms` (`none`: not assigned yet). -/
structure MatchSt where
  calls : List (Nat × List StrMatch) := []
  lastId : Nat := 0
  amatch : List StrMatch := []
  used : Option Nat := none
deriving DecidableEq, Repr

/-- `AddLexeme` when another lexeme is met: mlmamain.cpp:275-282 (its answer is ignored). -/
def MatchSt.enter (nlexid : Nat) (s : MatchSt) : MatchSt :=
  if nlexid ≠ s.lastId then
    ⟨if s.lastId ≠ 0 then s.calls ++ [(s.lastId, s.amatch)] else s.calls, nlexid, [], some 0⟩
  else s

/-- Append a match: mlmamain.cpp:288-289 (Russian 307-310); `maxm` and `maxb` are the sizes of `amatch` and
`sforms`.  Simplification: the texts are kept with the elements of `amatch`; `sforms` is only appended to while
`amatch` is filled. -/
def MatchSt.push (maxm maxb : Nat) (text : List Byte) (id : Nat) (s : MatchSt) : Option MatchSt := do
  let used ← s.used
  if s.amatch.length < maxm ∧ used + text.length + 1 ≤ maxb then
    return { s with amatch := s.amatch ++ [⟨text, id⟩], used := some (used + text.length + 1) }
  else none

/-- `reglex`, lang-eng/libdict/mlmamain.cpp:269-291. -/
def engReg : WildReg MatchSt := fun nlexid text g s => do
  let s := s.enter nlexid
  if s.amatch.any fun m => m.id == g.idForm && m.text == text then return (0, s)
  else
    let s ← s.push 256 (256 * 96) text g.idForm
    return (0, s)

/-- mlmamain.cpp:327-331: the answer; `client` is what `AddLexeme` returns when it has been called with all of these. -/
def MatchSt.finish (client : List (Nat × List StrMatch) → Int) (r : Int) (s : MatchSt) : Int × List (Nat × List StrMatch) :=
  if r ≠ 0 then (r, s.calls)
  else if s.lastId ≠ 0 then
    let calls := s.calls ++ [(s.lastId, s.amatch)]
    (client calls, calls)
  else (0, s.calls)

/-- `CMlmaMb::FindMatch`, lang-eng/libdict/mlmamain.cpp:258-333, for a template of known length and a client that is
not null.  `tail` are the bytes in memory behind the stem image, `smatch` is the content of `cpsstr` at the
beginning.  The result of `CapScheme::Get` is not looked at; when it fails, `locase` is not wholly written
(undefined here). -/
def findMatch (im : Images) (tail smatch : List Byte) (client : List (Nat × List StrMatch) → Int) (str : List Byte) :
    Option (Int × List (Nat × List StrMatch)) := do
  if str.length = 0 then return (0, [])
  else if str.length ≥ formLength then return (WORDBUFF_FAILED, [])
  else
    match ← capGet engTab formLength str with
    | none => none
    | some (locase, _) =>
      let (r, _, s) ← wildScan (engWildTarget im engReg) (im.stemtree ++ tail) locase (smatch, {})
      return s.finish client r

end Libmorph
