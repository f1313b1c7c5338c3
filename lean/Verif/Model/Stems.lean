import Verif.Model.LidTree
/-
Stem entries: the element lists of the stem tree, their compilation and their scan.
-/
namespace Libmorph

/-- `entry_type`, lang-eng/libdict/buildic/makeeng.cpp:93-113,
lang-rus/libdict/tools/buildic/makerus.cpp:102-121. -/
structure Entry where
  chrmin : Byte
  chrmax : Byte
  nlexid : Nat
  oclass : Nat
  stpost : List Byte
deriving DecidableEq, Repr

/-- `std::string::compare(..) < 0` on byte strings (`memcmp`, then the length). -/
def bytesLt : List Byte → List Byte → Bool
  | _, [] => false
  | [], _ :: _ => true
  | a :: as, b :: bs => if a < b then true else if b < a then false else bytesLt as bs

/-- `entry_type::compare( r ) < 0`, makeeng.cpp:275-285, makerus.cpp:346-355.
Simplification: `nlexid - r.nlexid` is taken as a mathematical difference (the two agree for ids
less than 2^31 apart). -/
def Entry.lt (a b : Entry) : Bool :=
  if b.chrmax ≠ a.chrmax then b.chrmax < a.chrmax
  else if a.chrmin ≠ b.chrmin then a.chrmin < b.chrmin
  else if a.stpost ≠ b.stpost then bytesLt a.stpost b.stpost
  else a.nlexid < b.nlexid

/-- tools/buildmorph.h:226-228: the position is the first element that is not less. -/
def insEntry (e : Entry) : List Entry → List Entry
  | [] => [e]
  | x :: l => if x.lt e then x :: insEntry e l else e :: x :: l

/-- `entry_type::GetBufLen`, makeeng.cpp:255-259, makerus.cpp:329-332. -/
def Entry.len (e : Entry) : Nat :=
  1 + 1 + 2 + serialLen e.nlexid + (if e.stpost.isEmpty then 0 else 1 + e.stpost.length)

/-- `entry_type::Serialize`, makeeng.cpp:261-273, makerus.cpp:334-344.  `::Serialize( o, string )`
of the external `mtc` writes the length as a number, then the bytes. -/
def Entry.ser (e : Entry) : List Byte :=
  let wstore := e.oclass ||| (if e.stpost.isEmpty then 0 else 0x8000)
  [e.chrmin, e.chrmax] ++ putserial e.nlexid ++ putword16 wstore
    ++ (if wstore &&& 0x8000 ≠ 0 then putserial e.stpost.length ++ e.stpost else [])

/-- `::Serialize` of a `std::vector` (external `mtc`): the count as a number, then the elements. -/
def entriesSer (l : List Entry) : List Byte := putserial l.length ++ (l.map Entry.ser).flatten

/-- `::GetBufLen` of a `std::vector` (external `mtc`). -/
def entriesLen (l : List Entry) : Nat := serialLen l.length + (l.map Entry.len).sum

/-- tools/buildmorph.h:219-229: file one entry under a stem. -/
def fileEntry (stem : List Byte) (e : Entry) (t : Tree (List Entry)) : Tree (List Entry) :=
  t.insert (fun o => insEntry e (o.getD [])) stem

/-- tools/buildmorph.h:181-230: file all the entries, in article order. -/
def fileAll (l : List (List Byte × Entry)) : Tree (List Entry) :=
  l.foldl (fun t p => fileEntry p.1 p.2 t) Tree.empty

/-- tools/buildmorph.h:160-165, the image `stemtree`. -/
def stemImage (t : Tree (List Entry)) : List Byte := t.ser .u8 entriesSer entriesLen

/-- tools/buildmorph.h:146-152: the positions of the entries of one list. -/
def entryOffsets : List Entry → Nat → List (Nat × Nat)
  | [], _ => []
  | e :: l, off => (e.nlexid, off) :: entryOffsets l (off + e.len)

/-- tools/buildmorph.h:142-153: the calls `*lidstree.Insert( key ) = offset`, in order. -/
def lidPairs (t : Tree (List Entry)) : List (Nat × Nat) :=
  (t.enumerate .u8 entriesLen).flatMap fun p => entryOffsets p.1 (p.2 + serialLen p.1.length)

/-- tools/buildmorph.h:142-153: the id tree. -/
def lidTree (t : Tree (List Entry)) : Tree Nat :=
  (lidPairs t).foldl (fun lt p => lt.insert (fun _ => p.2) (lexkeybuf p.1)) Tree.empty

/-! ### Run time -/

/-- The fields of one stored entry as both scanners read them (xmorph/scandict.h:207-219, 263-271):
first-letter bounds, id, class offset without the suffix flag, suffix (`none`: no flag). -/
def readEntry (p : List Byte) : Option ((Byte × Byte × Nat × Nat × Option (List Byte)) × List Byte) := do
  let (chrmin, p) ← getbyte p
  let (chrmax, p) ← getbyte p
  let (nlexid, p) ← getserial p
  let (oclass, p) ← getword16 p
  if oclass &&& 0x8000 ≠ 0 then
    let (n, p) ← getbyte p
    if p.length < n then none
    else return ((chrmin, chrmax, nlexid, oclass &&& 0x7fff, some (p.take n)), p.drop n)
  else return ((chrmin, chrmax, nlexid, oclass &&& 0x7fff, none), p)

/-- xmorph/scandict.h:217-228: the length of the ending in front of the suffix, or `none` when the
suffix does not end the word.  The outer `none` is a read outside the word buffer. -/
def suffixCheck (f : Frag) : Option (List Byte) → Option (Option Nat)
  | none => some (some f.len)
  | some suf =>
    if suf.length > f.len then some none
    else if f.mem.length < f.len then none
    else if (f.mem.drop (f.len - suf.length)).take suf.length ≠ suf then some none
    else some (some (f.len - suf.length))

/-- What a scanner does with one entry after the checks: xmorph/scandict.h:231-238. -/
inductive Prune where
  | stop | skip | call (ccflex : Nat)
deriving DecidableEq, Repr

/-- xmorph/scandict.h:230-235. -/
def pruneStep (f : Frag) (chrmin chrmax : Byte) (ccflex : Nat) : Option Prune :=
  if ccflex > 0 then
    match f.mem.head? with
    | none => none
    | some b => if b > chrmax then some .stop else if b < chrmin then some .skip else some (.call ccflex)
  else some (.call ccflex)

/-- xmorph/scandict.h:202-241 `LookupList::operator()`, the loop; `output` receives id, class
offset, ending, suffix. -/
def lookupLoop {σ ρ : Type} (output : Nat → Nat → Frag → List Byte → σ → Option (Option ρ × σ)) (f : Frag) :
    Nat → List Byte → σ → Option (Option ρ × σ)
  | 0, _, s => some (none, s)
  | n + 1, p, s => do
    let ((chrmin, chrmax, nlexid, oclass, suf), p) ← readEntry p
    let cc ← suffixCheck f suf
    match cc with
    | none => lookupLoop output f n p s
    | some ccflex =>
      match ← pruneStep f chrmin chrmax ccflex with
      | .stop => return (none, s)
      | .skip => lookupLoop output f n p s
      | .call ccflex =>
        let (r, s) ← output nlexid oclass ⟨f.mem, ccflex⟩ (suf.getD []) s
        match r with
        | some r => return (some r, s)
        | none => lookupLoop output f n p s

/-- xmorph/scandict.h:198-242 `LookupList::operator()`. -/
def lookupList {σ ρ : Type} (output : Nat → Nat → Frag → List Byte → σ → Option (Option ρ × σ))
    (p : List Byte) (f : Frag) (s : σ) : Option (Option ρ × σ) := do
  let (n, p) ← getserial p
  lookupLoop output f n p s

/-- xmorph/scandict.h:257-279 `SelectView::operator()`, the loop.  `pos` is `dicpos` as the number of
bytes from it to the end of the image. -/
def selectLoop {σ ρ : Type} (output : Nat → Nat → List Byte → List Byte → σ → Option (Option ρ × σ))
    (pos : Nat) (tr : List Byte) : Nat → List Byte → σ → Option (Option ρ × σ)
  | 0, _, s => some (none, s)
  | n + 1, p, s => do
    let ((_, _, nlexid, oclass, suf), p') ← readEntry p
    if p.length = pos then output nlexid oclass tr (suf.getD []) s
    else selectLoop output pos tr n p' s

/-- xmorph/scandict.h:257-279 `SelectView::operator()`. -/
def selectView {σ ρ : Type} (output : Nat → Nat → List Byte → List Byte → σ → Option (Option ρ × σ))
    (pos : Nat) (p : List Byte) (tr : List Byte) (s : σ) : Option (Option ρ × σ) := do
  let (n, p) ← getserial p
  selectLoop output pos tr n p s

end Libmorph
