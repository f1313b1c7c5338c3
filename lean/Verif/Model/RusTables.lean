import Verif.Model.EngRun
import Verif.Model.RusGram
/-
Russian ending tables and alternation tables.

The compiler gets the *compact* ending tables as a ready-made image and expands each of them, when
it is first used, into a *plain* tree of endings: tools/plaintable.h, tools/ftables.h,
lang-rus/libdict/tools/buildic/makerus.cpp.  Alternation tables are made by
lang-rus/libdict/tools/makeich and used as they are.
-/
namespace Libmorph

/-! ### Compact ending tables -/

/-- One element of a compact table, tools/plaintable.h:124-133, tools/ftables.h:131-138. -/
structure CItem where
  flags : Byte
  gr : Nat
  flex : List Byte
  next : Nat
deriving DecidableEq, Repr

/-- plaintable.h:124-133: read one element; the reference is there only when a flag of 0xc0 is set. -/
def readCItem (p : List Byte) : Option (CItem × List Byte) := do
  let (flags, p) ← getbyte p
  let (gr, p) ← getword16 p
  let (n, p) ← getbyte p
  if p.length < n then none
  else if flags &&& 0xc0 ≠ 0 then
    let (next, q) ← getword16 (p.drop n)
    return (⟨flags, gr, p.take n, next⟩, q)
  else return (⟨flags, gr, p.take n, 0⟩, p.drop n)

/-- The elements of a table one after another. -/
def readCItems : Nat → List Byte → Option (List CItem)
  | 0, _ => some []
  | n + 1, p => do
    let (i, p) ← readCItem p
    let l ← readCItems n p
    return i :: l

/-- plaintable.h:120-122: the table at the compact reference `tfoffs`.  Simplification: all the
elements are read first and then processed. -/
def compactTable (ftab : List Byte) (tfoffs : Nat) : Option (List CItem) := do
  let (n, p) ← getbyte (ftab.drop (tfoffs <<< 1))
  readCItems n p

/-- ftables.h:149, 193 (`& 0x7F`): the same table as the bounds are computed from. -/
def compactTable7 (ftab : List Byte) (tfoffs : Nat) : Option (List CItem) := do
  let (n, p) ← getbyte (ftab.drop (tfoffs <<< 1))
  readCItems (n &&& 0x7f) p

/-! ### Plain trees -/

/-- plaintable.h:71-75 `Insert`: append unless already present. -/
def addGram (g : FlexInfo) (l : List FlexInfo) : List FlexInfo := if g ∈ l then l else l ++ [g]

/-- plaintable.h:122-142, one element; `descend` expands the table the element refers to.  The prefix
is kept in an array of 0x100 bytes (line 105). -/
def createItem (descend : Nat → Nat → Nat → List Byte → Tree (List FlexInfo) → Option (Tree (List FlexInfo)))
    (gr fl : Nat) (pre : List Byte) (t : Tree (List FlexInfo)) (i : CItem) : Option (Tree (List FlexInfo)) :=
  if pre.length + i.flex.length > 0x100 then none
  else
    let t := if i.flags &&& 0x80 = 0
      then t.insert (fun o => addGram ⟨gr ||| i.gr, fl &&& i.flags⟩ (o.getD [])) (pre ++ i.flex) else t
    if i.next ≠ 0 then descend i.next (gr ||| i.gr) (fl &&& i.flags) (pre ++ i.flex) t else some t

/-- `FlexTree::CreateTree`, plaintable.h:116-143.  The first argument bounds the nesting; `none`:
undefined behaviour or unbounded recursion. -/
def createTree (ftab : List Byte) : Nat → Nat → Nat → Nat → List Byte → Tree (List FlexInfo) → Option (Tree (List FlexInfo))
  | 0, _, _, _, _, _ => none
  | d + 1, tfoffs, gr, fl, pre, t => do
    let items ← compactTable ftab tfoffs
    items.foldlM (createItem (createTree ftab d) gr fl pre) t

/-- There are 2^16 references; a table nested deeper contains itself, and the recursion of the code
does not end. -/
def maxNest : Nat := 65537

/-- `graminfo::Serialize`, plaintable.h:64-68. -/
def gramSer (g : FlexInfo) : List Byte := putword16 g.gramm ++ [g.flags % 256]

/-- `::Serialize` of `std::vector<graminfo>` (external `mtc`). -/
def gramsSer (l : List FlexInfo) : List Byte := putserial l.length ++ (l.map gramSer).flatten

/-- `::GetBufLen` of `std::vector<graminfo>`. -/
def gramsLen (l : List FlexInfo) : Nat := serialLen l.length + 3 * l.length

/-- `FlexTree::operator()`, plaintable.h:101-113: the plain image of the table at `tfoffs`. -/
def plainTable (ftab : List Byte) (tfoffs : Nat) : Option (List Byte) :=
  (createTree ftab maxNest tfoffs 0 0xff [] Tree.empty).map fun t => t.ser .u8 gramsSer gramsLen

/-! ### Run time: looking up an ending -/

/-- scanClass.hpp:62-67 `Grammar::list`, the loop over the descriptions; the buffer has 0x40 elements
(line 199). -/
def listLoop (filter : FlexInfo → Bool) : Nat → List Byte → List FlexInfo → Option (List FlexInfo)
  | 0, _, acc => some acc
  | n + 1, p, acc => do
    let (gr, p) ← getword16 p
    let (fl, p) ← getbyte p
    if filter ⟨gr, fl⟩ then
      if acc.length ≥ 0x40 then none else listLoop filter n p (acc ++ [⟨gr, fl⟩])
    else listLoop filter n p acc

/-- `Grammar::list::operator()`, lang-rus/libdict/scanClass.hpp:57-69; the number of descriptions is
read as a single byte. -/
def gramList (filter : FlexInfo → Bool) (p : List Byte) (f : Frag) (acc : List FlexInfo) :
    Option (Option Nat × List FlexInfo) := do
  if f.len = 0 then
    let (n, p) ← getbyte p
    let acc ← listLoop filter n p acc
    return (if acc.length = 0 then none else some acc.length, acc)
  else return (if acc.length = 0 then none else some acc.length, acc)

/-- `ScanDict::ScanTables`, scanClass.hpp:118-126: the buffer up to the returned number. -/
def scanFlex (filter : FlexInfo → Bool) (table : List Byte) (inflex : Frag) : Option (List FlexInfo) := do
  let (r, acc) ← scanTree .u8 (gramList filter) table inflex []
  return acc.take (r.getD 0)

/-- scanClass.hpp:134-136: the filter of a stem without alternation. -/
def flexFilter (wdinfo : Nat) (g : FlexInfo) : Bool :=
  if wdinfo &&& wfMultiple ≠ 0 then g.gramm &&& gfMultiple ≠ 0 else true

/-- scanClass.hpp:97-103, 146-150: the filter of one alternant. -/
def altFilter (wdinfo powers : Nat) (g : FlexInfo) : Bool :=
  powers &&& (1 <<< (swapLevel wdinfo g.gramm g.flags - 1)) ≠ 0 && flexFilter wdinfo g

/-! ### Alternation tables -/

/-- `interchange::fragment`, lang-rus/libdict/tools/makeich/mtable.h:49-69. -/
structure Mix where
  str : List Byte
  flags : Nat
deriving DecidableEq, Repr

/-- `interchange::addstep`, mtable.h:157-170 (`strcmp`; `str` has no zero bytes). -/
def addStep (s : List Byte) (step : Nat) : List Mix → List Mix
  | [] => [⟨s, (1 <<< step) % 256⟩]
  | m :: l =>
    if bytesLt m.str s then m :: addStep s step l
    else if m.str = s then ⟨m.str, (m.flags ||| (1 <<< step)) % 256⟩ :: l
    else ⟨s, (1 <<< step) % 256⟩ :: m :: l

/-- `interchange::GetBufLen`, mtable.h:172-180. -/
def mixLen (l : List Mix) : Nat := (1 + (l.map fun m => 1 + m.str.length).sum) % 65536

/-- mtable.h:190-193: the powers no alternant has. -/
def spareBits (l : List Mix) : Nat := ((l.foldl (fun u m => u ||| (m.flags <<< 4)) 0) ^^^ 0x70) &&& 0x70

/-- mtable.h:197-201: the first byte of an alternant. -/
def mixHead (upper : Nat) (m : Mix) : Nat :=
  let b := (m.str.length ||| (m.flags <<< 4)) % 256
  if upper ≠ 0 && b &&& 0x10 ≠ 0 then b ||| upper else b

/-- `interchange::Serialize`, mtable.h:182-206. -/
def mixSer (l : List Mix) : List Byte :=
  (l.length % 256) :: (l.map fun m => mixHead (spareBits l) m :: m.str).flatten

/-- What the comparison of one alternant with the rest of the word says, scanClass.hpp:243-253. -/
inductive MixCmp where
  | stop | skip | take
deriving DecidableEq, Repr

/-- scanClass.hpp:243-253: `mix` is the alternant (memory from `curmix`, length `mixlen`); a longer
alternant that continues the word counts as greater. -/
def mixCompare (mix : List Byte) (mixlen : Nat) (inflex : Frag) : Option MixCmp := do
  let cmplen := min mixlen inflex.len
  match ← memcmp mix inflex.mem cmplen with
  | .lt => return .skip
  | .gt => return .stop
  | .eq => return if mixlen - cmplen > 0 then .stop else .take

/-- scanClass.hpp:232-261: the loop over the alternants; `call powers rest` looks the rest of the word
up and hands the descriptions on. -/
def mixLoop {σ ρ : Type} (call : Nat → Frag → σ → Option (Option ρ × σ)) (inflex : Frag) :
    Nat → List Byte → σ → Option (Option ρ × σ)
  | 0, _, s => some (none, s)
  | n + 1, p, s => do
    let (head, p) ← getbyte p
    let mixlen := head &&& 0x0f
    match ← mixCompare p mixlen inflex with
    | .stop => return (none, s)
    | .skip => mixLoop call inflex n (p.drop mixlen) s
    | .take =>
      let (r, s) ← call (head >>> 4) ⟨inflex.mem.drop mixlen, inflex.len - mixlen⟩ s
      match r with
      | some r => return (some r, s)
      | none => mixLoop call inflex n (p.drop mixlen) s

/-- scanClass.hpp:228-261: `mixtab` is the table. -/
def mixScan {σ ρ : Type} (call : Nat → Frag → σ → Option (Option ρ × σ)) (mixtab : List Byte) (inflex : Frag) (s : σ) :
    Option (Option ρ × σ) := do
  let (n, p) ← getbyte mixtab
  mixLoop call inflex n p s

/-! ### First-letter bounds -/

/-- The bounds while they are computed, ftables.h:194-195: `none` is 0x100 / -1. -/
structure Bounds where
  lo : Option Nat := none
  hi : Option Nat := none
deriving DecidableEq, Repr

/-- `std::min( c, clower )`, `std::max( c, cupper )`. -/
def Bounds.add (b : Bounds) (lo hi : Nat) : Bounds :=
  ⟨some (match b.lo with | none => lo | some x => min lo x), some (match b.hi with | none => hi | some x => max hi x)⟩

/-- The conversion to `uint8_t`, ftables.h:228. -/
def Bounds.bytes (b : Bounds) : Nat × Nat := (b.lo.getD 0, b.hi.getD 255)

/-- `FlexStripper::GetMinMaxChar`, tools/ftables.h:189-229; `none`: undefined or unbounded.  The first
argument bounds the nesting. -/
def minMaxChar (ftab : List Byte) : Nat → Nat → Option (Nat × Nat)
  | 0, _ => none
  | d + 1, tfoffs => do
    let items ← compactTable7 ftab tfoffs
    let b ← items.foldlM (fun (b : Bounds) (i : CItem) =>
      match i.flex with
      | c :: _ => some (b.add c c)
      | [] =>
        if i.flags &&& 0x80 = 0 then some ⟨some 0, some (b.hi.getD 0)⟩
        else do
          let (cl, cu) ← minMaxChar ftab d i.next
          return b.add cl cu) {}
    return b.bytes

/-- mtables.cpp:191-202: the loop over an alternation table; `mixmin` and `mixmax` (0xff, -1 = `none`). -/
def mixBoundsLoop : Nat → List Byte → Nat → Option Nat → Option (Nat × Option Nat)
  | 0, _, lo, hi => some (lo, hi)
  | n + 1, p, lo, hi => do
    let (head, p) ← getbyte p
    if head &&& 0x0f > 0 then
      let (c, _) ← getbyte p
      mixBoundsLoop n (p.drop (head &&& 0x0f)) (min lo c) (some (match hi with | none => c | some x => max x c))
    else mixBoundsLoop n p 0 (some 0)

/-- `Alternator::GetMinMaxChar`, lang-rus/libdict/tools/buildic/mtables.cpp:183-208. -/
def mixBounds (mixtab : List Byte) (chrmin chrmax : Nat) : Option (Nat × Nat) := do
  let (n, p) ← getbyte mixtab
  let (lo, hi) ← mixBoundsLoop n p 0xff none
  return (if lo ≠ 0 then lo else chrmin, match hi with | none => chrmax | some x => if x = 0 then chrmax else x)

end Libmorph
