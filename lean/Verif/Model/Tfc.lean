import Verif.Model.RusTables
import Verif.Model.Stems
/-
The compiler of ending tables: utils/tfc/ftable.h, ftable.cpp.
-/
namespace Libmorph

/-- `fxitem`, ftable.h:42-96 without `ofnext` (computed by `Relocate`). -/
structure FxItem where
  tail : List Byte
  gr : Nat
  flags : Nat
  next : List Byte
deriving DecidableEq, Repr

/-- `fxitem::comp( fx ) < 0`, ftable.h:76-90.  `strcmp` on texts without zero bytes. -/
def FxItem.less (a b : FxItem) : Bool :=
  if a.tail ≠ b.tail then bytesLt a.tail b.tail
  else if a.gr ≠ b.gr then a.gr < b.gr
  else if a.flags ≠ b.flags then a.flags < b.flags
  else bytesLt a.next b.next

/-- `ftable::Insert`, ftable.h:122-132. -/
def ftInsert (x : FxItem) : List FxItem → List FxItem
  | [] => [x]
  | y :: l => if y.less x then y :: ftInsert x l else if y = x then y :: l else x :: y :: l

/-- `fxlist`, ftable.h:146-160: the tables, and the map of names to table numbers (a list, the keys differ). -/
structure FxList where
  tables : List (List FxItem) := []
  tabmap : List (List Byte × Nat) := []
deriving DecidableEq, Repr

/-- `tabmap.emplace`: a name that is there already stays as it is. -/
def mapEmplace {α β : Type} [DecidableEq α] (m : List (α × β)) (k : α) (v : β) : List (α × β) := if m.any (fun p => p.1 = k) then m else m ++ [(k, v)]

/-- `tabmap.find`. -/
def mapFind {α β : Type} [DecidableEq α] (m : List (α × β)) (k : α) : Option β := (m.find? fun p => p.1 = k).map (·.2)

/-- The text up to the first comma and the text after it. -/
def splitCommas : List Byte → List (List Byte)
  | [] => [[]]
  | c :: s =>
    if c = 44 then [] :: splitCommas s
    else match splitCommas s with
      | [] => [[c]]
      | p :: ps => (c :: p) :: ps

/-- Cut off blanks (up to 0x20) at both ends. -/
def trimBlanks (s : List Byte) : List Byte := ((s.dropWhile (· ≤ 32)).reverse.dropWhile (· ≤ 32)).reverse

/-- The names in a header, ftable.cpp:83-97: separated by commas, blanks around them cut off, empty ones passed over.
Simplification: the loop over pointers is a split. -/
def tabNames (ix : List Byte) : List (List Byte) := ((splitCommas ix).map trimBlanks).filter (· ≠ [])

/-- `fxlist::Insert`, ftable.cpp:72-98. -/
def FxList.insert (f : FxList) (ft : List FxItem) (ix : List Byte) : FxList :=
  let (tables, n) := match f.tables.findIdx? (· = ft) with
    | some n => (f.tables, n)
    | none => (f.tables ++ [ft], f.tables.length)
  ⟨tables, (tabNames ix).foldl (fun m k => mapEmplace m k n) f.tabmap⟩

/-- `fxitem::GetBufLen`, ftable.h:164-170. -/
def FxItem.bufLen (x : FxItem) : Nat := 1 + 2 + (serialLen x.tail.length + x.tail.length) + (if x.flags &&& 0xc0 ≠ 0 then 2 else 0)

/-- `ftable::RelocateOffsetSize`, ftable.cpp:54-65: the size of a table with its padding. -/
def ftSize (t : List FxItem) : Nat := (1 + (t.map FxItem.bufLen).sum + 1) / 2 * 2

/-- `fxlist::Relocate`, ftable.cpp:100-106, first loop: the offsets, in words of two bytes; `none`: an exception. -/
def ftOffsets : Nat → List (List FxItem) → Option (List Nat)
  | _, [] => some []
  | o, t :: ts => if o ≥ 0x1ffff then none else (ftOffsets (o + ftSize t) ts).map ((o >>> 1) :: ·)

/-- `ftable::RelocateReferences`, ftable.cpp:40-52: the offset of the table with the name; `none`: an exception. -/
def FxList.ofNext (f : FxList) (offs : List Nat) (x : FxItem) : Option Nat :=
  if x.flags &&& 0xc0 ≠ 0 then (mapFind f.tabmap x.next).bind fun n => offs[n]? else some 0

/-- `fxitem::Serialize`, ftable.h:172-181. -/
def FxItem.ser (x : FxItem) (ofnext : Nat) : List Byte :=
  (x.flags % 256) :: putword16 x.gr ++ putserial x.tail.length ++ x.tail ++ (if x.flags &&& 0xc0 ≠ 0 then putword16 ofnext else [])

/-- `ftable::Serialize`, ftable.h:185-196. -/
def ftSer (t : List (FxItem × Nat)) : List Byte :=
  (t.length % 256) :: (t.map fun p => p.1.ser p.2).flatten ++
    (if (1 + (t.map fun p => p.1.bufLen).sum) % 2 = 1 then [0] else [])

/-- `tables.Relocate()`, `StoreTab`, `StoreRef`, ftable.h:200-220: the image and the index; `none`: an exception. -/
def FxList.store (f : FxList) : Option (List Byte × List (List Byte × Nat)) := do
  let offs ← ftOffsets 6 f.tables
  let tabs ← f.tables.mapM fun t => t.mapM fun x => (f.ofNext offs x).map (x, ·)
  let refs ← f.tabmap.mapM fun p => offs[p.2]?.map (p.1, ·)
  return ([105, 110, 102, 108, 101, 120] ++ (tabs.map ftSer).flatten, refs)

/-- utils/tfc/tfc.cpp:152, 158 (`Insert` of the lines and of the table), 249-277: tables as (header, lines). -/
def tfcCompile (src : List (List Byte × List FxItem)) : Option (List Byte × List (List Byte × Nat)) :=
  (src.foldl (fun (f : FxList) p => f.insert (p.2.foldl (fun t x => ftInsert x t) []) p.1) {}).store

end Libmorph
