import Verif.Model.Stems
import Verif.Model.Caps
/-
The English dictionary compiler: ending tables, classes, articles.
lang-eng/libdict/buildic/flexbox.h, lang-eng/libdict/buildic/makeeng.cpp.
-/
namespace Libmorph

/-- `CFlexBox::fxinfo`, flexbox.h:52-63. -/
structure Flex where
  szflex : List Byte
  idform : Byte
deriving DecidableEq, Repr

/-- `fxinfo::operator <`, flexbox.h:57-62. -/
def Flex.lt (a b : Flex) : Bool :=
  if a.szflex ≠ b.szflex then bytesLt a.szflex b.szflex else a.idform < b.idform

/-- flexbox.h:145-146: insertion in front of the first element that is not less (`lower_bound`). -/
def insFlex (x : Flex) : List Flex → List Flex
  | [] => [x]
  | y :: l => if y.lt x then y :: insFlex x l else x :: y :: l

/-- `CFlexBox::ftable` with its base `tableref`, flexbox.h:44-75. -/
structure FTable where
  offset : Nat := 0
  clower : Byte := 0xff
  cupper : Byte := 0
  items : List Flex := []
deriving DecidableEq, Repr

/-- `ftable::GetBufLen`, flexbox.h:66-74. -/
def FTable.len (t : FTable) : Nat := 1 + (t.items.map fun x => 2 + x.szflex.length).sum

/-- flexbox.h:186-191: one element of a table. -/
def Flex.ser (x : Flex) : List Byte := x.idform :: (x.szflex.length % 256) :: x.szflex

/-- flexbox.h:180-192: one table. -/
def FTable.ser (t : FTable) : List Byte := (t.items.length % 256) :: (t.items.map Flex.ser).flatten

/-- flexbox.h:143-149: register one ending. -/
def FTable.reg (t : FTable) (flex : List Byte) (idflex : Nat) : FTable :=
  { t with
    items := insFlex ⟨flex, idflex % 256⟩ t.items
    clower := min t.clower (flex.headD 0)
    cupper := max t.cupper (flex.headD 0) }

theorem drop_dropWhile_lt {p : Byte → Bool} {c : Byte} {s : List Byte} :
    (((c :: s).dropWhile p).drop 1).length < (c :: s).length := by
  have h1 : ((c :: s).dropWhile p).length ≤ (c :: s).length := (List.dropWhile_sublist p).length_le
  rw [List.length_drop]
  simp only [List.length_cons] at *
  omega

/-- flexbox.h:126-155: the alternatives of one form, separated by '/' (47); one that begins with
'0' (48) is the empty ending. -/
def regAlts (idflex : Nat) (s : List Byte) (t : FTable) : FTable :=
  match s with
  | [] => t
  | c :: s' =>
    let tok := (c :: s').takeWhile (· != 47)
    let rest := ((c :: s').dropWhile (· != 47)).drop 1
    regAlts idflex rest (t.reg (if c = 48 then [] else tok) idflex)
termination_by s.length
decreasing_by exact drop_dropWhile_lt

/-- flexbox.h:106-157: the forms, separated by '|' (124); "-" (45) is an absent form. -/
def regFields (idflex : Nat) (s : List Byte) (t : FTable) : FTable :=
  match s with
  | [] => t
  | c :: s' =>
    let field := (c :: s').takeWhile (· != 124)
    let rest := ((c :: s').dropWhile (· != 124)).drop 1
    regFields (idflex + 1) rest (if field = [45] then t else regAlts idflex field t)
termination_by s.length
decreasing_by exact drop_dropWhile_lt

/-- flexbox.h:101-157: the table of an ending string (offset not yet set). -/
def parseTable (s : List Byte) : FTable :=
  regFields 0 (if s.head? = some 124 then s.drop 1 else s) {}

/-- `CFlexBox`, flexbox.h:84-86.  Simplification: the map is a list in order of registration. -/
structure FlexBox where
  tabs : List (List Byte × FTable) := []
  length : Nat := 4

/-- `CFlexBox::AddInflex`, flexbox.h:92-163.  The offset is 16 bits wide. -/
def FlexBox.add (b : FlexBox) (s : List Byte) : FlexBox × FTable :=
  match b.tabs.find? (fun p => p.1 = s) with
  | some p => (b, p.2)
  | none =>
    let t := { parseTable s with offset := b.length }
    (⟨b.tabs ++ [(s, t)], (b.length + t.len) % 65536⟩, t)

/-- `CFlexBox::Serialize`, flexbox.h:165-194 ("FLEX", then the tables).  Simplification: the tables
are written in order of registration; that is the order of their offsets as long as the 16-bit
length has not wrapped. -/
def FlexBox.image (b : FlexBox) : List Byte :=
  [70, 76, 69, 88] ++ (b.tabs.map fun p => p.2.ser).flatten

/-- `ClassTable::class_info`, makeeng.cpp:63-76. -/
structure ClassInfo where
  wdinfo : Nat
  fxoffs : Nat
deriving DecidableEq, Repr

/-- `ClassTable`, makeeng.cpp:60-88.  Simplification: the map is a list in order of registration. -/
structure ClassTab where
  tab : List (ClassInfo × Nat) := []
  len : Nat := 0

/-- `ClassTable::Add`, makeeng.cpp:217-228; the stored offset is 16 bits wide, the length is not. -/
def ClassTab.add (t : ClassTab) (c : ClassInfo) : ClassTab × Nat :=
  match t.tab.find? (fun p => p.1 = c) with
  | some p => (t, p.2)
  | none => (⟨t.tab ++ [(c, t.len % 65536)], t.len + 4⟩, t.len % 65536)

/-- makeeng.cpp:245-247: one class record. -/
def ClassInfo.ser (c : ClassInfo) : List Byte := putword16 c.wdinfo ++ putword16 c.fxoffs

/-- `ClassTable::Serialize`, makeeng.cpp:230-251.  Simplification: in order of registration, which is
the order of the offsets as long as there are at most 2^14 classes. -/
def ClassTab.image (t : ClassTab) : List Byte := (t.tab.map fun p => p.1.ser).flatten

/-- A dictionary article, already split: what makeeng.cpp:324-363 and 412-427 take from the text
(the suffix already cut off the stem, the ending string with its delimiters, the number of the part
of speech), with the lexeme id that tools/buildmorph.h:206-224 takes from it. -/
structure Article where
  stem : List Byte
  flex : List Byte
  pos : Nat
  post : List Byte
  id : Nat
deriving DecidableEq, Repr

/-- `Capitalization::IsCapital`, makeeng.cpp:47-50: the comparison is of an `unsigned char` with a
(signed) `char`, so every byte from 128 on counts as a capital. -/
def isCapitalEng (b : Byte) : Bool := b ≠ 0 ∧ (128 ≤ b ∨ engTab.lower b ≠ b)

/-- `Capitalization::Type`, makeeng.cpp:53-57. -/
def capType (s : List Byte) : Nat :=
  if isCapitalEng (s.getD 0 0) then if isCapitalEng (s.getD 1 0) then 2 else 1 else 0

/-- makeeng.cpp:370, 378-385: the word information of an article. -/
def Article.wdinfo (a : Article) : Nat :=
  match capType a.stem with
  | 1 => a.pos ||| 0x80
  | 2 => a.pos ||| 0x100
  | _ => a.pos

/-- The tables of `ResolveEng` (makeeng.cpp:129-132) and the entries produced so far. -/
structure EngState where
  box : FlexBox := {}
  classes : ClassTab := {}
  entries : List (List Byte × Entry) := []

/-- makeeng.cpp:365-399 `ResolveEng::operator()` after the text has been split, and
tools/buildmorph.h:224 (the id). -/
def EngState.resolve (st : EngState) (a : Article) : EngState :=
  let flex := a.flex.map engTab.lower
  let r := if flex = [] then (st.box, { offset := 0, clower := 0, cupper := 0, items := [] }) else st.box.add flex
  let c := st.classes.add ⟨a.wdinfo, r.2.offset⟩
  ⟨r.1, c.1, st.entries ++ [(a.stem.map engTab.lower, ⟨r.2.clower, r.2.cupper, a.id, c.2, a.post⟩)]⟩

/-- makeeng.cpp:157-212 and tools/buildmorph.h:115-134, 181-230: all the articles. -/
def engBuild (as : List Article) : EngState := as.foldl EngState.resolve {}

/-- The four images the run time is linked with, lang-eng/libdict/mlmadefs.h:43-46. -/
structure Images where
  stemtree : List Byte
  flexTree : List Byte
  classmap : List Byte
  lidstree : List Byte

/-- tools/buildmorph.h:137-172 and makeeng.cpp:198-209: write the images. -/
def EngState.images (st : EngState) : Images :=
  ⟨stemImage (fileAll st.entries), st.box.image, st.classes.image, lidImage (lidTree (fileAll st.entries))⟩

end Libmorph
