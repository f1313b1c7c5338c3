import Verif.Model.TabText
import Verif.Model.RusBuild
/-
Reading the source files of the Russian dictionary: tools/buildmorph.h `DictReader`, `CreateDict`;
lang-rus/libdict/tools/buildic/makerus.cpp `BuildStems`; lresolve.cpp; mtables.cpp; tools/ftables.h `StripStr`.

A text is the bytes of the C string, without the terminating zero.  `none`: the behaviour is undefined, or the program
stops with an exception.
-/
namespace Libmorph

/-- `utf8to1251`, tools/utf81251.h:38-48, of the literals in lresolve.cpp and mtables.cpp (ASCII, Russian letters). -/
def utf8to1251 (s : String) : List Byte :=
  s.toList.map fun c => if c = 'ё' then 0xb8 else if c.toNat < 0x80 then c.toNat else c.toNat - 0x350

/-- `GetSubtext`, makerus.cpp:125-140; `n`: the size of the array.  A longer text leaves arrays unterminated or uninitialized
that are read afterwards. -/
def getSubtext (n : Nat) (s : List Byte) : Option (List Byte × List Byte) :=
  let w := s.takeWhile fun c => !isBlank c
  if w.length ≥ n then none else some (w, (s.dropWhile fun c => !isBlank c).dropWhile isBlank)

/-- `typesMap`, lresolve.cpp:58-210. -/
def typesMap : List (String × Nat) := [
  ("# нсв", 1), ("# нсв_нп", 2), ("# св", 3), ("# св_нп", 4), ("# св-нсв", 5), ("# св-нсв_нп", 6),
  ("# м", 7), ("м мп", 7), ("м ммс", 7), ("мн. м", 7 + 0x40), ("# мн._от_м", 7 + 0x40), ("мн._неод. мп", 7 + 0x40),
  ("# мо", 8), ("мо мпо", 8), ("мо момс", 8), ("мн. мо", 8 + 0x40), ("мн._одуш. мпо", 8 + 0x40),
  ("# м//мо", 9), ("# мо//м", 9),
  ("м с", 10), ("мо жо", 11), ("мо со", 12),
  ("# ж", 13), ("ж жп", 13), ("ж жмс", 13), ("мн. ж", 13 + 0x40), ("# мн._от_ж", 13 + 0x40),
  ("# жо", 14), ("жо жпо", 14), ("мн. жо", 14 + 0x40),
  ("# ж//жо", 15), ("# жо//ж", 15),
  ("# с", 16), ("с сп", 16), ("с смс", 16), ("мн. с", 16 + 0x40), ("# мн._от_с", 16 + 0x40), ("мн._от_с сп", 16 + 0x40),
  ("# со", 17), ("со спо", 17), ("мн. со", 17 + 0x40),
  ("# с//со", 18), ("# со//с", 18),
  ("м//ж ж", 19), ("# мо-жо", 20), ("# мо//жо", 20), ("мо-жо жо", 20), ("мо//жо жо", 20),
  ("# м//с", 21), ("# с//м", 21), ("мо//со со", 22),
  ("# ж//с", 23), ("# с//ж", 23),
  ("мн. ж//м", 24 + 0x40), ("мн. м//ж", 24 + 0x40),
  ("# п", 25), ("# г-п", 26), ("п мс", 27), ("мс-п мсп", 28), ("# мс-п", 28),
  ("# мс", 29), ("# мс_мн.", 93), ("# мсм", 30), ("# мсж", 31), ("# мсс", 32),
  ("# числ.", 33), ("# числ._2", 34), ("# числ._с", 35), ("числ.-п мс", 36), ("числ.-п мсп", 36), ("числ.-п мс-п", 36),
  ("# и", 37), ("# им", 38), ("им иж", 38), ("# иж", 39), ("# ом", 40), ("# ож", 41), ("# ф", 42), ("ф фп", 42), ("ф фж", 42),
  ("# г", 43), ("# гп", 43), ("# гм", 44), ("# гмп", 44), ("# гж", 45), ("# гжп", 45), ("# гс", 46), ("# гсп", 46),
  ("# мн._от_гж", 47 + 0x40), ("# мн._от_гм", 47 + 0x40), ("мн. гп", 47 + 0x40),
  ("# вводн.", 48), ("# межд.", 49), ("# предик.", 50), ("# предл.", 51), ("# союз", 52), ("# союз_соч.", 52 + 0x40), ("# част.", 53),
  ("# н", 54), ("# сокр._сущ.", 55), ("# сокр._прил.", 56), ("# сокр._вводн.", 57), ("# сравн.", 58),
  ("# АБ", 59), ("# аб", 60), ("# #1", 61), ("# #2", 62)]

/-- `TypeMatrix::find`, lresolve.cpp:50-55, 214-218. -/
def typeOf (s : List Byte) : Nat := ((typesMap.find? fun p => utf8to1251 p.1 = s).map (·.2)).getD 0

/-- `lexflags`, lresolve.cpp:220-230. -/
def lexFlagList : List (String × Nat) := [("{превосх.}", 0x80), ("{исчисл.}", 0x100), ("{разг.}", 0x200), ("{руг.}", 0x400)]

/-- `LexFlags`, lresolve.cpp:232-241. -/
def lexFlags (comm : List Byte) : Nat :=
  lexFlagList.foldl (fun u p => if (strstrAt (utf8to1251 p.1) comm).isSome then u ||| p.2 else u) 0

/-- `GetRemark`, lresolve.cpp:256-270. -/
def getRemark : List Byte → List Byte
  | [] => []
  | c :: s =>
    if c = 45 ∧ (s.dropWhile fun c => c ≠ 45 && !isBlank c).head? = some 45 then s.takeWhile fun c => c ≠ 45 && !isBlank c
    else getRemark s

/-- `Reflexive`, lresolve.cpp:272-277. -/
def reflexive (s : List Byte) : Bool := s.length > 2 && s.drop (s.length - 2) = utf8to1251 "ся"

/-- `CaseScale`, lresolve.cpp:284-295, the loop over the letters. -/
def caseLetters : List Byte → Nat → Nat
  | [], u => u
  | c :: s, u =>
    match (utf8to1251 "ИРДВТП").idxOf? c with
    | some n => caseLetters s (u ||| (1 <<< n))
    | none => u

/-- `CaseScale`, lresolve.cpp:284-295. -/
def caseScale (s : List Byte) : Nat :=
  match strstrAt (utf8to1251 "ШП:") s with
  | some (_, at_) => caseLetters (at_.drop 3) 0
  | none => 0

/-- `GetPostfix`, lresolve.cpp:302-317. -/
def getPostfix (s : List Byte) : List Byte :=
  match strstrAt (litBytes "post:") s with
  | some (_, at_) => ((at_.drop 5).dropWhile isBlank).takeWhile fun c => !isBlank c
  | none => []

/-- lresolve.cpp:344-350, makerus.cpp:214: without '=', with 'е' for 'ё'. -/
def cleanNorm (s : List Byte) : List Byte := (s.filter (· ≠ 61)).map fun c => if c = 0xb8 then 0xe5 else c

/-! ### Cutting off the ending -/

/-- `NounLevels`, tools/ftables.h:73-78. -/
def nounLevels (k : Nat) : Nat := if k = 0 then 0xffff else 0
/-- `VerbLevels`, tools/ftables.h:80-85. -/
def verbLevels (k : Nat) : Nat := if k = 0 then 0x007f else if k = 1 then 0x7f80 else if k = 2 then 0x8000 else 0

/-- `GramLevels::GetUpLevels`, tools/ftables.h:63-70. -/
def upLevels (lv : Nat → Nat) (k : Nat) : Nat := if k = 0 then lv 1 ||| lv 2 else if k = 1 then lv 2 else 0

/-- `FlexStripper::StringHasTail`, tools/ftables.h:105-111: `tail` is the text of a line; of its length four bits are used. -/
def hasTail (s tail : List Byte) : Bool :=
  tail.length &&& 0x0f ≤ s.length && s.drop (s.length - (tail.length &&& 0x0f)) = tail.take (tail.length &&& 0x0f)

/-- `ststem.resize( ststem.length() - n )`: an exception when there are fewer bytes. -/
def cutBack (s : List Byte) (n : Nat) : Option (List Byte) := if n ≤ s.length then some (s.take (s.length - n)) else none

/-- `FlexStripper::StripStr`, tools/ftables.h:152-183: the loop over the lines of a table; `descend` is the recursive call in
line 170.  What a failed call has cut off stays cut off. -/
def stripItems (descend : Nat → List Byte → Option (Bool × List Byte)) (lv : Nat → Nat) (gr k : Nat) :
    List CItem → List Byte → Option (Bool × List Byte)
  | [], s => some (false, s)
  | i :: l, s =>
    if gr &&& lv k ≠ i.gr &&& lv k then stripItems descend lv gr k l s
    else if gr &&& lv k = 0 ∧ lv k ≠ 0xffff then stripItems descend lv gr k l s
    else if k < 2 ∧ i.flags &&& 0x80 ≠ 0 then do
      let (ok, s) ← descend i.next s
      if ok && hasTail s i.flex then (cutBack s i.flex.length).map (true, ·) else stripItems descend lv gr k l s
    else if hasTail s i.flex then (cutBack s i.flex.length).map (true, ·)
    else stripItems descend lv gr k l s

/-- `FlexStripper::StripStr`, tools/ftables.h:142-187: whether an ending has been cut off, and what is left.  The first number
bounds the recursion.  Simplification: the lines are read first (`compactTable7`). -/
def stripStr (ftab : List Byte) (lv : Nat → Nat) (gr : Nat) : Nat → Nat → Nat → List Byte → Option (Bool × List Byte)
  | 0, _, _, _ => none
  | d + 1, tfoffs, k, s => do
    let items ← compactTable7 ftab tfoffs
    let (ok, s) ← stripItems (fun t s => stripStr ftab lv gr d t k s) lv gr k items s
    if ok then return (true, s)
    else if k < 2 ∧ upLevels lv k ≠ 0 then stripStr ftab lv gr d tfoffs (k + 1) s
    else return (false, s)

/-- There are 2^16 tables and three levels: a deeper recursion does not end. -/
def maxStrip : Nat := 196609

/-! ### Choosing the alternation -/

/-- `Alternator::GetDefaultStr`, mtables.cpp:169-181, the loop. -/
def defaultLoop : Nat → List Byte → Option (List Byte)
  | 0, _ => none
  | n + 1, p => do
    let (h, q) ← getbyte p
    if h &&& 0x10 ≠ 0 then some p else defaultLoop n (q.drop (h &&& 0x0f))

/-- `Alternator::GetDefaultStr`, mtables.cpp:169-181: the memory from the first basic alternant on; the number of alternants is
read as a signed `char`. -/
def defaultStr (mtab : List Byte) (o : Nat) : Option (List Byte) := do
  let (n, p) ← getbyte (mtab.drop o)
  if n ≥ 128 then none else defaultLoop n p

/-- `StemHasTail`, mtables.cpp:144-150. -/
def stemHasTail (s mem : List Byte) : Option Bool := do
  let (h, q) ← getbyte mem
  if h &&& 0x0f ≤ s.length then
    if q.length < h &&& 0x0f then none else some (s.drop (s.length - (h &&& 0x0f)) = q.take (h &&& 0x0f))
  else some false

/-- `typeList`, mtables.cpp:101-114. -/
def mixTypeList : List (List Byte × Nat) :=
  [(utf8to1251 "ге", 1), (utf8to1251 "й", 5), (utf8to1251 "к", 3), (utf8to1251 "ле", 0), (utf8to1251 "о", 6), (utf8to1251 "ш", 2),
   (utf8to1251 "ь", 4)]

/-- `MapMixType`, mtables.cpp:129-142; `none` is -1. -/
def mapMixType (cond : List Byte) : List (List Byte × Nat) → Option Nat
  | [] => none
  | p :: l => if cond = p.1 then some p.2 else if bytesLt cond p.1 then none else mapMixType cond l

/-- `Alternator::tab::Find`, mtables.cpp:220-268: does the condition hold?  `stem` is what is left of the word. -/
def altSuits (type : Nat) (stem rems cond : List Byte) : Bool :=
  if 1 ≤ type &&& 0x3f ∧ type &&& 0x3f ≤ 6 then cond = rems || cond = utf8to1251 "о"
  else
    let n := stem.length
    match mapMixType cond mixTypeList with
    | some 0 => n ≥ 3 && (stem.drop (n - 3)).take 2 = utf8to1251 "ле"
    | some 1 => n ≥ 3 && (stem[n - 3]?.any fun c => c ∈ utf8to1251 "аеиоуыэюя") && stem[n - 2]? = (utf8to1251 "е").head?
    | some 2 => n ≥ 2 && (stem[n - 2]?.any fun c => c ∈ utf8to1251 "жцчшщ")
    | some 3 => n ≥ 2 && (stem[n - 2]?.any fun c => c ∈ utf8to1251 "кгх")
    | some 4 => n ≥ 2 && stem[n - 2]? = (utf8to1251 "ь").head?
    | some 5 => n ≥ 2 && stem[n - 2]? = (utf8to1251 "й").head?
    | some 6 => true
    | _ => false

/-- `Alternator::tab::Find`, mtables.cpp:210-271; 0: none. -/
def altFind (mtab : List Byte) (type : Nat) (stem rems : List Byte) : List (List Byte × Nat) → Option Nat
  | [] => some 0
  | (cond, o) :: l => do
    let d ← defaultStr mtab o
    let fits ← stemHasTail stem d
    if fits && altSuits type stem rems cond then return o else altFind mtab type stem rems l

/-! ### The article -/

/-- The tables the compiler is given: `InitTables`, makerus.cpp:359-371. -/
structure RusTabs where
  ftab : List Byte
  findex : List (List Byte × Nat)
  mtab : List Byte
  mindex : List (List Byte × List (List Byte × Nat))

/-- lresolve.cpp:391-422: what the normal form is to look like, and how it is compared. -/
def normalForm (wdinfo : Nat) (stem : List Byte) : (Nat → Nat) × Nat :=
  let pos := wdinfo &&& 0x3f
  let (lv, nf) :=
    if 1 ≤ pos ∧ pos ≤ 6 then (verbLevels, 0x8001)
    else if pos ∈ [25, 26, 27, 28, 34, 36, 42, 52] then (nounLevels, 0x200 + (if reflexive stem then 0x8000 else 0))
    else (nounLevels, 0)
  (lv, if wdinfo &&& 0x40 ≠ 0 then nf ||| 0x800 else nf)

/-- lresolve.cpp:444-469: the kind of the alternation of a verb. -/
def mixIndex (wdinfo : Nat) (zapart : List Byte) : Nat :=
  if wdinfo &&& 0x3f ≤ 6 then
    match zapart.head? with
    | some 54 => 1
    | some 57 => 1
    | some 53 => if (litBytes "5c/c").isPrefixOf zapart ∨ (litBytes "5*c/c").isPrefixOf zapart then 1 else 0
    | some 49 =>
      match (zapart.drop 1).head? with
      | some 48 => 1
      | some 52 => 1
      | some 49 => 2
      | _ => 0
    | _ => 0
  else 0

/-- `Alternator::Find`, mtables.cpp:273-279. -/
def mixFind (T : RusTabs) (name : List Byte) (type : Nat) (stem rems : List Byte) : Option Nat :=
  match mapFind T.mindex name with
  | some es => altFind T.mtab type stem rems es
  | none => some 0

/-- lresolve.cpp:429-476: the alternation; `stem`: what is left of the word. -/
def resolveMix (T : RusTabs) (stOrig zapart comm : List Byte) (wdinfo tfoffs : Nat) (stem post : List Byte) : Option RusArticle := do
  let mtoffs ← mixFind T stOrig wdinfo stem (getRemark comm)
  if mtoffs = 0 then return ⟨stem, wdinfo, tfoffs, 0, post, 0⟩
  else
    let d ← defaultStr T.mtab mtoffs
    let (h, _) ← getbyte d
    let stem ← cutBack stem (0x0f &&& h)
    return ⟨stem, wdinfo ||| (mixIndex wdinfo zapart &&& 3) <<< 11, tfoffs, mtoffs, post, 0⟩

/-- lresolve.cpp:367-427: the ending of the normal form; inner `none`: the article is not recognized. -/
def stripNormal (T : RusTabs) (zapart : List Byte) (wdinfo tfoffs : Nat) (stem : List Byte) : Option (Option (List Byte)) :=
  if 64 ∈ stem then some (some (stem.takeWhile (· ≠ 64)))
  else do
    let (lv, nf) := normalForm wdinfo stem
    let (ok, stem) ← stripStr T.ftab lv nf maxStrip tfoffs 0 stem
    return if !ok && !zapart.contains 58 then none else some stem

/-- `ResolveClassInfo`, lresolve.cpp:319-477, without the first-letter bounds (`rusBounds`) and with the lexeme id 0; inner
`none`: the article is not recognized. -/
def resolveClassInfo (T : RusTabs) (norm dies type zapart comm : List Byte) : Option (Option RusArticle) :=
  let wdinfo := typeOf (dies ++ 32 :: type)
  let stOrig := type ++ 32 :: zapart
  if wdinfo = 0 then some none
  else
    let tfoffs := if wdinfo &&& 0x3f < 48 then (mapFind T.findex stOrig).getD 0 % 65536 else 0
    if wdinfo &&& 0x3f < 48 ∧ tfoffs = 0 ∧ zapart ≠ [48] then some none
    else do
      let post := getPostfix comm
      let stem ← cutBack (cleanNorm norm) post.length
      let wdinfo := wdinfo ||| lexFlags comm
      if tfoffs = 0 then return some ⟨stem, wdinfo, if wdinfo &&& 0x3f = 51 then caseScale zapart else 0, 0, post, 0⟩
      else
        match ← stripNormal T zapart wdinfo tfoffs stem with
        | none => return none
        | some stem => return some (← resolveMix T stOrig zapart comm wdinfo tfoffs stem post)

/-- `ResolveRus::BuildStems`, makerus.cpp:196-240: the articles of a text, none if it is not recognized. -/
def buildStems (T : RusTabs) (s : List Byte) : Option (List RusArticle) := do
  let (norm, s) ← getSubtext 0x100 s
  let (dies, s) ← getSubtext 0x20 s
  let (type, s) ← getSubtext 0x20 s
  let (zindex, comm) ← getSubtext 0x20 s
  let whole ← resolveClassInfo T norm dies type zindex comm
  match whole with
  | some a => return [a]
  | none =>
    match strstrAt (litBytes "//") zindex with
    | none => return []
    | some (one, two) =>
      let a ← resolveClassInfo T norm dies type one comm
      let b ← resolveClassInfo T norm dies type (two.drop 2) comm
      return a.toList ++ b.toList

/-- What becomes of a line: nothing; it goes to the file of unknown words; articles. -/
inductive RusLineResult
  | skip
  | unknown (text : List Byte)
  | articles (l : List RusArticle)
deriving DecidableEq, Repr

/-- `DictReader`, buildmorph.h:192-229: one line (already converted to code page 1251). -/
def rusLine (T : RusTabs) (line : List Byte) : Option RusLineResult :=
  let s := trimLine line
  if s = [] then some .skip
  else if (litBytes "//").isPrefixOf s then some (.unknown s)
  else
    match strstrAt (litBytes "LID:") s with
    | none => some .skip
    | some (before, from_) =>
      match before.getLast? with
      | none => some .skip
      | some c =>
        if c ≠ 9 ∧ c ≠ 32 then some .skip
        else
          let nlexid := strtoul0 (from_.drop 4) % 2 ^ 32
          if nlexid = 0 then some .skip
          else (buildStems T s).map fun l => if l = [] then .unknown s else .articles (l.map fun a => { a with id := nlexid })

/-- `DictReader`, buildmorph.h:181-231, `PutUnknown`, 233-244: the tables and the file of unknown words. -/
def rusRead (T : RusTabs) : List (List Byte) → RusState × List (List Byte) → Option (RusState × List (List Byte))
  | [], r => some r
  | l :: ls, (st, unk) =>
    match rusLine T l with
    | none => none
    | some .skip => rusRead T ls (st, unk)
    | some (.unknown t) => rusRead T ls (st, unk ++ [t])
    | some (.articles as) => (as.foldlM (RusState.resolve T.ftab T.mtab) st).bind fun st => rusRead T ls (st, unk)

/-- `CreateDict`, buildmorph.h:110-134, over the files. -/
def rusCompile (T : RusTabs) (conv : List Byte → List Byte) (files : List (List Byte)) : Option (RusState × List (List Byte)) :=
  rusRead T (files.map (sourceLines conv)).flatten ({ plain := plainMagic }, [])

end Libmorph
