import Verif.Model.EngRun
import Verif.Model.RusRun
import Verif.Model.Fuzzy
/-
The tool that derives the classes of the fuzzy analysers from the dictionaries:
lang-rus/libprob/tools/make-classes.cpp (915 lines) and lang-eng/libprob/tools/make-classes.cpp (639 lines).  Lines are those
of the Russian tool, `eng:` marks lines of the English one; the two are the same but for the accents, the lists of forms and
the check of the number of forms in `Class`.

Here the marked lexemes (646-684; read in `Model/Marks`) are two predicates on ids and the result is a list of `FuzzyClass`; its text (859-912) and the reading
back (compile-dict.cpp:205-273) are in `Model/ClassText`.  Not modelled: `PrintDiff` and `revert` (not called).
-/
namespace Libmorph

/-- How a piece of the tool ends: undefined behaviour, an exception, a value. -/
inductive Ran (α : Type) where
  | ub
  | threw
  | done (a : α)
deriving Repr, DecidableEq

/-- One after another. -/
def Ran.bind {α β : Type} : Ran α → (α → Ran β) → Ran β
  | .ub, _ => .ub
  | .threw, _ => .threw
  | .done a, f => f a

/-- What the tool uses of `IMlmaMb`: GetWdInfo and BuildForm (buffer, lexeme, form). -/
structure Morpho where
  info : Nat → Option (Int × Option Byte)
  build : List Byte → Nat → Nat → Option (Int × Option (List Byte))

/-- The Russian dictionary, line 815. -/
def rusMorpho (im : RusImages) (junk : List Byte) : Morpho :=
  ⟨rusWdInfo im junk, fun B nlexid idform => rusBuildForm im junk (some B) nlexid idform⟩

/-- The English dictionary, eng:552. -/
def engMorpho (im : Images) (junk : List Byte) : Morpho :=
  ⟨getWdInfo im junk, fun B nlexid idform => buildForm im junk (some B) nlexid idform⟩

/-- `formInfo`, 79-93: number and text of a form. -/
abbrev MForm := Nat × List Byte

/-- `formInfo::operator <`, 85-92. -/
def MForm.lt (a b : MForm) : Bool := decide (a.1 < b.1) || (a.1 == b.1 && bytesLt a.2 b.2)

/-- `std::sort` of forms, 232, 311, 329: equal forms are the same, so it makes no difference which sort it is. -/
def sortForms (fs : List MForm) : List MForm := fs.insertionSort fun a b => b.lt a = false

/-! ### The forms of a lexeme: `AllForms::Build`, 169-215 -/

/-- 188-191, 211-212: the numbers of forms in the order in which they are asked for, and whether the form must exist (198).
The first argument bounds the number of turns. -/
def askOrder : Nat → List Nat → List Nat → List (Nat × Bool)
  | 0, _, _ => []
  | _ + 1, [], [] => []
  | n + 1, a :: as, [] => (a, true) :: askOrder n as []
  | n + 1, [], b :: bs => (b, false) :: askOrder n [] bs
  | n + 1, a :: as, b :: bs =>
    if a < b then (a, true) :: askOrder n as (b :: bs)
    else if b < a then (b, false) :: askOrder n (a :: as) bs
    else (a, true) :: askOrder n as bs

/-- 205-208: one string of the buffer in small letters, and what is behind it; `some none`: there is a hyphen in it.
`low` is `codepages::chartolower` of code page 1251 (external). -/
def readLow (low : Byte → Byte) : List Byte → Option (Option (List Byte × List Byte))
  | [] => none
  | c :: p =>
    if low c = 0 then some (some ([], p))
    else if low c = 45 then some none
    else (readLow low p).map (Option.map fun q => (low c :: q.1, q.2))

/-- 201-209: the strings BuildForm wrote; the first argument is the free part of the array `aforms`. -/
def readLows (low : Byte → Byte) : Nat → Nat → List Byte → Option (Option (List (List Byte) × List Byte))
  | _, 0, p => some (some ([], p))
  | 0, _ + 1, _ => none
  | room + 1, n + 1, p =>
    match readLow low p with
    | none => none
    | some none => some none
    | some (some (w, p)) => (readLows low room n p).map (Option.map fun q => (w :: q.1, q.2))

/-- 188-214: the loop; `done none` is `return {}`. -/
def buildLoop (low : Byte → Byte) (M : Morpho) (nlexid : Nat) : List (Nat × Bool) → List Byte → List MForm → Ran (Option (List MForm))
  | [], _, acc => .done (some acc)
  | (idform, must) :: ids, buf, acc =>
    match M.build buf nlexid idform with
    | none => .ub
    | some (nbuilt, out) =>
      if nbuilt < 0 then .threw
      else if nbuilt = 0 ∧ must = true then .done none
      else
        match readLows low (0x200 - acc.length) nbuilt.toNat (out.getD buf) with
        | none => .ub
        | some none => .done none
        | some (some (ws, buf)) => buildLoop low M nlexid ids buf (acc ++ ws.map fun w => (idform, w))

/-- `AllForms::Build`, 169-215; `buffer` is what the array happens to contain. -/
def allForms (low : Byte → Byte) (M : Morpho) (buffer : List Byte) (nlexid : Nat) (forced altern : List Nat) : Ran (Option (List MForm)) :=
  match M.info nlexid with
  | none => .ub
  | some (n, _) =>
    if n > 0 then buildLoop low M nlexid (askOrder (forced.length + altern.length) forced altern) buffer []
    else .done none

/-- `AllForms::Xpand`, 298-314: the forms added one after another behind the array, then the sort.  The bound of the array (0x200) is
not checked here: `ToolRoom.count` covers it. -/
def xpandForms (with_ : List (Nat × Nat)) (fs : List MForm) : List MForm :=
  sortForms (fs ++ fs.flatMap fun f => (with_.filter fun e => e.1 = f.1).map fun e => (e.2, f.2))

/-- 322-326: the number of one form; `idf` is its number before, the last entry of the list counts. -/
def renumId (with_ : List (Nat × Nat)) (idf : Nat) : Nat := with_.foldl (fun i e => if e.1 = idf then e.2 else i) idf

/-- `AllForms::Renum`, 316-332. -/
def renumForms (with_ : List (Nat × Nat)) (fs : List MForm) : List MForm :=
  sortForms (fs.map fun f => (renumId with_ f.1, f.2))

/-! ### The class of a lexeme: `AllForms::Class`, 217-296 -/

/-- 239: how many characters two strings have in common. -/
def matchLen : List Byte → List Byte → Nat
  | a :: as, b :: bs => if a = b then matchLen as bs + 1 else 0
  | _, _ => 0

/-- 235-243: the length of the stem. -/
def stemLoop : Nat → List Byte → List (List Byte) → Nat
  | cc, _, [] => cc
  | cc, prev, w :: ws => if cc ≥ 2 then stemLoop (min cc (matchLen prev w)) w ws else cc

/-- 229-243, all of it: `(unsigned)-1` at first. -/
def stemLen : List MForm → Nat
  | [] => 2 ^ 32 - 1
  | f :: fs => stemLoop (2 ^ 32 - 1) f.2 (fs.map (·.2))

/-- `pform[lform - k]`, 254, 262, 270.  Simplification: before the string there is a zero.  In the code it is the zero that
ends the string before; the result is used only when every form has two characters, then nothing else is read. -/
def lastChar (w : List Byte) (k : Nat) : Byte := if k ≤ w.length then w.getD (w.length - k) 0 else 0

/-- The constants 219-227 in code page 1251. -/
def rusSizzlings : List Byte := [230, 247, 248, 249]
def rusConsonant : List Byte := [225, 226, 227, 228, 230, 231, 234, 235, 236, 237, 239, 240, 241, 242, 244, 245, 246, 247, 248, 249, 249]
def rusAccentVow : List Byte := [224, 229, 238, 243, 251, 253, 254, 255]

/-- 245-286: the accent scheme. -/
def rusAccent (partSp : Nat) (fs : List MForm) : Bool :=
  if partSp = 7 ∨ partSp = 38 ∨ partSp = 40 ∨ partSp = 42 then
    fs.any fun f =>
      if f.1 = 0 then lastChar f.2 1 == 233 && rusAccentVow.contains (lastChar f.2 2)
      else if f.1 = 5 then lastChar f.2 2 == 238 && rusSizzlings.contains (lastChar f.2 3)
      else if f.1 = 10 then lastChar f.2 1 == 224 && rusConsonant.contains (lastChar f.2 2)
      else false
  else if partSp = 25 then fs.any fun f => f.1 == 0 && (lastChar f.2 2 == 238 && lastChar f.2 1 == 233)
  else false

/-- `Suffix`, 50-75. -/
structure ClassSuffix where
  s0 : Byte
  s1 : Byte
  accent : Bool
deriving DecidableEq, Repr

/-- `Suffix::operator <`, 62, 68-74. -/
def ClassSuffix.lt (a b : ClassSuffix) : Bool := decide (a.s1 < b.s1) || (a.s1 == b.s1 && decide (a.s0 < b.s0))

/-- `Suffix::operator ==`, 60. -/
def ClassSuffix.same (a b : ClassSuffix) : Bool := a.s1 == b.s1 && a.s0 == b.s0

/-- What the two tools differ in. -/
structure ClassTool where
  /-- the switch on the part of speech: the forms asked for, what is done with them, the part of speech of the class -/
  plan : Byte → Option ((List Nat × List Nat) × (List MForm → List MForm) × Byte)
  accent : Nat → List MForm → Bool
  /-- eng:219-220 -/
  checksCount : Bool

/-- `AllForms::Class`, 217-296, eng:215-243: endings and the end of the stem.  With fewer than two forms the Russian tool
moves the pointers by 2^32 - 1. -/
def classForms (T : ClassTool) (partSp : Byte) (fs : List MForm) : Ran (Option (List MForm × ClassSuffix)) :=
  if fs.length ≤ 1 then (if T.checksCount then .done none else .ub)
  else
    let fs := sortForms fs
    let cc := stemLen fs
    if 2 ≤ cc then
      match fs with
      | [] => .ub
      | f :: _ => .done (some (fs.map fun g => (g.1, g.2.drop cc), ⟨f.2.getD (cc - 2) 0, f.2.getD (cc - 1) 0, T.accent partSp fs⟩))
    else .done none

/-- `AllForms::Lemma`, 125-126. -/
def lemmaOf (fs : List MForm) : List Byte := (fs.head?.map (·.2)).getD [63]

/-! ### The collection: `ClassVal`, `LoadDict`, 352-628 -/

/-- `ClassVal::Sample`, 354-359. -/
structure ClassSample where
  suffix : ClassSuffix
  sample : List Byte
  mdProd : Nat
deriving DecidableEq, Repr

/-- `ClassVal`, 352-372. -/
structure ClassVal where
  charSet : List ClassSample
  modProd : Nat
  schemeB : Bool
deriving DecidableEq, Repr

/-- 375-393, the vector: `std::lower_bound` and what follows. -/
def addSuffix (suffix : ClassSuffix) (sample : List Byte) (mdprod : Nat) (forced : Bool) : List ClassSample → List ClassSample
  | [] => [⟨suffix, sample, mdprod⟩]
  | x :: xs =>
    if x.suffix.lt suffix then x :: addSuffix suffix sample mdprod forced xs
    else if x.suffix.same suffix then ⟨x.suffix, if forced then sample else x.sample, x.mdProd + mdprod⟩ :: xs
    else ⟨suffix, sample, mdprod⟩ :: x :: xs

/-- `ClassVal::AddSample`, 373-393 (counters below 2^32).  The English tool has no accent: there the flags are all `false`. -/
def ClassVal.add (v : ClassVal) (suffix : ClassSuffix) (sample : List Byte) (mdprod : Nat) (forced : Bool) : Ran ClassVal :=
  if v.charSet.length ≠ 0 ∧ suffix.accent ≠ v.schemeB then .threw
  else .done ⟨addSuffix suffix sample mdprod forced v.charSet, v.modProd + mdprod, v.schemeB⟩

/-- `ClassKey`, 396: part of speech and endings. -/
abbrev ClassKey := Nat × List MForm

/-- `AllForms::operator <`, 131-147. -/
def formsLt : List MForm → List MForm → Bool
  | [], [] => false
  | [], _ :: _ => true
  | _ :: _, [] => false
  | a :: as, b :: bs => if a.lt b then true else if b.lt a then false else formsLt as bs

/-- The order of keys (`std::pair`). -/
def ClassKey.lt (a b : ClassKey) : Bool := decide (a.1 < b.1) || (a.1 == b.1 && formsLt a.2 b.2)

/-- `ClassMap`, 398: a `std::map`, in the order of its keys. -/
abbrev ClassMap := List (ClassKey × ClassVal)

/-- 613-625: the class of a lexeme goes into the map. -/
def ClassMap.put (k : ClassKey) (suffix : ClassSuffix) (sample : List Byte) (forced : Bool) : ClassMap → Ran ClassMap
  | [] => .done [(k, ⟨[⟨suffix, sample, 1⟩], 1, suffix.accent⟩)]
  | (k', v) :: m =>
    if ClassKey.lt k' k then (ClassMap.put k suffix sample forced m).bind fun m => .done ((k', v) :: m)
    else if ClassKey.lt k k' then .done ((k, ⟨[⟨suffix, sample, 1⟩], 1, suffix.accent⟩) :: (k', v) :: m)
    else (v.add suffix sample 1 forced).bind fun v => .done ((k', v) :: m)

/-- The class of a lexeme: its key, the end of the stem, the sample. -/
structure LexClass where
  key : ClassKey
  suffix : ClassSuffix
  sample : List Byte
deriving DecidableEq, Repr

/-- 420-611: the class of a lexeme, `none` if it has none.  (`defined()`, 611, is true of a suffix that `Class` returns:
the letters are not zero.) -/
def lexClass (T : ClassTool) (low : Byte → Byte) (M : Morpho) (buffer : List Byte) (nlexid : Nat) : Ran (Option LexClass) :=
  match M.info nlexid with
  | none => .ub
  | some (n, p) =>
    if n ≤ 0 then .done none
    else
      match T.plan (p.getD 0) with
      | none => .done none
      | some ((forced, altern), change, partSp) =>
        (allForms low M buffer nlexid forced altern).bind fun r =>
          match r with
          | none => .done none
          | some fs =>
            (classForms T partSp (change fs)).bind fun c =>
              match c with
              | none => .done none
              | some (es, sx) => .done (some ⟨(partSp, es), sx, lemmaOf (change fs)⟩)

/-- 412-627: one turn of the loop. -/
def loadLexeme (T : ClassTool) (low : Byte → Byte) (M : Morpho) (buffer : List Byte) (sel ban : Nat → Bool) (m : ClassMap) (nlexid : Nat) :
    Ran ClassMap :=
  if ban nlexid then .done m
  else (lexClass T low M buffer nlexid).bind fun c =>
    match c with
    | none => .done m
    | some c => m.put c.key c.suffix c.sample (sel nlexid)

/-- 410: the lexemes one after another. -/
def loadAll (T : ClassTool) (low : Byte → Byte) (M : Morpho) (buffer : List Byte) (sel ban : Nat → Bool) : List Nat → ClassMap → Ran ClassMap
  | [], m => .done m
  | x :: xs, m => (loadLexeme T low M buffer sel ban m x).bind fun m => loadAll T low M buffer sel ban xs m

/-- 409-410: the lexemes of the limits. -/
def limitIds (limits : List (Nat × Nat)) : List Nat := limits.flatMap fun l => List.range' l.1 (l.2 + 1 - l.1)

/-! ### The lists of forms, 424-606, eng:366-383 -/

/-- 431-438. -/
def rusPresentForced : List Nat := [0, 2, 3, 18, 19, 22, 23, 26, 27, 128, 129, 130, 131]

/-- 467-482, 507-522. -/
def rusPastParticiples : List Nat :=
  [136, 137, 138, 139, 140, 141, 142, 144, 145, 146, 147, 148, 149, 150, 152, 153, 154, 155, 156, 157, 158,
   160, 161, 162, 163, 164, 165, 166, 168, 169, 170, 171, 172, 173, 174, 176, 177, 178, 179, 180, 181, 182,
   184, 185, 186, 187, 188, 189, 190, 192, 193, 194, 195, 196, 197, 198, 200, 201, 201, 203, 204, 205, 206,
   208, 209, 210, 211, 212, 213, 214, 216, 217, 218, 219, 220, 221, 222, 224, 225, 226, 227, 228, 229, 230,
   232, 233]

/-- 439-483. -/
def rusPresentAltern : List Nat :=
  [1, 4, 5, 20, 21, 24, 25, 28, 29, 132, 133, 134, 135,
   30, 31, 32, 33, 34, 35, 36, 38, 39, 40, 41, 42, 43, 44, 46, 47, 48, 49, 50, 51, 52, 54, 55, 56, 57, 58, 59, 60,
   62, 63, 64, 65, 66, 67, 68, 70, 71, 72, 73, 74, 75, 76, 78, 79, 80, 81, 82, 83, 84, 86, 87, 88, 89, 90, 91, 92,
   94, 95, 96, 97, 98, 99, 100, 102, 103, 104, 105, 106, 107, 108, 110, 111, 112, 113, 114, 115, 116,
   118, 119, 120, 121, 122, 123, 124, 126, 127] ++ rusPastParticiples

/-- 489-495. -/
def rusFutureForced : List Nat := [0, 2, 3, 6, 7, 10, 11, 14, 15, 128, 129, 130, 131]

/-- 496-523. -/
def rusFutureAltern : List Nat := [1, 4, 5, 8, 9, 12, 13, 16, 17, 132, 133, 134, 135] ++ rusPastParticiples

/-- 523-527. -/
def rusFutureRenum : List (Nat × Nat) :=
  [(6, 18), (7, 19), (8, 20), (9, 21), (10, 22), (11, 23), (12, 24), (13, 25), (14, 26), (15, 27), (16, 28), (17, 29)]

/-- 559-562. -/
def rusAdjForced : List Nat :=
  [0, 1, 2, 3, 4, 5, 6, 8, 9, 10, 11, 12, 13, 14, 16, 17, 18, 19, 20, 21, 22, 24, 25, 26, 27, 28, 29, 30]

/-- 424-606. -/
def rusPlan (partSp : Byte) : Option ((List Nat × List Nat) × (List MForm → List MForm) × Byte) :=
  match partSp &&& 0x3f with
  | 1 | 2 | 5 | 6 => some ((rusPresentForced, rusPresentAltern), id, 1)
  | 3 | 4 => some ((rusFutureForced, rusFutureAltern), renumForms rusFutureRenum, 1)
  | 7 | 8 | 9 => some (([0, 1, 2, 5, 6, 10, 11, 12, 15, 16], []), xpandForms [(0, 3), (1, 4), (10, 13), (11, 14)], 7 ||| (partSp &&& wfMultiple))
  | 13 | 14 | 15 => some (([0, 1, 2, 3, 5, 6, 10, 11, 12, 15, 16], []), xpandForms [(3, 4), (10, 13), (11, 14)], 13 ||| (partSp &&& wfMultiple))
  | 16 | 17 | 18 => some (([0, 1, 2, 3, 5, 6, 10, 11, 12, 15, 16], []), xpandForms [(3, 4), (10, 13), (11, 14)], 16 ||| (partSp &&& wfMultiple))
  | 25 | 26 | 27 => some ((rusAdjForced, []), id, if partSp = 26 then 25 else partSp)
  | 38 | 39 => some (([0, 1, 2, 3, 5, 6, 10, 11, 12, 13, 15, 16], []), id, partSp)
  | 40 | 41 => some (([0, 1, 2, 3, 5, 6], []), id, partSp)
  | 42 => some (([0, 1, 2, 3, 5, 6, 8, 9, 10, 11, 13, 14], [24, 25, 26, 27, 29, 30]), id, partSp)
  | 44 | 45 | 46 => some (([0, 1, 2, 3, 5, 6], []), id, partSp)
  | _ => none

/-- eng:366-383. -/
def engPlan (partSp : Byte) : Option ((List Nat × List Nat) × (List MForm → List MForm) × Byte) :=
  match partSp &&& 0x3f with
  | 1 => some (([0, 1, 2, 3], []), id, partSp)
  | 2 => some (([0, 1, 2, 3, 4], []), id, partSp)
  | 3 | 4 => some (([0], [1, 2]), id, partSp)
  | 17 => some (([0, 1], []), id, partSp)
  | _ => none

/-- The two tools. -/
def rusTool : ClassTool := ⟨rusPlan, rusAccent, false⟩
def engTool : ClassTool := ⟨engPlan, fun _ _ => false, true⟩

/-! ### Merging: `AllForms::Cover`, `MergeMap`, 334-350, 737-805 -/

/-- `AllForms::Cover`, 334-350: is the second list inside the first? -/
def coverForms : List MForm → List MForm → Bool
  | _, [] => true
  | [], _ :: _ => false
  | a :: as, b :: bs => if a.lt b then coverForms as (b :: bs) else if b.lt a then false else coverForms as bs

/-- 748-756: of the classes the first of the longest that `key` covers. -/
def mergePick (key : ClassKey) : ClassMap → Option (ClassKey × ClassVal) → Option (ClassKey × ClassVal)
  | [], sel => sel
  | t :: ts, sel =>
    if t.1.1 = 1 && coverForms key.2 t.1.2 then
      match sel with
      | none => mergePick key ts (some t)
      | some s => mergePick key ts (some (if s.1.2.length < t.1.2.length then t else s))
    else mergePick key ts sel

/-- 774-775. -/
def addSamples : ClassVal → List ClassSample → Ran ClassVal
  | v, [] => .done v
  | v, s :: ss => (v.add s.suffix s.sample s.mdProd false).bind fun v => addSamples v ss

/-- 743-803: the loop over the map; the classes before the iterator, and from it on.  The first argument bounds the number
of turns (there are not more than classes at first). -/
def mergePass : Nat → ClassMap → ClassMap → Bool → Ran (ClassMap × Bool)
  | _, pre, [], merged => .done (pre, merged)
  | 0, _, _ :: _, _ => .ub
  | n + 1, pre, c :: post, merged =>
    if c.1.1 = 1 then
      match mergePick c.1 (pre ++ post) none with
      | none => mergePass n (pre ++ [c]) post merged
      | some sel =>
        (addSamples c.2 sel.2.charSet).bind fun v =>
          mergePass n (pre.filter (fun x => x.1 ≠ sel.1) ++ [(c.1, v)]) (post.filter fun x => x.1 ≠ sel.1) true
    else mergePass n (pre ++ [c]) post merged

/-- `MergeMap`, 737-805; the first argument bounds the number of passes. -/
def mergeLoop : Nat → ClassMap → Ran ClassMap
  | 0, _ => .ub
  | n + 1, m =>
    (mergePass m.length [] m false).bind fun r => if r.2 then mergeLoop n r.1 else .done r.1

/-- `MergeMap`. -/
def mergeMap (m : ClassMap) : Ran ClassMap := mergeLoop (m.length + 1) m

/-! ### What is printed, 838-908 -/

/-- 851-854: `rtotal` twenty-fold, so that 95 % is an integer (the code counts in `double`: below 2^40
the product with 0.95 is exact when it is an integer and otherwise wrong by much less than 1/20, so the comparison with 0 is that of the integers). -/
def keepCount : Int → ClassMap → Nat
  | _, [] => 0
  | r, c :: cs => (if r - 20 * c.2.modProd ≥ 0 then 1 else 0) + keepCount (r - 20 * c.2.modProd) cs

/-- 848-849: classes without weight at the end. -/
def dropIdle (m : ClassMap) : ClassMap := (m.reverse.dropWhile fun c => c.2.modProd < 1).reverse

/-- 838-854: the classes that are printed; `sort` is `std::sort` by descending weight. -/
def printedClasses (sort : ClassMap → ClassMap) (m : ClassMap) : ClassMap :=
  (dropIdle (sort m)).take (keepCount (19 * (m.map fun c => c.2.modProd).sum) (dropIdle (sort m)))

/-- 864-908: a class as compile-dict reads it. -/
def toFuzzy (c : ClassKey × ClassVal) : FuzzyClass :=
  ⟨c.1.1, c.2.schemeB, c.1.2, c.2.charSet.map fun s => ⟨s.suffix.s0, s.suffix.s1, s.mdProd, s.sample⟩⟩

/-- `main`, 807-915, with the limits 825-831. -/
def makeClasses (T : ClassTool) (low : Byte → Byte) (M : Morpho) (buffer : List Byte) (sel ban : Nat → Bool) (sort : ClassMap → ClassMap)
    (limits : List (Nat × Nat)) : Ran (List FuzzyClass) :=
  (loadAll T low M buffer sel ban (limitIds limits) []).bind fun m =>
    (mergeMap m).bind fun m => .done ((printedClasses sort m).map toFuzzy)

end Libmorph
