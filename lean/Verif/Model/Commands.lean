import Verif.Model.Library
import Verif.Model.RusText
import Verif.Model.TabText
import Verif.Model.EngText
/-
The compilers as programs: their arguments, the files they read and write, their exit status.
utils/tfc/tfc.cpp, lang-rus/libdict/tools/makeich/makeich.cpp, lang-rus/libdict/tools/buildic/makerus.cpp, lang-eng/libdict/buildic/makeeng.cpp.

Simplifications: what is printed to the terminal is not modelled; a file that could be opened is read and written without errors; whether a file can be created does
not change; the format of the index files (external `mtc`) is a parameter.
-/
namespace Libmorph

/-- The files of the computer, and where a file can be created. -/
structure Disk where
  file : List Byte → Option (List Byte)
  creatable : List Byte → Bool

/-- A file is written. -/
def Disk.put (d : Disk) (path text : List Byte) : Disk := { d with file := fun p => if p = path then some text else d.file p }

/-- How a program ends: with an exit status; or by an exception that nobody catches: then the files that are still open (`open_`) have lost what was not yet written. -/
inductive ProgEnd
  | exit (status : Nat) (disk : Disk)
  | aborted (open_ : List (List Byte)) (disk : Disk)

/-- The format of the index files: `StoreRef`, ftable.h:210-220, mtable.h:318-329, and `LoadObject`, tools/sweets.h:73-90. -/
structure IndexFormat where
  putFlex : List (List Byte × Nat) → List Byte
  getFlex : List Byte → Option (List (List Byte × Nat))
  putMix : List (List Byte × List (List Byte × Nat)) → List Byte
  getMix : List Byte → Option (List (List Byte × List (List Byte × Nat)))

/-- The conversions to code page 1251 (`codepages`, external). -/
structure SourcePages where
  from866 : List Byte → List Byte
  from1251 : List Byte → List Byte

/-! ### The tables of endings in Ukrainian -/

/-- `InitUkr`, gramap.cpp:120-151, cut to the sizes of `graminfo`. -/
def ukrMapper : List (List Byte × GramData) := [
  (litBytes "act", ⟨0x0007, 0x0020, 0xff, 0x03⟩),
  (litBytes "face 1", ⟨0x0007, 0x0008, 0xff, 0x03⟩),
  (litBytes "face 2", ⟨0x0007, 0x0010, 0xff, 0x03⟩),
  (litBytes "face 3", ⟨0x0007, 0x0018, 0xff, 0x03⟩),
  (litBytes "fem", ⟨0x0067, 0x0400, 0xff, 0x00⟩),
  (litBytes "fut", ⟨0x0000, 0x0003, 0xff, 0x03⟩),
  (litBytes "ger", ⟨0x0007, 0x0060, 0xff, 0x03⟩),
  (litBytes "imp", ⟨0x0000, 0x0002, 0xff, 0x03⟩),
  (litBytes "inf", ⟨0x0000, 0x0001, 0x00, 0x03⟩),
  (litBytes "msc", ⟨0x0067, 0x0200, 0xff, 0x00⟩),
  (litBytes "nwt", ⟨0x0067, 0x0600, 0xff, 0x00⟩),
  (litBytes "prs", ⟨0x0000, 0x0004, 0xff, 0x03⟩),
  (litBytes "pst", ⟨0x0000, 0x0005, 0xff, 0x03⟩),
  (litBytes "psv", ⟨0x0007, 0x0040, 0xff, 0x03⟩),
  (litBytes "sing", ⟨0x0067, 0x0000, 0xff, 0x03⟩),
  (litBytes "plur", ⟨0x0067, 0x0800, 0xff, 0x03⟩),
  ([194], ⟨0x8fff, 0x3000, 0xff, 0x03⟩),   -- В
  ([194, 237], ⟨0x8fff, 0x3000, 0xfc, 0x02⟩),   -- Вн
  ([194, 238], ⟨0x8fff, 0x3000, 0xfc, 0x01⟩),   -- Во
  ([196], ⟨0x8fff, 0x2000, 0xff, 0x03⟩),   -- Д
  ([199], ⟨0x8fff, 0x6000, 0xff, 0x03⟩),   -- З
  ([200], ⟨0x8fff, 0x0000, 0xff, 0x03⟩),   -- И
  ([207], ⟨0x8fff, 0x5000, 0xff, 0x03⟩),   -- П
  ([208], ⟨0x8fff, 0x1000, 0xff, 0x03⟩),   -- Р
  ([210], ⟨0x8fff, 0x4000, 0xff, 0x03⟩),   -- Т
  ([226, 244], ⟨0xffff, 0x8000, 0xff, 0x00⟩)   -- вф
]

/-- `MapInfo`, gramap.cpp:52-77, with the words in use (`mapInfo` is the case of the Russian words). -/
def mapInfoIn (words : List (List Byte × GramData)) (s : List Byte) (g : GramInfo) : Option GramInfo :=
  let toks := splitOn 124 s
  let toks := if toks.getLast? = some [] then toks.dropLast else toks
  toks.foldlM (fun g t => (mapFind words t).map fun d => d.apply g) g

/-- `MapLine`, tfc.cpp:56-87. -/
def mapLineIn (words : List (List Byte × GramData)) (s : List Byte) (g : GramInfo) : Option FxItem :=
  let (tail, s) := takeField (s.dropWhile isBlank)
  let (grtext, s) := takeField s
  let (sznext, s) := takeField s
  let (szopts, _) := takeField s
  (if grtext = [] then some g else mapInfoIn words grtext g).map fun g =>
    if sznext ≠ [] then ⟨unquote tail, g.gr, g.flags ||| 0x80, sznext⟩
    else if szopts ≠ [] then ⟨unquote tail, g.gr, g.flags ||| 0x40, szopts⟩
    else ⟨unquote tail, g.gr, g.flags, []⟩

/-- tfc.cpp:142-153. -/
def tfcLinesIn (words : List (List Byte × GramData)) : GramInfo → List (List Byte) → Option (List FxItem)
  | _, [] => some []
  | g, t :: ts =>
    if t.head? = some 46 then (mapInfoIn words (t.drop 1) g).bind fun g => tfcLinesIn words g ts
    else (mapLineIn words t g).bind fun x => (tfcLinesIn words g ts).map (x :: ·)

/-- tfc.cpp:119, 155-158. -/
def tfcTableIn (words : List (List Byte × GramData)) (p : List Byte × List (List Byte)) : Option (List Byte × List FxItem) :=
  (tfcLinesIn words ⟨0, 3⟩ p.2).bind fun l => if l = [] then none else some (p.1, l)

/-- tfc.cpp:249-257. -/
def tfcMainIn (words : List (List Byte × GramData)) (conv : List Byte → List Byte) (fs : List Byte → Option (List Byte)) (depth : Nat) (path : List Byte) :
    Option (List Byte × List (List Byte × Nat)) :=
  ((tabFile tfcCmds conv fs depth path).bind fun l => l.mapM (tfcTableIn words)).bind tfcCompile

/-! ### tfc and makeich -/

/-- The loop over the arguments, tfc.cpp:209-240, makeich.cpp:196-213: switches begin with '-'; `none`: an invalid switch.  The fourth name ends the loop. -/
def nameArgs {σ : Type} (switch : List Byte → σ → Option σ) : List (List Byte) → σ → List (List Byte) → Option (σ × List (List Byte))
  | [], o, names => some (o, names)
  | a :: as, o, names =>
    if a.head? = some 45 then (switch a o).bind fun o => nameArgs switch as o names
    else if names.length < 3 then nameArgs switch as o (names ++ [a])
    else some (o, names)

/-- The variables that the switches of tfc set: `source1251`, tfc.cpp:42, which nobody reads, and the words in use. -/
structure TfcOpts where
  source1251 : Bool := false
  words : List (List Byte × GramData) := gramMapper

/-- tfc.cpp:213-230. -/
def tfcSwitch (a : List Byte) (o : TfcOpts) : Option TfcOpts :=
  if a = litBytes "-w" then some { o with source1251 := true }
  else if a = litBytes "-lang:rus" then some { o with words := gramMapper }
  else if a = litBytes "-lang:ukr" then some { o with words := ukrMapper }
  else none

/-- The two files, tfc.cpp:264-277, makeich.cpp:235-260; -1 is the status 255. -/
def writeTwo (d : Disk) (bin sym image index : List Byte) : ProgEnd :=
  if d.creatable bin then
    let d := d.put bin image
    if d.creatable sym then .exit 0 (d.put sym index) else .exit 255 d
  else .exit 255 d

/-- `main`, tfc.cpp:196-280; `depth`: how many files can be open at a time. The source is opened with `source_encoding` (866), line 251. -/
def tfcProgram (P : SourcePages) (F : IndexFormat) (depth : Nat) (args : List (List Byte)) (d : Disk) : ProgEnd :=
  match nameArgs tfcSwitch args {} [] with
  | some (o, [inname, bin, sym]) =>
    match tfcMainIn o.words P.from866 d.file depth inname with
    | some (image, index) => writeTwo d bin sym image (F.putFlex index)
    | none => .exit 255 d
  | _ => .exit 255 d

/-- makeich.cpp:199-205: the code page of the sources. -/
def ichSwitch (P : SourcePages) (a : List Byte) (_ : List Byte → List Byte) : Option (List Byte → List Byte) :=
  if a = litBytes "-w" then some P.from1251 else none

/-- `StoreTab`, `StoreRef`, mtable.h:307-329: as `IchSet.store`, without what is done when the index is loaded. -/
def IchSet.written (s : IchSet) : Option (List Byte × List (List Byte × List (List Byte × Nat))) := do
  let offs := ichOffsets 6 s.inter
  let tabs ← s.condi.mapM fun c => c.mapM fun p => offs[p.2]?.map (p.1, ·)
  let idx ← s.index.mapM fun p => tabs[p.2]?.map (p.1, ·)
  return ([105, 110, 116, 101, 114, 99] ++ (s.inter.map mixSer).flatten, idx)

/-- makeich.cpp:222-233. -/
def ichWritten (conv : List Byte → List Byte) (fs : List Byte → Option (List Byte)) (depth : Nat) (path : List Byte) :
    Option (List Byte × List (List Byte × List (List Byte × Nat))) := do
  let l ← tabFile ichCmds conv fs depth path
  let l ← l.mapM fun p => p.2.mapM (ichLine p.1)
  let s ← l.flatten.foldlM (fun (s : IchSet) l => s.add l) {}
  s.written

/-- `main`, makeich.cpp:185-262. -/
def ichProgram (P : SourcePages) (F : IndexFormat) (depth : Nat) (args : List (List Byte)) (d : Disk) : ProgEnd :=
  match nameArgs (ichSwitch P) args P.from866 [] with
  | some (conv, [inname, bin, sym]) =>
    match ichWritten conv d.file depth inname with
    | some (image, index) => writeTwo d bin sym image (F.putMix index)
    | none => .exit 255 d
  | _ => .exit 255 d

/-! ### makerus and makeeng -/

/-- `GetSwitch`, makerus.cpp:246-259, makeeng.cpp:141-153, for all the keys in turn; `none`: an exception (no such switch, or it has a value already). -/
def keySwitch (keys : List (List Byte)) (arg : List Byte) (o : List Byte → List Byte) : Option (List Byte → List Byte) :=
  match keys.find? fun k => k.isPrefixOf arg && (arg[k.length]? = some 61 || arg[k.length]? = some 58) with
  | none => none
  | some k => if o k ≠ [] then none else some fun q => if q = k then arg.drop (k.length + 1) else o q

/-- makerus.cpp:279-297, makeeng.cpp:167-178: the switches and the names of the dictionaries. -/
def keyArgs (keys : List (List Byte)) : List (List Byte) → (List Byte → List Byte) → List (List Byte) → Option ((List Byte → List Byte) × List (List Byte))
  | [], o, dicts => some (o, dicts)
  | a :: as, o, dicts =>
    if a.head? = some 45 then (keySwitch keys (a.drop 1) o).bind fun o => keyArgs keys as o dicts
    else keyArgs keys as o (dicts ++ [a])

/-- makerus.cpp:283-292. -/
def rusKeys : List (List Byte) := ["flex-table", "flex-index", "intr-table", "intr-index", "target-dir", "unknown", "namespace", "codepage"].map litBytes

/-- makeeng.cpp:171-173. -/
def engKeys : List (List Byte) := ["target-dir", "unknown", "namespace"].map litBytes

/-- `BinaryDumper::OpenFile`, tools/dumppage.h:128-133: the path of a file in the target directory. -/
def outPath (dir name : List Byte) : List Byte :=
  dir ++ (if dir ≠ [] ∧ dir.getLast? ≠ some 47 ∧ dir.getLast? ≠ some 92 then [47] else []) ++ name

/-- Files are written one after another; the first that cannot be created ends this. -/
def writeFiles : List (List Byte × List Byte) → Disk → Bool × Disk
  | [], d => (true, d)
  | (p, t) :: l, d => if d.creatable p then writeFiles l (d.put p t) else (false, d)

/-- `PutUnknown`, tools/buildmorph.h:233-244: the file is created with the first unknown line, if there is a name for it. -/
def unknownFile (name : List Byte) (unk : List (List Byte)) : List (List Byte × List Byte) :=
  if name = [] ∨ unk = [] then [] else [(name, (unk.map (· ++ [10])).flatten)]

/-- `CreateDict`, tools/buildmorph.h:110-134: the dictionaries in order; `false`: one could not be opened.  Outer `none`: undefined.
Simplification: the dictionaries are read as they were when the program began (the file of unknown words is none of them). -/
def rusDicts (T : RusTabs) (conv : List Byte → List Byte) (file : List Byte → Option (List Byte)) :
    List (List Byte) → RusState × List (List Byte) → Option (Bool × RusState × List (List Byte))
  | [], r => some (true, r)
  | p :: ps, r =>
    match file p with
    | none => some (false, r)
    | some text => (rusRead T (sourceLines conv text) r).bind fun r => rusDicts T conv file ps r

/-- The files of the library with their names, in the order in which they are written: tools/buildmorph.h:159-172, makerus.cpp:373-401. -/
def rusFiles (nspace mtab : List Byte) (st : RusState) : List (List Byte × List Byte) :=
  let l := (["mxTables.cpp", "flexTree.cpp", "mixTypes.cpp", "classmap.cpp", "stemtree.cpp", "lidstree.cpp"].map litBytes).zip (rusLibrary nspace mtab st)
  (l.drop 4 ++ l.take 4).filterMap fun p => p.2.map (p.1, ·)

/-- tools/buildmorph.h:159-172, makeeng.cpp:197-208. -/
def engFiles (nspace : List Byte) (st : EngState) : List (List Byte × List Byte) :=
  let l := (["flexTree.cpp", "classmap.cpp", "stemtree.cpp", "lidstree.cpp"].map litBytes).zip (engLibrary nspace st)
  (l.drop 2 ++ l.take 2).filterMap fun p => p.2.map (p.1, ·)

/-- A value or what stands for it, makerus.cpp:300-304, makeeng.cpp:181-185. -/
def orDefault (v : List Byte) (default_ : String) : List Byte := if v = [] then litBytes default_ else v

/-- `BuildRus::Run` after the arguments, makerus.cpp:299-327; an exception gives the status EFAULT (14).
Simplification: the file of unknown words is created after the dictionaries are read, not while they are read. -/
def rusMake (P : SourcePages) (F : IndexFormat) (o : List Byte → List Byte) (dicts : List (List Byte)) (d : Disk) : Option ProgEnd :=
  let opt := fun s : String => o (litBytes s)
  let outdir := orDefault (opt "target-dir") "./"
  let nspace := orDefault (opt "namespace") "__libmorphrus__"
  if opt "flex-table" = [] ∨ opt "flex-index" = [] ∨ opt "intr-table" = [] ∨ opt "intr-index" = [] ∨ dicts = [] then some (.exit 14 d)
  else
    match d.file (opt "flex-table"), (d.file (opt "flex-index")).bind F.getFlex, d.file (opt "intr-table"), (d.file (opt "intr-index")).bind F.getMix with
    | some ftab, some findex, some mtab, some mindex =>
      (rusDicts ⟨ftab, findex, mtab, mindex⟩ P.from866 d.file dicts ({ plain := plainMagic }, [])).map fun r =>
        match writeFiles (unknownFile (opt "unknown") r.2.2) d with
        | (false, d) => .exit 14 d
        | (true, d) =>
          if r.1 then
            match writeFiles ((rusFiles nspace mtab r.2.1).map fun p => (outPath outdir p.1, p.2)) d with
            | (true, d) => .exit 0 d
            | (false, d) => .exit 14 d
          else .exit 14 d
    | _, _, _, _ => some (.exit 14 d)

/-- `main`, makerus.cpp:420-437, `BuildRus::Run`, 265-297. -/
def makerusProgram (P : SourcePages) (F : IndexFormat) (args : List (List Byte)) (d : Disk) : Option ProgEnd :=
  if args = [] then some (.exit 0 d)
  else
    match keyArgs rusKeys args (fun _ => []) [] with
    | none => some (.exit 14 d)
    | some (o, dicts) => rusMake P F o dicts d

/-- buildmorph.h:192-203 for English: the lines that go to the file of unknown words are the comments. -/
def engUnknown (lines : List (List Byte)) : List (List Byte) := (lines.map trimLine).filter fun s => (litBytes "//").isPrefixOf s

/-- The lines up to the one where the program stops. -/
def engBefore : List (List Byte) → List (List Byte)
  | [] => []
  | l :: ls => match engLine l with
    | some .stop => []
    | _ => l :: engBefore ls

/-- `CreateDict` for English; the state after the dictionaries, `none` if one was not opened or has an article that stops the program; the unknown lines. -/
def engDicts (conv : List Byte → List Byte) (file : List Byte → Option (List Byte)) :
    List (List Byte) → EngState → List (List Byte) → Option (Option EngState × List (List Byte))
  | [], st, unk => some (some st, unk)
  | p :: ps, st, unk =>
    match file p with
    | none => some (none, unk)
    | some text =>
      let lines := sourceLines conv text
      (engRead st lines).bind fun r =>
        match r with
        | some st => engDicts conv file ps st (unk ++ engUnknown lines)
        | none => some (none, unk ++ engUnknown (engBefore lines))

/-- `CMakeEng::Run` after the arguments, makeeng.cpp:180-210; nobody catches an exception. -/
def engMake (P : SourcePages) (o : List Byte → List Byte) (dicts : List (List Byte)) (d : Disk) : Option ProgEnd :=
  let opt := fun s : String => o (litBytes s)
  let outdir := orDefault (opt "target-dir") "./"
  let nspace := orDefault (opt "namespace") "__libmorpheng__"
  if dicts = [] then some (.aborted [] d)
  else
    (engDicts P.from866 d.file dicts {} []).map fun r =>
      let unk := unknownFile (opt "unknown") r.2
      match writeFiles unk d with
      | (false, d) => .aborted [] d
      | (true, d) =>
        match r.1 with
        | none => .aborted (unk.map (·.1)) d
        | some st =>
          match writeFiles ((engFiles nspace st).map fun p => (outPath outdir p.1, p.2)) d with
          | (true, d) => .exit 0 d
          | (false, d) => .aborted (unk.map (·.1)) d

/-- `main`, makeeng.cpp:432-443: without arguments the status is the number of bytes printed. -/
def makeengProgram (P : SourcePages) (name : List Byte) (args : List (List Byte)) (d : Disk) : Option ProgEnd :=
  if args = [] then some (.exit ((litBytes "makeeng - the dictionary builder;\nUsage:  ininame\n" ++ name).length % 256) d)
  else
    match keyArgs engKeys args (fun _ => []) [] with
    | none => some (.aborted [] d)
    | some (o, dicts) => engMake P o dicts d

end Libmorph
