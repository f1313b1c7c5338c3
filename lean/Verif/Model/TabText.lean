import Verif.Model.EngText
import Verif.Model.Ich
/-
Reading the sources of tables: tools/sourcefile.h; utils/tfc/tfc.cpp, gramap.cpp; lang-rus/libdict/tools/makeich/makeich.cpp.

A line is the bytes of the C string, without the terminating zero.
-/
namespace Libmorph

/-- `fgets( , 0x1000, lpfile )`, sourcefile.h:135: at most 0xfff bytes, up to a newline (included). -/
def tabFgets : List Byte → Nat → List Byte → List (List Byte)
  | [], _, cur => if cur = [] then [] else [cur]
  | c :: s, room, cur =>
    if c = 10 ∨ room ≤ 1 then (cur ++ [c]) :: tabFgets s 0xfff [] else tabFgets s (room - 1) (cur ++ [c])

/-- sourcefile.h:141-146: the text before the first "//" that stands at the beginning or after a blank.  `prev`: the byte before. -/
def cutComment : Option Byte → List Byte → List Byte
  | _, [] => []
  | prev, c :: s =>
    if (litBytes "//").isPrefixOf (c :: s) ∧ (prev = none ∨ prev.any isBlank) then [] else c :: cutComment (some c) s

/-- `Source::Get`, sourcefile.h:138-151: what is left of a line. -/
def cleanLine (l : List Byte) : List Byte :=
  ((cutComment none (l.dropWhile isBlank)).reverse.dropWhile isBlank).reverse

/-- `Source::Get`, sourcefile.h:124-166, all calls until the end of the file.  `conv`: the conversion to code page 1251
(`codepages::mbcstombcs`, external; the identity for that code page).  A text that is converted to an empty one is taken for
the end. -/
def srcTexts (conv : List Byte → List Byte) (file : List Byte) : List (List Byte) :=
  ((((tabFgets file 0xfff []).map fun l => cleanLine (l.takeWhile (· ≠ 0))).filter (· ≠ [])).map conv).takeWhile (· ≠ [])

/-- `has_command`, tfc.cpp:92-98, makeich.cpp:67-73, with `erase( 0, cmd.length() + 1 )`: the text after the command and one blank. -/
def hasCommand (cmd s : List Byte) : Option (List Byte) :=
  if cmd.isPrefixOf s then
    match s.drop cmd.length with
    | c :: r => if isBlank c then some r else none
    | [] => none
  else none

/-- The first command that stands at the beginning. -/
def anyCommand (cmds : List (List Byte)) (s : List Byte) : Option (List Byte) := cmds.findSome? fun c => hasCommand c s

/-- `s_rus_include`, `s_eng_include`, tfc.cpp:111-112, makeich.cpp:84-85. -/
def includeCmds : List (List Byte) := [[46, 226, 234, 235, 254, 247, 232, 242, 252], litBytes ".include"]
/-- tfc.cpp:107-110. -/
def tfcCmds : List (List Byte) := [[46, 242, 224, 225, 235, 232, 246, 224], litBytes ".table", [46, 242, 232, 239], litBytes ".type"]
/-- makeich.cpp:82-83. -/
def ichCmds : List (List Byte) := [[46, 242, 224, 225, 235, 232, 246, 224], litBytes ".table"]

/-- Where the reader is: between tables, after a header, in the lines of a table (in reverse order). -/
inductive TabMode
  | top
  | header (h : List Byte)
  | body (h : List Byte) (lines : List (List Byte))
deriving DecidableEq, Repr

/-- One text, `Compile` and `MakeTab`, tfc.cpp:114-189, makeich.cpp:87-178: `inc` compiles an included file; `none`: an exception.
Simplifications: the loops of the two functions are states of one loop; the lines of a table are collected here and mapped
afterwards (`tfcTable`, `ichTable`). -/
def tabStep (cmds : List (List Byte)) (inc : List Byte → Option (List (List Byte × List (List Byte))))
    (s : List (List Byte × List (List Byte)) × TabMode) (t : List Byte) : Option (List (List Byte × List (List Byte)) × TabMode) :=
  match s.2 with
  | .top =>
    match anyCommand includeCmds t with
    | some r => if trimLine r = [] then none else (inc (trimLine r)).map fun l => (s.1 ++ l, .top)
    | none =>
      match anyCommand cmds t with
      | some r => if trimLine r = [] then none else some (s.1, .header (trimLine r))
      | none => none
  | .header h => if t = litBytes "{" then some (s.1, .body h []) else none
  | .body h lines => if t = litBytes "}" then some (s.1 ++ [(h, lines.reverse)], .top) else some (s.1, .body h (t :: lines))

/-- `Source::Open`, sourcefile.h:106-120: the folder of a path, with the slash. -/
def folderOf (path : List Byte) : List Byte := (path.reverse.dropWhile fun c => c ≠ 47 && c ≠ 92).reverse

/-- `Compile`, tfc.cpp:161-189, makeich.cpp:150-178: the tables of a file and of the files it includes.  `depth`: how many
files may be open at once (`fopen` fails beyond). -/
def tabFile (cmds : List (List Byte)) (conv : List Byte → List Byte) (fs : List Byte → Option (List Byte)) :
    Nat → List Byte → Option (List (List Byte × List (List Byte)))
  | 0, _ => none
  | depth + 1, path =>
    match fs path with
    | none => none
    | some file =>
      match (srcTexts conv file).foldlM (tabStep cmds fun name => tabFile cmds conv fs depth (folderOf path ++ name)) ([], .top) with
      | some (l, .top) => some l
      | _ => none

/-- `graminfo`, gramap.h:37-41. -/
structure GramInfo where
  gr : Nat
  flags : Nat
deriving DecidableEq, Repr

/-- `gramdata`, gramap.cpp:39-45, cut to the sizes of `graminfo`. -/
structure GramData where
  grmask : Nat
  grinfo : Nat
  mflags : Nat
  bflags : Nat
deriving DecidableEq, Repr

/-- `InitRus`, gramap.cpp:79-118 (the Ukrainian table is not modelled). -/
def gramMapper : List (List Byte × GramData) := [
  ([194], ⟨0x8fff, 0x3000, 0xff, 0x03⟩),   -- В
  ([194, 237], ⟨0x8fff, 0x3000, 0xfc, 0x02⟩),   -- Вн
  ([194, 238], ⟨0x8fff, 0x3000, 0xfc, 0x01⟩),   -- Во
  ([196], ⟨0x8fff, 0x2000, 0xff, 0x03⟩),   -- Д
  ([200], ⟨0x8fff, 0x0000, 0xff, 0x03⟩),   -- И
  ([207], ⟨0x8fff, 0x5000, 0xff, 0x03⟩),   -- П
  ([207, 50], ⟨0x8fff, 0x7000, 0xff, 0x03⟩),   -- П2
  ([208], ⟨0x8fff, 0x1000, 0xff, 0x03⟩),   -- Р
  ([208, 50], ⟨0x8fff, 0x6000, 0xff, 0x03⟩),   -- Р2
  ([210], ⟨0x8fff, 0x4000, 0xff, 0x03⟩),   -- Т
  ([226, 240, 229, 236, 255, 32, 193], ⟨0x0000, 0x0003, 0xff, 0x03⟩),   -- время Б
  ([226, 240, 229, 236, 255, 32, 205], ⟨0x0000, 0x0004, 0xff, 0x03⟩),   -- время Н
  ([226, 240, 229, 236, 255, 32, 207], ⟨0x0000, 0x0005, 0xff, 0x03⟩),   -- время П
  ([226, 244], ⟨0xffff, 0x8000, 0xff, 0x00⟩),   -- вф
  ([228, 229, 229, 239, 240], ⟨0x0007, 0x0060, 0xff, 0x03⟩),   -- деепр
  ([228, 229, 233, 241, 242, 226], ⟨0x0007, 0x0020, 0xff, 0x03⟩),   -- действ
  ([231, 224, 242, 240, 243, 228, 237], ⟨0xffff, 0x0000, 0xff, 0x04⟩),   -- затрудн
  ([232, 237, 244, 232, 237, 232, 242, 232, 226], ⟨0x0000, 0x0001, 0x00, 0x03⟩),   -- инфинитив
  ([234, 244], ⟨0x0e67, 0x0100, 0xff, 0x03⟩),   -- кф
  ([235, 232, 246, 238, 32, 49], ⟨0x0007, 0x0008, 0xff, 0x03⟩),   -- лицо 1
  ([235, 232, 246, 238, 32, 50], ⟨0x0007, 0x0010, 0xff, 0x03⟩),   -- лицо 2
  ([235, 232, 246, 238, 32, 51], ⟨0x0007, 0x0018, 0xff, 0x03⟩),   -- лицо 3
  ([237, 240], ⟨0x0000, 0x0040, 0xff, 0x03⟩),   -- нр
  ([239, 238, 226, 229, 235], ⟨0x0000, 0x0002, 0xff, 0x03⟩),   -- повел
  ([239, 240, 238, 244], ⟨0xffff, 0x0000, 0xff, 0x00⟩),   -- проф
  ([240, 238, 228], ⟨0x0867, 0x0000, 0xff, 0x00⟩),   -- род
  ([240, 238, 228, 32, 230], ⟨0x0067, 0x0400, 0xff, 0x00⟩),   -- род ж
  ([240, 238, 228, 32, 236], ⟨0x0067, 0x0200, 0xff, 0x00⟩),   -- род м
  ([240, 238, 228, 32, 241], ⟨0x0067, 0x0600, 0xff, 0x00⟩),   -- род с
  ([241, 238, 229, 228], ⟨0xffff, 0x0000, 0xff, 0x08⟩),   -- соед
  ([241, 240], ⟨0x0000, 0x0080, 0xff, 0x03⟩),   -- ср
  ([241, 242, 240, 224, 228], ⟨0x0007, 0x0040, 0xff, 0x03⟩),   -- страд
  ([247, 232, 241, 235, 238], ⟨0x0067, 0x0000, 0xff, 0x03⟩),   -- число
  ([247, 232, 241, 235, 238, 32, 197], ⟨0x0067, 0x0000, 0xff, 0x03⟩),   -- число Е
  ([247, 232, 241, 235, 238, 32, 204], ⟨0x0067, 0x0800, 0xff, 0x03⟩)   -- число М
]

/-- gramap.cpp:70-71. -/
def GramData.apply (d : GramData) (g : GramInfo) : GramInfo := ⟨(g.gr &&& d.grmask) ||| d.grinfo, (g.flags &&& d.mflags) ||| d.bflags⟩

/-- The pieces of a text between the separators. -/
def splitOn (sep : Byte) : List Byte → List (List Byte)
  | [] => [[]]
  | c :: s =>
    if c = sep then [] :: splitOn sep s
    else match splitOn sep s with
      | [] => [[c]]
      | p :: ps => (c :: p) :: ps

/-- `MapInfo`, gramap.cpp:52-77; `none`: an exception.  Simplification: the tokens are split first; one '|' at the end is
passed over. -/
def mapInfo (s : List Byte) (g : GramInfo) : Option GramInfo :=
  let toks := splitOn 124 s
  let toks := if toks.getLast? = some [] then toks.dropLast else toks
  toks.foldlM (fun g t => (mapFind gramMapper t).map fun d => d.apply g) g

/-- A field and what follows it, tfc.cpp:44-62, 68-71; makeich.cpp:46-62: up to a comma or a blank; then blanks, one comma,
blanks are passed over. -/
def takeField (s : List Byte) : List Byte × List Byte :=
  let f := s.takeWhile fun c => c ≠ 44 && !isBlank c
  let s := (s.dropWhile fun c => c ≠ 44 && !isBlank c).dropWhile isBlank
  (f, (if s.head? = some 44 then s.drop 1 else s).dropWhile isBlank)

/-- "''" stands for nothing, tfc.cpp:73-74, makeich.cpp:131-141. -/
def unquote (s : List Byte) : List Byte := if s = [39, 39] then [] else s

/-- `MapLine`, tfc.cpp:56-87. -/
def mapLine (s : List Byte) (g : GramInfo) : Option FxItem :=
  let (tail, s) := takeField (s.dropWhile isBlank)
  let (grtext, s) := takeField s
  let (sznext, s) := takeField s
  let (szopts, _) := takeField s
  (if grtext = [] then some g else mapInfo grtext g).map fun g =>
    if sznext ≠ [] then ⟨unquote tail, g.gr, g.flags ||| 0x80, sznext⟩
    else if szopts ≠ [] then ⟨unquote tail, g.gr, g.flags ||| 0x40, szopts⟩
    else ⟨unquote tail, g.gr, g.flags, []⟩

/-- tfc.cpp:142-153: the lines of a table. -/
def tfcLines : GramInfo → List (List Byte) → Option (List FxItem)
  | _, [] => some []
  | g, t :: ts =>
    if t.head? = some 46 then (mapInfo (t.drop 1) g).bind fun g => tfcLines g ts
    else (mapLine t g).bind fun x => (tfcLines g ts).map (x :: ·)

/-- tfc.cpp:119, 155-158. -/
def tfcTable (p : List Byte × List (List Byte)) : Option (List Byte × List FxItem) :=
  (tfcLines ⟨0, 3⟩ p.2).bind fun l => if l = [] then none else some (p.1, l)

/-- tfc.cpp:249-277: from the path of the main source to the image and the index. -/
def tfcMain (conv : List Byte → List Byte) (fs : List Byte → Option (List Byte)) (depth : Nat) (path : List Byte) :
    Option (List Byte × List (List Byte × Nat)) :=
  ((tabFile tfcCmds conv fs depth path).bind fun l => l.mapM tfcTable).bind tfcCompile

/-- makeich.cpp:137-143: the rest of the fields of a line; `fuel`: not less than the length of the text. -/
def ichFields : Nat → List Byte → List (List Byte)
  | 0, _ => []
  | fuel + 1, s => if s = [] then [] else unquote (takeField s).1 :: ichFields fuel (takeField s).2

/-- makeich.cpp:120-146. -/
def ichLine (header s : List Byte) : Option IchLine :=
  let (scondi, s) := takeField s
  let (one, s) := takeField s
  let (two, s) := takeField s
  if scondi = [] ∨ one = [] ∨ two = [] then none
  else some ⟨header, scondi, unquote one :: unquote two :: ichFields s.length s⟩

/-- makeich.cpp:220-262: from the path of the main source to the image and the index. -/
def ichMain (conv : List Byte → List Byte) (fs : List Byte → Option (List Byte)) (depth : Nat) (path : List Byte) :
    Option (List Byte × List (List Byte × List (List Byte × Nat))) :=
  ((tabFile ichCmds conv fs depth path).bind fun l => l.mapM fun p => p.2.mapM (ichLine p.1)).bind fun l => ichCompile l.flatten

end Libmorph
