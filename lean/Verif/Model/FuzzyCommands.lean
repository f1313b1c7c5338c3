import Verif.Model.Commands
import Verif.Model.ClassText
import Verif.Model.DicDump
import Verif.Model.Fuzzy
import Verif.Model.Marks
/-
compile-dict and dicdump as programs: lang-rus/libprob/tools/compile-dict.cpp:142-334 (lang-eng/libprob/tools/compile-dict.cpp is the same but for the texts printed),
lang-rus/dicdump/dicdump.cpp:278-306.

Simplifications: as in Model/Commands; `mtc::json::Parse` and the conversions are parameters, `mtc::patricia::tree` is a parameter that gives the tree of the classes.
-/
namespace Libmorph

/-! ### compile-dict -/

/-- The variables of `main`, compile-dict.cpp:144-146. -/
structure CompileArgs where
  source : Option (List Byte) := none
  output : Option (List Byte) := none
  nspace : Option (List Byte) := none

/-- The loop over the arguments, compile-dict.cpp:153-170; `none`: EINVAL. -/
def compileArgs : List (List Byte) → CompileArgs → Option CompileArgs
  | [], o => some o
  | a :: as, o =>
    if a.head? = some 45 then
      if (litBytes "ns=").isPrefixOf (a.drop 1) || (litBytes "nspace=").isPrefixOf (a.drop 1) then
        compileArgs as { o with nspace := some (((a.drop 1).dropWhile (· ≠ 61)).drop 1) }
      else none
    else if o.source = none then compileArgs as { o with source := some a }
    else if o.output = none then compileArgs as { o with output := some a }
    else none

/-- The program with its external parts: the reader of JSON, the conversion to 1251, the tree of the classes. -/
structure CompileTool where
  parse : List Byte → Option JVal
  back : List Byte → List Byte
  tree : List FuzzyClass → PTree

/-- `MAKE_STRING( LIBMORPH_NAMESPACE )`, compile-dict.cpp:134-135, 173: nothing defines the macro for this program, so its name is the text. -/
def compileDefault : List Byte := litBytes "LIBMORPH_NAMESPACE"

/-- `main`, compile-dict.cpp:142-334; `name` is `argv[0]`.  `none`: undefined (175, 178: `1 + strrchr( argv[0], '/' )` without a '/') or not known (`LoadEnd.unknown`). -/
def compileDictProgram (T : CompileTool) (name : List Byte) (args : List (List Byte)) (d : Disk) : Option ProgEnd :=
  match compileArgs args {} with
  | none => some (.exit 22 d)
  | some ⟨some source, some output, nspace⟩ =>
    match d.file source with
    | none => some (.exit 2 d)
    | some text =>
      match loadClasses T.parse T.back text with
      | .error .refused => some (.exit 22 d)
      | .error .crashed => some (.aborted [] d)
      | .error .unknown => none
      | .ok cs =>
        if d.creatable output then
          (fuzzyFile (nspace.getD compileDefault) (cs.map FuzzyClass.ser) [(T.tree cs).ser]).map fun t => .exit 0 (d.put output t)
        else some (.aborted [] d)
  | some _ => if 47 ∈ name then some (.exit 0 d) else none

/-! ### dicdump -/

/-- `main`, dicdump.cpp:284-306: the exit status and what is printed to the standard output (of the comparison: the lines).  `none`: undefined, or more than `n` rounds
of the comparison. -/
inductive DumpOut
  | usage
  | text (t : List Byte)
  | diff (l : List DiffOut)
  | nothing

def dicdumpProgram (A : DumpApi) (n : Nat) (args : List (List Byte)) (d : Disk) : Option (Nat × DumpOut) :=
  match args with
  | [] => some (0, .usage)
  | a :: _ =>
    if a = litBytes "build" then (dumpDict A).map fun t => (0, .text t)
    else if (litBytes "check:").isPrefixOf a || (litBytes "check=").isPrefixOf a then
      match d.file (a.drop 6) with
      | none => some (22, .nothing)
      | some file => (dumpLines A).bind fun lines => (dumpDiff n (queueLines n file) lines []).map fun l => (0, .diff l)
    else some (22, .nothing)

/-! ### make-classes -/

/-- `main` of make-classes, make-classes.cpp:807-915, with the files of its arguments on a disk. -/
def makeClassesProgram (T : ClassTool) (low : Byte → Byte) (M : Morpho) (buffer : List Byte) (sort : ClassMap → ClassMap) (limits : List (Nat × Nat))
    (conv : List Byte → List Byte) (args : List (List Byte)) (d : Disk) : ClassesEnd :=
  makeClassesMain T low M buffer sort limits conv (args.map fun a => (a, d.file a))

end Libmorph
