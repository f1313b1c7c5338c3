import Verif.Model.MakeClasses
import Verif.Model.Tools
import Verif.Spec.Json
/-
The text the two fuzzy tools pass to each other: what make-classes prints (lang-rus/libprob/tools/make-classes.cpp:859-912,
lang-eng/libprob/tools/make-classes.cpp:582-637: the same but for the accent, which is never set there) and what compile-dict
reads from it (compile-dict.cpp:122-133, 184-273, the same in both languages).  External: the conversion between 1251 and UTF-8 (a
parameter); `mtc::json::Parse`, taken to be a reader of JSON that gives the values of `Spec/Json`; `mtc::zmap`.
-/
namespace Libmorph

/-- 882-889: a model.  The texts printed with `%s` have no zero. -/
def modelText (conv : List Byte → List Byte) (s : ClassSample) : List Byte :=
  asciiBytes "\t\t\t{ \"suffix\": \"" ++ conv [s.suffix.s0, s.suffix.s1] ++ asciiBytes "\", \"weight\": " ++ decimal (s.mdProd % 2 ^ 32) ++
    asciiBytes ", \"sample\": \"" ++ conv s.sample ++ asciiBytes "\" }"

/-- 897-902: an ending. -/
def flexText (conv : List Byte → List Byte) (f : MForm) : List Byte :=
  asciiBytes "\t\t\t{ \"id\": " ++ decimal f.1 ++ asciiBytes ", \"sz\": \"" ++ (if f.2 = [] then [] else conv f.2) ++ asciiBytes "\" }"

/-- 864-908: a class, with its number. -/
def classText (conv : List Byte → List Byte) (i : Nat) (c : ClassKey × ClassVal) : List Byte :=
  asciiBytes "\t{\n\t\t\"partSp\": " ++ decimal c.1.1 ++ asciiBytes ",\n\t\t\"rate\": " ++ decimal (c.2.modProd % 2 ^ 32) ++
    asciiBytes ",\n\t\t\"index\": " ++ decimal (i % 2 ^ 32) ++ asciiBytes ",\n" ++
    (if c.2.schemeB then asciiBytes "\t\t\"accent\": \"b\",\n" else []) ++ asciiBytes "\t\t\"models\": [" ++
    printItems (asciiBytes "\n") (asciiBytes ",\n") (c.2.charSet.map (modelText conv)) ++ asciiBytes "\n\t\t],\n\t\t\"inflex\": [" ++
    printItems (asciiBytes "\n") (asciiBytes ",\n") (c.1.2.map (flexText conv)) ++ asciiBytes "\n\t\t]\n\t},\n"

/-- 864: the classes from number `i` on. -/
def classTexts (conv : List Byte → List Byte) : Nat → ClassMap → List Byte
  | _, [] => []
  | i, c :: m => classText conv i c ++ classTexts conv (i + 1) m

/-- 859-912: the whole text. -/
def classesText (conv : List Byte → List Byte) (m : ClassMap) : List Byte :=
  asciiBytes "{\n  \"created\": " ++ decimal (m.length % 2 ^ 32) ++ asciiBytes ",\n  \"classes\": [\n" ++ classTexts conv 0 m ++
    asciiBytes "  ]\n}\n"

/-- `main`, 807-915: the text make-classes prints. -/
def makeClassesText (T : ClassTool) (low : Byte → Byte) (M : Morpho) (buffer : List Byte) (sel ban : Nat → Bool) (sort : ClassMap → ClassMap)
    (limits : List (Nat × Nat)) (conv : List Byte → List Byte) : Ran (List Byte) :=
  (loadAll T low M buffer sel ban (limitIds limits) []).bind fun m =>
    (mergeMap m).bind fun m => .done (classesText conv (printedClasses sort m))

/-! ### compile-dict -/

/-- How the reading of the classes ends otherwise: a message and EINVAL; an exception that nothing catches (`std::invalid_argument` is not
a `std::runtime_error`, line 299); what the library of JSON does with the number is not known. -/
inductive LoadEnd
  | refused
  | crashed
  | unknown
deriving DecidableEq, Repr

/-- The member of a map. -/
def zget (o : List (List Byte × JVal)) (k : String) : Option JVal := o.lookup (asciiBytes k)

/-- `get_array_zmap`: an array of maps. -/
def asMaps : List JVal → Option (List (List (List Byte × JVal)))
  | [] => some []
  | .obj o :: l => (asMaps l).map (o :: ·)
  | _ :: _ => none

/-- `get_array_zmap`; for an empty array null and an empty array are the same to the code. -/
def zmaps (o : List (List Byte × JVal)) (k : String) : List (List (List Byte × JVal)) :=
  match zget o k with
  | some (.arr l) => (asMaps l).getD []
  | _ => []

/-- `get_int32( key, default )`: numbers from 0 to 2^31 - 1. -/
def zint (o : List (List Byte × JVal)) (k : String) (dflt : Int) : Except LoadEnd Int :=
  match zget o k with
  | none => .ok dflt
  | some (.int n) => if 0 ≤ n ∧ n < 2 ^ 31 then .ok n else .error .unknown
  | some _ => .error .unknown

/-- `Get1251Str`, 122-133. -/
def z1251 (back : List Byte → List Byte) (o : List (List Byte × JVal)) (k : String) : Except LoadEnd (List Byte) :=
  match zget o k with
  | some (.str s) => .ok (back s)
  | _ => .error .crashed

/-- 225-246: a model.  A weight that is missing becomes 2^32 - 1. -/
def loadModel (back : List Byte → List Byte) (o : List (List Byte × JVal)) : Except LoadEnd FuzzyModel := do
  let suffix ← z1251 back o "suffix"
  let sample ← z1251 back o "sample"
  let weight ← zint o "weight" (-1)
  match suffix with
  | [a, b] => return ⟨a, b, (weight % 2 ^ 32).toNat, sample⟩
  | _ => throw .refused

/-- 247-273: an ending (`INFLEX_LEN`, 37, is 32).  Only what is kept of it; the reverse dictionary is in `Model/Fuzzy`. -/
def loadFlex (back : List Byte → List Byte) (o : List (List Byte × JVal)) : Except LoadEnd (Byte × List Byte) := do
  let idform ← zint o "id" (-1)
  let szform ← z1251 back o "sz"
  if idform = -1 then throw .refused
  else if szform.length > 32 - 2 then throw .refused
  else return ((idform % 256).toNat, szform)

/-- 205-273: a class. -/
def loadClass (back : List Byte → List Byte) (o : List (List Byte × JVal)) : Except LoadEnd FuzzyClass := do
  let partSp ← zint o "partSp" 0
  let _ ← zint o "index" (-1)
  let accent := match zget o "accent" with | some (.str s) => s = [98] | _ => false
  if zmaps o "models" = [] then throw .refused
  else if zmaps o "inflex" = [] then throw .refused
  else
    let models ← (zmaps o "models").mapM (loadModel back)
    let flexes ← (zmaps o "inflex").mapM (loadFlex back)
    return ⟨(partSp % 256).toNat, accent, flexes, models⟩

/-- 184-205: the classes of a text; `parse` is `mtc::json::Parse`. -/
def loadClasses (parse : List Byte → Option JVal) (back : List Byte → List Byte) (text : List Byte) : Except LoadEnd (List FuzzyClass) :=
  match parse text with
  | some (.obj o) => if zmaps o "classes" = [] then .error .refused else (zmaps o "classes").mapM (loadClass back)
  | _ => .error .refused

end Libmorph
