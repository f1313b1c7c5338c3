import Verif.Model.Commands
import Verif.Spec.EngText
/-
What the command lines of the compilers mean.
-/
namespace Libmorph.Spec

/-- An argument that begins with '-'. -/
def isSwitch (a : List Nat) : Bool := a.head? = some 45

/-- The arguments that are names of files. -/
def namesOf (args : List (List Nat)) : List (List Nat) := args.filter fun a => !isSwitch a

/-- A switch with a value: -key=value, -key:value. -/
def IsKey (k v a : List Nat) : Prop := a = 45 :: k ++ 61 :: v ∨ a = 45 :: k ++ 58 :: v

/-- The switches cannot be used: one is none of the keys, or repeats a key that has a value already. -/
def BadSwitches (keys args : List (List Nat)) : Prop :=
  ∃ pre a post, args = pre ++ a :: post ∧ isSwitch a = true ∧
    ((∀ k ∈ keys, ∀ v, ¬ IsKey k v a) ∨ ∃ k ∈ keys, ∃ v w, IsKey k v a ∧ w ≠ [] ∧ ∃ b ∈ pre, IsKey k w b)

/-- What a key is given: the value in its last switch, or nothing. -/
def ValueOf (args : List (List Nat)) (k v : List Nat) : Prop :=
  (∃ pre a post, args = pre ++ a :: post ∧ IsKey k v a ∧ ∀ b ∈ post, ∀ w, ¬ IsKey k w b) ∨ ((∀ b ∈ args, ∀ w, ¬ IsKey k w b) ∧ v = [])

/-- A value, or what stands for it when it is not given. -/
def OrElse (v default_ r : List Nat) : Prop := (v = [] ∧ r = default_) ∨ (v ≠ [] ∧ r = v)

/-- The path of a file in a directory. -/
def InDir (dir name path : List Nat) : Prop :=
  ((dir = [] ∨ dir.getLast? = some 47 ∨ dir.getLast? = some 92) ∧ path = dir ++ name) ∨
  (dir ≠ [] ∧ dir.getLast? ≠ some 47 ∧ dir.getLast? ≠ some 92 ∧ path = dir ++ 47 :: name)

/-- The switches of makerus. -/
def rusSwitches : List (List Nat) :=
  ["flex-table", "flex-index", "intr-table", "intr-index", "target-dir", "unknown", "namespace", "codepage"].map Libmorph.litBytes

/-- A call of makerus: the values of its switches and the names of the dictionaries. -/
structure RusCall (args : List (List Nat)) (ftab findex mtab mindex dir unknown nspace : List Nat) (dicts : List (List Nat)) : Prop where
  given : args ≠ []
  good : ¬ BadSwitches rusSwitches args
  ftabIs : ValueOf args (Libmorph.litBytes "flex-table") ftab
  findexIs : ValueOf args (Libmorph.litBytes "flex-index") findex
  mtabIs : ValueOf args (Libmorph.litBytes "intr-table") mtab
  mindexIs : ValueOf args (Libmorph.litBytes "intr-index") mindex
  dirIs : ∃ v, ValueOf args (Libmorph.litBytes "target-dir") v ∧ OrElse v (Libmorph.litBytes "./") dir
  unknownIs : ValueOf args (Libmorph.litBytes "unknown") unknown
  nspaceIs : ∃ v, ValueOf args (Libmorph.litBytes "namespace") v ∧ OrElse v (Libmorph.litBytes "__libmorphrus__") nspace
  dictsAre : namesOf args = dicts

/-- The files of the Russian library. -/
def rusNames : List (List Nat) := ["mxTables.cpp", "flexTree.cpp", "mixTypes.cpp", "classmap.cpp", "stemtree.cpp", "lidstree.cpp"].map Libmorph.litBytes

/-- The switches of makeeng. -/
def engSwitches : List (List Nat) := ["target-dir", "unknown", "namespace"].map Libmorph.litBytes

/-- A call of makeeng. -/
structure EngCall (args : List (List Nat)) (dir unknown nspace : List Nat) (dicts : List (List Nat)) : Prop where
  given : args ≠ []
  good : ¬ BadSwitches engSwitches args
  dirIs : ∃ v, ValueOf args (Libmorph.litBytes "target-dir") v ∧ OrElse v (Libmorph.litBytes "./") dir
  unknownIs : ValueOf args (Libmorph.litBytes "unknown") unknown
  nspaceIs : ∃ v, ValueOf args (Libmorph.litBytes "namespace") v ∧ OrElse v (Libmorph.litBytes "__libmorpheng__") nspace
  dictsAre : namesOf args = dicts

/-- The comments among some lines, without the blanks around them. -/
def Comments (lines unk : List (List Nat)) : Prop := ∃ ts, List.Forall₂ Trimmed lines ts ∧ unk = ts.filter fun s => s.take 2 = [47, 47]

/-- The files of the English library. -/
def engNames : List (List Nat) := ["flexTree.cpp", "classmap.cpp", "stemtree.cpp", "lidstree.cpp"].map Libmorph.litBytes

/-- The disk after the files of a library are written: those that have a text are in the directory, unknown lines, if any, are in their file; everything else is as it was. -/
structure Written (d d' : Libmorph.Disk) (dir unknown : List Nat) (unk : List (List Nat)) (names : List (List Nat)) (texts : List (Option (List Nat))) : Prop where
  library : ∀ p ∈ names.zip texts, ∀ t path, p.2 = some t → InDir dir p.1 path → d'.file path = some t
  lines : unknown ≠ [] → unk ≠ [] → (∀ n ∈ names, ¬ InDir dir n unknown) → d'.file unknown = some (unk.map (· ++ [10])).flatten
  other : ∀ path, (path = unknown → unknown = [] ∨ unk = []) → (∀ p ∈ names.zip texts, InDir dir p.1 path → p.2 = none) → d'.file path = d.file path

/-- The files that a program may have changed. -/
def Disk.SameBut (d d' : Libmorph.Disk) (changed : List Nat → Prop) : Prop := ∀ p, ¬ changed p → d'.file p = d.file p

/-- What is written into an index file can be loaded again; a condition of 16 letters or more cannot (mtables.cpp:40-90). -/
structure IndexOk (F : Libmorph.IndexFormat) : Prop where
  flex : ∀ m, F.getFlex (F.putFlex m) = some m
  mix : ∀ m, (∀ p ∈ m, ∀ c ∈ p.2, c.1.length < 16) → F.getMix (F.putMix m) = some m

/-- The Ukrainian words of tfc and Russian words for the same. -/
def ukrWords : List (String × String) :=
  [("act", "действ"), ("psv", "страд"), ("ger", "деепр"), ("inf", "инфинитив"), ("imp", "повел"), ("prs", "время Н"), ("pst", "время П"), ("fut", "время Б"),
    ("face 1", "лицо 1"), ("face 2", "лицо 2"), ("face 3", "лицо 3"), ("msc", "род м"), ("fem", "род ж"), ("nwt", "род с"), ("sing", "число Е"), ("plur", "число М"),
    ("И", "И"), ("Р", "Р"), ("Д", "Д"), ("В", "В"), ("Вн", "Вн"), ("Во", "Во"), ("Т", "Т"), ("П", "П"), ("З", "Р2"), ("вф", "вф")]

end Libmorph.Spec
