import Verif.Spec.Tfc
import Verif.Spec.Ich
import Mathlib.Data.List.Forall2
/-
What the source files of ending tables and of alternation tables say.  Of the model the records `FxItem` and `IchLine` are used.
-/
namespace Libmorph.Spec

/-- The code of a letter in code page 1251 (letters А - я, and ASCII). -/
def cp1251 (c : Char) : Nat := if 0x410 ≤ c.toNat ∧ c.toNat ≤ 0x44f then c.toNat - 0x410 + 192 else c.toNat

def ru (s : String) : List Nat := s.toList.map cp1251

/-! ### Files and lines -/

/-- The lines of a file, not too long, without zero bytes; the last one may lack its newline. -/
def IsFile (file : List Nat) (lines : List (List Nat)) : Prop :=
  (∀ l ∈ lines, 10 ∉ l ∧ 0 ∉ l ∧ l.length < 4095) ∧
    (file = fileOf lines ∨ ∃ first last, lines = first ++ [last] ∧ last ≠ [] ∧ file = fileOf first ++ last)

/-- A comment begins in `l` after `m`: with "//", at the beginning or after a blank. -/
def CommentAfter (l m : List Nat) : Prop := ∃ rest, l = m ++ 47 :: 47 :: rest ∧ ∀ c, m.getLast? = some c → Blank c

/-- `m` is the line without its comment. -/
def Uncommented (l m : List Nat) : Prop :=
  (CommentAfter l m ∧ ∀ m', CommentAfter l m' → m.length ≤ m'.length) ∨ ((¬ ∃ m', CommentAfter l m') ∧ m = l)

/-- The texts of a file: its lines, without comments and blanks at the ends; empty ones are left out.  `conv`: conversion to the
code page 1251. -/
def TextsOf (conv : List Nat → List Nat) (file : List Nat) (ts : List (List Nat)) : Prop :=
  ∃ lines texts, IsFile file lines ∧ List.Forall₂ (fun l t => ∃ m, Uncommented l m ∧ Trimmed m t) lines texts ∧
    ts = (texts.filter (· ≠ [])).map conv

/-- A command, a blank, and its argument `r`. -/
def CommandText (cmds : List (List Nat)) (t r : List Nat) : Prop :=
  ∃ c ∈ cmds, ∃ sep rest, t = c ++ sep :: rest ∧ Blank sep ∧ Trimmed rest r ∧ r ≠ []

/-- The path of the file `name` in the folder of the file `path`. -/
def Beside (path name p : List Nat) : Prop :=
  ∃ dir base, path = dir ++ base ∧ (∀ c, dir.getLast? = some c → c = 47 ∨ c = 92) ∧ 47 ∉ base ∧ 92 ∉ base ∧ p = dir ++ name

def includeWords : List (List Nat) := [ru ".включить", ru ".include"]
def tfcWords : List (List Nat) := [ru ".таблица", ru ".table", ru ".тип", ru ".type"]
def ichWords : List (List Nat) := [ru ".таблица", ru ".table"]

/-- The texts of the file `path` are tables - a header, "{", lines, "}" - and names of other files with tables. -/
inductive TextsSay (cmds : List (List Nat)) (conv : List Nat → List Nat) (fs : List Nat → Option (List Nat)) :
    List Nat → List (List Nat) → List (List Nat × List (List Nat)) → Prop where
  | nil {path : List Nat} : TextsSay cmds conv fs path [] []
  | table {path t h : List Nat} {body ts : List (List Nat)} {l : List (List Nat × List (List Nat))} : CommandText cmds t h → [125] ∉ body →
      TextsSay cmds conv fs path ts l → TextsSay cmds conv fs path (t :: [123] :: body ++ [125] :: ts) ((h, body) :: l)
  | incl {path t name p file : List Nat} {ts' ts : List (List Nat)} {l' l : List (List Nat × List (List Nat))} : CommandText includeWords t name →
      Beside path name p → fs p = some file → TextsOf conv file ts' → TextsSay cmds conv fs p ts' l' → TextsSay cmds conv fs path ts l →
      TextsSay cmds conv fs path (t :: ts) (l' ++ l)

/-- The tables of the source `path` with their lines. -/
def FileSays (cmds : List (List Nat)) (conv : List Nat → List Nat) (fs : List Nat → Option (List Nat)) (path : List Nat)
    (l : List (List Nat × List (List Nat))) : Prop := ∃ file ts, fs path = some file ∧ TextsOf conv file ts ∧ TextsSay cmds conv fs path ts l

/-! ### Grammatical descriptions -/

/-- What a description consists of, and what it is limited to. -/
structure GramDesc where
  time : Fin 8 := 0
  face : Fin 4 := 0
  form : Fin 4 := 0
  compared : Bool := false
  short : Bool := false
  gender : Fin 4 := 0
  plural : Bool := false
  case : Fin 8 := 0
  reflexive : Bool := false
  animate : Bool := true
  inanimate : Bool := true
  hard : Bool := false
  joining : Bool := false
deriving DecidableEq

/-- The description as a number (rus.h:78-103). -/
def GramDesc.word (g : GramDesc) : Nat :=
  g.time + 8 * (g.face + 4 * (g.form + 4 * (g.compared.toNat + 2 * (g.short.toNat + 2 * (g.gender + 4 * (g.plural.toNat + 2 * (g.case +
    8 * g.reflexive.toNat)))))))

/-- The limits as a number (rus.h). -/
def GramDesc.bits (g : GramDesc) : Nat := g.animate.toNat + 2 * (g.inanimate.toNat + 2 * (g.hard.toNat + 2 * g.joining.toNat))

/-- For both kinds of nouns. -/
def GramDesc.both (g : GramDesc) : GramDesc := { g with animate := true, inanimate := true }
/-- Nothing said but the limits. -/
def GramDesc.only (g : GramDesc) : GramDesc := { animate := g.animate, inanimate := g.inanimate, hard := g.hard, joining := g.joining }
/-- Nothing said but the time and the limits. -/
def GramDesc.timeOnly (g : GramDesc) : GramDesc := { g.only with time := g.time }
/-- Nothing said but the time, the participle and the limits. -/
def GramDesc.verbOnly (g : GramDesc) : GramDesc := { g.only with time := g.time, form := g.form }

/-- The words of the descriptions. -/
def gramWords : List (String × (GramDesc → GramDesc)) := [
  ("И", fun g => { g with case := 0 }.both),
  ("Р", fun g => { g with case := 1 }.both),
  ("Д", fun g => { g with case := 2 }.both),
  ("В", fun g => { g with case := 3 }.both),
  ("Вн", fun g => { g with case := 3, animate := false, inanimate := true }),
  ("Во", fun g => { g with case := 3, animate := true, inanimate := false }),
  ("Т", fun g => { g with case := 4 }.both),
  ("П", fun g => { g with case := 5 }.both),
  ("Р2", fun g => { g with case := 6 }.both),
  ("П2", fun g => { g with case := 7 }.both),
  ("инфинитив", fun _ => { time := 1 }),
  ("повел", fun g => { g.only with time := 2 }.both),
  ("время Б", fun g => { g.only with time := 3 }.both),
  ("время Н", fun g => { g.only with time := 4 }.both),
  ("время П", fun g => { g.only with time := 5 }.both),
  ("лицо 1", fun g => { g.timeOnly with face := 1 }.both),
  ("лицо 2", fun g => { g.timeOnly with face := 2 }.both),
  ("лицо 3", fun g => { g.timeOnly with face := 3 }.both),
  ("действ", fun g => { g.timeOnly with form := 1 }.both),
  ("страд", fun g => { g.timeOnly with form := 2 }.both),
  ("деепр", fun g => { g.timeOnly with form := 3 }.both),
  ("нр", fun g => { g.only with form := 2 }.both),
  ("ср", fun g => { g.only with compared := true }.both),
  ("кф", fun g => { g.verbOnly with gender := g.gender, plural := g.plural, short := true }.both),
  ("род", fun g => { g.verbOnly with plural := g.plural }),
  ("род м", fun g => { g.verbOnly with gender := 1 }),
  ("род ж", fun g => { g.verbOnly with gender := 2 }),
  ("род с", fun g => { g.verbOnly with gender := 3 }),
  ("число", fun g => g.verbOnly.both),
  ("число Е", fun g => g.verbOnly.both),
  ("число М", fun g => { g.verbOnly with plural := true }.both),
  ("вф", fun g => { g with reflexive := true }),
  ("затрудн", fun g => { g with hard := true }),
  ("соед", fun g => { g with joining := true }),
  ("проф", fun g => g)]

/-- The words of a description, with '|' between them. -/
inductive GramText : List Nat → GramDesc → GramDesc → Prop where
  | nil {g : GramDesc} : GramText [] g g
  | last {g : GramDesc} {w : String} {f : GramDesc → GramDesc} : (w, f) ∈ gramWords → GramText (ru w) g (f g)
  | more {g g' : GramDesc} {w : String} {f : GramDesc → GramDesc} {s : List Nat} : (w, f) ∈ gramWords → GramText s (f g) g' → GramText (ru w ++ 124 :: s) g g'

/-! ### Lines of tables -/

/-- The first field of `s` is `f`; `rest` follows it: fields end at blanks or commas; between fields are blanks, with one comma or without. -/
def FieldOf (s f rest : List Nat) : Prop :=
  ∃ b1 comma b2, s = f ++ b1 ++ comma ++ b2 ++ rest ∧ Solid f ∧ 44 ∉ f ∧ Blanks b1 ∧ (comma = [44] ∨ comma = []) ∧ Blanks b2 ∧
    (∀ c, rest.head? = some c → ¬ Blank c) ∧ (comma = [] → rest.head? ≠ some 44) ∧ (comma = [] → b1 = [] → b2 = [] → rest = [])

/-- "''" is written for nothing. -/
def Quoted (f s : List Nat) : Prop := (f = [39, 39] ∧ s = []) ∨ (f ≠ [39, 39] ∧ s = f)

/-- A line of an ending table, `g` said before: the ending, its description, a table it goes on with, a table it may go on with. -/
def ItemText (s : List Nat) (g : GramDesc) (x : FxItem) : Prop :=
  ∃ skip f1 r1 f2 r2 f3 r3 f4 r4 s' g', s = skip ++ s' ∧ Blanks skip ∧ (∀ c, s'.head? = some c → ¬ Blank c) ∧
    FieldOf s' f1 r1 ∧ FieldOf r1 f2 r2 ∧ FieldOf r2 f3 r3 ∧ FieldOf r3 f4 r4 ∧
    Quoted f1 x.tail ∧ GramText f2 g g' ∧ x.gr = g'.word ∧
    ((f3 ≠ [] ∧ x.flags = g'.bits + 0x80 ∧ x.next = f3) ∨ (f3 = [] ∧ f4 ≠ [] ∧ x.flags = g'.bits + 0x40 ∧ x.next = f4) ∨
      (f3 = [] ∧ f4 = [] ∧ x.flags = g'.bits ∧ x.next = []))

/-- The lines of an ending table, `g` said before: descriptions of what follows, which begin with a dot, and endings. -/
inductive BodySays : GramDesc → List (List Nat) → List FxItem → Prop where
  | nil {g : GramDesc} : BodySays g [] []
  | desc {g g' : GramDesc} {s : List Nat} {ts : List (List Nat)} {l : List FxItem} : GramText s g g' → BodySays g' ts l → BodySays g ((46 :: s) :: ts) l
  | item {g : GramDesc} {s : List Nat} {ts : List (List Nat)} {x : FxItem} {l : List FxItem} : s.head? ≠ some 46 → ItemText s g x → BodySays g ts l →
      BodySays g (s :: ts) (x :: l)

/-- The ending tables of the source `path`. -/
def TfcSource (conv : List Nat → List Nat) (fs : List Nat → Option (List Nat)) (path : List Nat) (src : List (List Nat × List FxItem)) : Prop :=
  ∃ l, FileSays tfcWords conv fs path l ∧ List.Forall₂ (fun p q => q.1 = p.1 ∧ q.2 ≠ [] ∧ BodySays {} p.2 q.2) l src

/-- The fields of a text, all of them. -/
inductive Fields : List Nat → List (List Nat) → Prop where
  | nil : Fields [] []
  | cons {s f rest : List Nat} {l : List (List Nat)} : s ≠ [] → FieldOf s f rest → Fields rest l → Fields s (f :: l)

/-- A line of an alternation table: the condition and two alternants or more. -/
def AltText (header s : List Nat) (x : IchLine) : Prop :=
  x.header = header ∧ x.cond ≠ [] ∧ ∃ one two more, Fields s (x.cond :: one :: two :: more) ∧ one ≠ [] ∧ two ≠ [] ∧
    List.Forall₂ Quoted (one :: two :: more) x.steps

/-- The lines of the alternation tables of the source `path`. -/
def IchSource (conv : List Nat → List Nat) (fs : List Nat → Option (List Nat)) (path : List Nat) (src : List IchLine) : Prop :=
  ∃ l ls, FileSays ichWords conv fs path l ∧ List.Forall₂ (fun p x => List.Forall₂ (AltText p.1) p.2 x) l ls ∧ src = ls.flatten

/-- The files of a file system can be read as lines, and conversion loses no text. -/
def Readable (conv : List Nat → List Nat) (fs : List Nat → Option (List Nat)) : Prop :=
  (∀ path file, fs path = some file → ∃ lines, IsFile file lines) ∧ ∀ t, t ≠ [] → conv t ≠ []

end Libmorph.Spec
