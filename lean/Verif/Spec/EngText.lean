import Verif.Model.EngBuild
/-
What a line of the source text of the English dictionary says.  Written with splits of the text; of the model only the
record `Article` is used.
-/
namespace Libmorph.Spec

/-- Characters up to the space separate words. -/
def Blank (c : Nat) : Prop := c ≤ 32

instance (c : Nat) : Decidable (Blank c) := by unfold Blank; infer_instance

/-- A text of blanks. -/
def Blanks (s : List Nat) : Prop := ∀ c ∈ s, Blank c
/-- A text without blanks. -/
def Solid (s : List Nat) : Prop := ∀ c ∈ s, ¬ Blank c
/-- A text that is over or goes on with a blank. -/
def Ends (s : List Nat) : Prop := ∀ c, s.head? = some c → Blank c

/-- "LID:" -/
def lidMark : List Nat := [76, 73, 68, 58]
/-- "post:" -/
def postMark : List Nat := [112, 111, 115, 116, 58]

/-- `mark` stands in `s` after `before`, for the first time; `after` follows it. -/
def FirstMark (mark s before after : List Nat) : Prop :=
  s = before ++ mark ++ after ∧ ∀ b a, s = b ++ mark ++ a → before.length ≤ b.length

/-- The parts of speech and their names. -/
def posNames : List (Nat × String) :=
  [(0, "unknown"), (1, "N"), (2, "V"), (3, "A"), (4, "ADV"), (5, "NUM"), (6, "INT"), (7, "CONJ"), (8, "PREP"), (9, "REFL"), (10, "PERS"),
   (11, "INDEF"), (12, "POSS"), (13, "DEMO"), (14, "REL"), (15, "ART"), (16, "PARTICLE"), (17, "INTER"), (18, "NAME"), (19, "V_BE")]

/-- The text `s`, without blanks at its ends, is the article `a`, given what the mark "LID:" says: a word (the stem with its
suffix, then the endings, which begin with '|'), the part of speech, and somewhere the marks. -/
def ArticleText (s : List Nat) (a : Article) : Prop :=
  ∃ word gap pos rest name cut,
    s = word ++ a.flex ++ gap ++ pos ++ rest ∧
    Solid word ∧ 124 ∉ word ∧ Solid a.flex ∧ (a.flex = [] ∨ a.flex.head? = some 124) ∧
    gap ≠ [] ∧ Blanks gap ∧ pos ≠ [] ∧ Solid pos ∧ Ends rest ∧
    (a.pos, name) ∈ posNames ∧ pos = name.toList.map Char.toNat ∧
    -- the suffix
    ((a.post = [] ∧ ∀ b t, s ≠ b ++ postMark ++ t) ∨
      ∃ before after skip tail, FirstMark postMark s before after ∧ after = skip ++ a.post ++ tail ∧ Blanks skip ∧ Solid a.post ∧ Ends tail ∧
        (a.post = [] → tail = [])) ∧
    word = a.stem ++ cut ∧ cut.length = a.post.length

/-- The mark of the lexeme id: the first "LID:", after a space or a tab; `number` follows it. -/
def IdText (s number : List Nat) : Prop :=
  ∃ before sep, FirstMark lidMark s (before ++ [sep]) number ∧ (sep = 9 ∨ sep = 32)

/-- `s` without the blanks at its ends. -/
def Trimmed (line s : List Nat) : Prop :=
  ∃ x y, line = x ++ s ++ y ∧ Blanks x ∧ Blanks y ∧ (∀ c, s.head? = some c → ¬ Blank c) ∧ (∀ c, s.getLast? = some c → ¬ Blank c)

/-- What a line says.  `number` is the value of the text after the mark of the id, as the C library reads it, cut to 32 bits:
nothing (the line is empty, a comment, has no id or the id 0), or an article. -/
def LineSays (number : List Nat → Nat) (line : List Nat) : Option Article → Prop
  | none => ∃ s, Trimmed line s ∧ (s = [] ∨ (∃ t, s = 47 :: 47 :: t) ∨ (¬ ∃ t, IdText s t) ∨ ∃ t, IdText s t ∧ number t = 0)
  | some a => ∃ s t, Trimmed line s ∧ (¬ ∃ t, s = 47 :: 47 :: t) ∧ IdText s t ∧ number t = a.id ∧ a.id ≠ 0 ∧ s.length < 256 ∧ ArticleText s a

/-- The lines of a file: what stands between the newlines. -/
def fileOf (lines : List (List Nat)) : List Nat := (lines.map (· ++ [10])).flatten

/-- The digits of a number. -/
def decimal (n : Nat) : List Nat := (Nat.toDigits 10 n).map Char.toNat

end Libmorph.Spec
