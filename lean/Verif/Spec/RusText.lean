import Verif.Spec.TabText
import Verif.Spec.Russian
/-
What a line of the source text of the Russian dictionary says.  Of the model the records `RusArticle`, `FlexInfo` and `CItem`
are used, and the reading of a compact table (`InTable`, see C44 and C56).
-/
namespace Libmorph.Spec
open Libmorph

/-- The text `mark` stands somewhere in `s`. -/
def Occurs (mark s : List Nat) : Prop := ∃ b a, s = b ++ mark ++ a

/-! ### The words of a line -/

/-- `w` is the first word of `s`, `rest` what follows it and the blanks after it. -/
def NextWord (s w rest : List Nat) : Prop :=
  ∃ gap, s = w ++ gap ++ rest ∧ Solid w ∧ Blanks gap ∧ (gap = [] → rest = []) ∧ ∀ c, rest.head? = some c → ¬ Blank c

/-- The headword, the class, the type, the index of inflexion, and the comment, separated by blanks; words may be missing at
the end. -/
def RusFields (s norm dies type ind comm : List Nat) : Prop :=
  ∃ r1 r2 r3, NextWord s norm r1 ∧ NextWord r1 dies r2 ∧ NextWord r2 type r3 ∧ NextWord r3 ind comm

/-- The parts of speech: number, plural only (for conjunctions: coordinating), the classes and types. -/
def wordTypes : List (Nat × Bool × List (String × String)) := [
  -- verbs
  (1, false, [("#", "нсв")]), (2, false, [("#", "нсв_нп")]), (3, false, [("#", "св")]), (4, false, [("#", "св_нп")]),
  (5, false, [("#", "св-нсв")]), (6, false, [("#", "св-нсв_нп")]),
  -- nouns
  (7, false, [("#", "м"), ("м", "мп"), ("м", "ммс")]), (7, true, [("мн.", "м"), ("#", "мн._от_м"), ("мн._неод.", "мп")]),
  (8, false, [("#", "мо"), ("мо", "мпо"), ("мо", "момс")]), (8, true, [("мн.", "мо"), ("мн._одуш.", "мпо")]),
  (9, false, [("#", "м//мо"), ("#", "мо//м")]), (10, false, [("м", "с")]), (11, false, [("мо", "жо")]), (12, false, [("мо", "со")]),
  (13, false, [("#", "ж"), ("ж", "жп"), ("ж", "жмс")]), (13, true, [("мн.", "ж"), ("#", "мн._от_ж")]),
  (14, false, [("#", "жо"), ("жо", "жпо")]), (14, true, [("мн.", "жо")]), (15, false, [("#", "ж//жо"), ("#", "жо//ж")]),
  (16, false, [("#", "с"), ("с", "сп"), ("с", "смс")]), (16, true, [("мн.", "с"), ("#", "мн._от_с"), ("мн._от_с", "сп")]),
  (17, false, [("#", "со"), ("со", "спо")]), (17, true, [("мн.", "со")]), (18, false, [("#", "с//со"), ("#", "со//с")]),
  (19, false, [("м//ж", "ж")]), (20, false, [("#", "мо-жо"), ("#", "мо//жо"), ("мо-жо", "жо"), ("мо//жо", "жо")]),
  (21, false, [("#", "м//с"), ("#", "с//м")]), (22, false, [("мо//со", "со")]), (23, false, [("#", "ж//с"), ("#", "с//ж")]),
  (24, true, [("мн.", "ж//м"), ("мн.", "м//ж")]),
  -- adjectives, pronouns, numerals
  (25, false, [("#", "п")]), (26, false, [("#", "г-п")]), (27, false, [("п", "мс")]), (28, false, [("#", "мс-п"), ("мс-п", "мсп")]),
  (29, false, [("#", "мс")]), (29, true, [("#", "мс_мн.")]), (30, false, [("#", "мсм")]), (31, false, [("#", "мсж")]), (32, false, [("#", "мсс")]),
  (33, false, [("#", "числ.")]), (34, false, [("#", "числ._2")]), (35, false, [("#", "числ._с")]),
  (36, false, [("числ.-п", "мс"), ("числ.-п", "мсп"), ("числ.-п", "мс-п")]),
  -- names
  (37, false, [("#", "и")]), (38, false, [("#", "им"), ("им", "иж")]), (39, false, [("#", "иж")]), (40, false, [("#", "ом")]),
  (41, false, [("#", "ож")]), (42, false, [("#", "ф"), ("ф", "фп"), ("ф", "фж")]), (43, false, [("#", "г"), ("#", "гп")]),
  (44, false, [("#", "гм"), ("#", "гмп")]), (45, false, [("#", "гж"), ("#", "гжп")]), (46, false, [("#", "гс"), ("#", "гсп")]),
  (47, true, [("#", "мн._от_гж"), ("#", "мн._от_гм"), ("мн.", "гп")]),
  -- the rest is not inflected
  (48, false, [("#", "вводн.")]), (49, false, [("#", "межд.")]), (50, false, [("#", "предик.")]), (51, false, [("#", "предл.")]),
  (52, false, [("#", "союз")]), (52, true, [("#", "союз_соч.")]), (53, false, [("#", "част.")]), (54, false, [("#", "н")]),
  (55, false, [("#", "сокр._сущ.")]), (56, false, [("#", "сокр._прил.")]), (57, false, [("#", "сокр._вводн.")]), (58, false, [("#", "сравн.")]),
  (59, false, [("#", "АБ")]), (60, false, [("#", "аб")]), (61, false, [("#", "#1")]), (62, false, [("#", "#2")])]

/-- The class and the type are those of the part of speech `pos`, plural only or not. -/
def TypeIs (dies type : List Nat) (pos : Nat) (plural : Bool) : Prop :=
  ∃ names, (pos, plural, names) ∈ wordTypes ∧ ∃ p ∈ names, ru p.1 = dies ∧ ru p.2 = type

/-- The part of speech as it is stored: plural only is bit 6. -/
def typeBits (pos : Nat) (plural : Bool) : Nat := pos + (if plural then 64 else 0)

open Classical in
/-- The marks of usage in the comment. -/
noncomputable def usageBits (comm : List Nat) : Nat :=
  (if Occurs (ru "{превосх.}") comm then 0x80 else 0) + (if Occurs (ru "{исчисл.}") comm then 0x100 else 0) +
    (if Occurs (ru "{разг.}") comm then 0x200 else 0) + (if Occurs (ru "{руг.}") comm then 0x400 else 0)

/-- The suffix: the word after the first "post:" in the comment, if any. -/
def PostText (comm post : List Nat) : Prop :=
  (post = [] ∧ ¬ Occurs postMark comm) ∨
    ∃ before after skip tail, FirstMark postMark comm before after ∧ after = skip ++ post ++ tail ∧ Blanks skip ∧ Solid post ∧ Ends tail ∧
      (post = [] → tail = [])

/-- The remark: the first word between two hyphens in the comment, nothing if there is none. -/
def RemarkText (comm r : List Nat) : Prop :=
  (∃ before after, comm = before ++ 45 :: r ++ 45 :: after ∧ Solid r ∧ 45 ∉ r ∧
      ∀ b r' a, comm = b ++ 45 :: r' ++ 45 :: a → Solid r' → 45 ∉ r' → before.length ≤ b.length) ∨
    (r = [] ∧ ¬ ∃ b r' a, comm = b ++ 45 :: r' ++ 45 :: a ∧ Solid r' ∧ 45 ∉ r')

/-- The letters of the cases. -/
def caseNames : List Nat := ru "ИРДВТП"

/-- The scale of cases of a preposition: the letters after the first "ШП:" of the index; one bit for a case. -/
def ScaleText (ind : List Nat) (u : Nat) : Prop :=
  (u = 0 ∧ ¬ Occurs (ru "ШП:") ind) ∨
    ∃ before letters rest, FirstMark (ru "ШП:") ind before (letters ++ rest) ∧ (∀ c ∈ letters, c ∈ caseNames) ∧
      (∀ c, rest.head? = some c → c ∉ caseNames) ∧ u < 64 ∧ ∀ n c, caseNames[n]? = some c → (u.testBit n = true ↔ c ∈ letters)

/-- The headword without the marks '=' of boundaries, with "е" for "ё". -/
def plainWord (norm : List Nat) : List Nat := (norm.filter (· ≠ 61)).map fun c => if c = 184 then 229 else c

/-! ### The ending of the headword -/

def IsVerb (pos : Nat) : Prop := 1 ≤ pos ∧ pos ≤ 6

instance (pos : Nat) : Decidable (IsVerb pos) := inferInstanceAs (Decidable (_ ∧ _))

/-- The description of the headword of an inflected word that is no verb: the nominative singular, of words with genders the
masculine one; of plural-only words the nominative plural. -/
def headGram (pos : Nat) (plural : Bool) (base : List Nat) : Nat :=
  (if pos ∈ [25, 26, 27, 28, 34, 36, 42] then 0x200 + (if 2 < base.length ∧ ru "ся" <:+ base then 0x8000 else 0) else 0) +
    (if plural then 0x800 else 0)

/-- `e` is the ending of a headword the line `i` of a table makes, described by `g`: of a verb an infinitive, alone, or, where it must
go on, with a reflexive ending; else a line described by `q` that need not go on. -/
def LineEnding (ftab : List Nat) (verb : Prop) (q : Nat) (i : CItem) (e : List Nat) (g : FlexInfo) : Prop :=
  (¬ verb ∧ i.gr = q ∧ i.flags &&& 0x80 = 0 ∧ e = i.flex ∧ g = ⟨i.gr, i.flags⟩) ∨
  (verb ∧ i.gr % 128 = 1 ∧ i.flags &&& 0x80 = 0 ∧ e = i.flex ∧ g = ⟨i.gr, i.flags⟩) ∨
  (verb ∧ i.gr % 128 = 1 ∧ i.flags &&& 0x80 ≠ 0 ∧ ∃ r, InTable ftab i.next r ∧ r.gr &&& 0x8000 ≠ 0 ∧ e = i.flex ++ r.flex ∧
    g = ⟨i.gr ||| r.gr, i.flags &&& r.flags⟩)

/-- `bare` is the word `base` without the ending of a headword, described by `g`: it is made by the first line that makes one the
word ends in. -/
def HeadEnding (ftab : List Nat) (t : Nat) (verb : Prop) (q : Nat) (base bare : List Nat) (g : FlexInfo) : Prop :=
  ∃ l i m e, compactTable ftab t = some (l ++ i :: m) ∧ LineEnding ftab verb q i e g ∧ base = bare ++ e ∧
    ∀ j ∈ l, ∀ e' g', LineEnding ftab verb q j e' g' → ¬ e' <:+ base

/-- What is left of the word `base` without its ending: what stands before '@'; or the ending of the headword is cut off; when
it has none, nothing, and only if the index has a ':'. -/
def Bare (ftab : List Nat) (t pos : Nat) (plural : Bool) (ind base bare : List Nat) : Prop :=
  (∃ rest, base = bare ++ 64 :: rest ∧ 64 ∉ bare) ∨
  (64 ∉ base ∧ ∃ g, HeadEnding ftab t (IsVerb pos) (headGram pos plural base) base bare g) ∨
  (64 ∉ base ∧ (¬ ∃ b g, HeadEnding ftab t (IsVerb pos) (headGram pos plural base) base b g) ∧ 58 ∈ ind ∧ bare = base)

/-- A table of endings whose lines with the description `q` can be cut off: it can be read and has fewer than 128 lines; their texts
are shorter than 16; where such a line must go on, it goes on with a table that has no such line. -/
structure NounShape (ftab : List Nat) (t q : Nat) : Prop where
  small : ∃ l, compactTable ftab t = some l ∧ l.length < 128
  short : ∀ i, InTable ftab t i → i.gr = q → i.flex.length < 16
  onward : ∀ i, InTable ftab t i → i.gr = q → i.flags &&& 0x80 ≠ 0 →
    (∃ l, compactTable ftab i.next = some l ∧ l.length < 128) ∧ ∀ j, InTable ftab i.next j → j.gr ≠ q

/-- A table of endings of verbs whose infinitives can be cut off: it can be read, has fewer than 128 lines, none of them reflexive;
infinitives are shorter than 16; an infinitive that must go on is the only one, and goes on with a table of reflexive endings, none of
them the end of another. -/
structure VerbShape (ftab : List Nat) (t : Nat) : Prop where
  small : ∃ l, compactTable ftab t = some l ∧ l.length < 128
  active : ∀ i, InTable ftab t i → i.gr &&& 0x8000 = 0
  short : ∀ i, InTable ftab t i → i.gr % 128 = 1 → i.flex.length < 16
  onward : ∀ i, InTable ftab t i → i.gr % 128 = 1 → i.flags &&& 0x80 ≠ 0 →
    i.next ≠ 0 ∧ (∃ l, compactTable ftab i.next = some l ∧ l.length < 128) ∧
    (∀ r, InTable ftab i.next r → r.gr % 128 ≠ 1 ∧ (r.gr &&& 0x8000 ≠ 0 → r.gr = 0x8000 ∧ r.flags &&& 0x80 = 0 ∧ r.flex.length < 16)) ∧
    (∀ r r', InTable ftab i.next r → InTable ftab i.next r' → r.gr &&& 0x8000 ≠ 0 → r'.gr &&& 0x8000 ≠ 0 → r.flex <:+ r'.flex →
      r.flex = r'.flex) ∧
    ∃ l m, compactTable ftab t = some (l ++ i :: m) ∧ ∀ j ∈ l ++ m, j.gr % 128 ≠ 1

/-- The table is fit for the headwords of the part of speech. -/
def HeadShape (ftab : List Nat) (t pos : Nat) (plural : Bool) (base : List Nat) : Prop :=
  if IsVerb pos then VerbShape ftab t else NounShape ftab t (headGram pos plural base)

/-! ### The alternation -/

/-- The condition of an alternation holds: for verbs the remark, or "о"; for other words the letters before the last one. -/
def Condition (pos : Nat) (bare remark cond : List Nat) : Prop :=
  cond = ru "о" ∨
  (IsVerb pos ∧ cond = remark) ∨
  (¬ IsVerb pos ∧ ∃ b c,
    ((cond = ru "ле" ∧ bare = b ++ ru "ле" ++ [c]) ∨
     (cond = ru "ге" ∧ ∃ v ∈ ru "аеиоуыэюя", bare = b ++ v :: ru "е" ++ [c]) ∨
     (cond = ru "ш" ∧ ∃ v ∈ ru "жцчшщ", bare = b ++ [v, c]) ∨
     (cond = ru "к" ∧ ∃ v ∈ ru "кгх", bare = b ++ [v, c]) ∨
     (cond = ru "ь" ∧ bare = b ++ ru "ь" ++ [c]) ∨
     (cond = ru "й" ∧ bare = b ++ ru "й" ++ [c])))

/-- The alternation with the alternants `alts`, under the condition `cond`, suits the word: it ends in the basic alternant. -/
def Suits (alts : List (List Nat × Nat)) (pos : Nat) (bare remark cond : List Nat) : Prop :=
  (∃ x, (x, 0) ∈ alts ∧ x <:+ bare) ∧ Condition pos bare remark cond

/-- The kind of the alternation of a verb: by the number of its conjugation. -/
def kindOf (pos : Nat) (ind : List Nat) : Nat :=
  if IsVerb pos then
    if [ru "6", ru "9", ru "10", ru "14", ru "5c/c", ru "5*c/c"].any fun p => p.isPrefixOf ind then 1
    else if (ru "11").isPrefixOf ind then 2 else 0
  else 0

/-- The tables of a Russian dictionary: the ending tables and the references of their names; the alternants at a reference, and
for a name the conditions and references. -/
structure RusSource where
  ftab : List Nat
  endings : List Nat → Option Nat
  alts : Nat → List (List Nat × Nat)
  mixes : List Nat → List (List Nat × Nat)

/-- What is left of the word, and the alternation, make the article `a`: the first alternation that suits; its basic alternant is
cut off. -/
def MixedArticle (S : RusSource) (name ind comm bare : List Nat) (pos w t : Nat) (post : List Nat) (a : RusArticle) : Prop :=
  ∃ remark, RemarkText comm remark ∧
    ((a = ⟨bare, w, t, 0, post, 0⟩ ∧ ∀ p ∈ S.mixes name, ¬ Suits (S.alts p.2) pos bare remark p.1) ∨
     ∃ l cond o m x stem, S.mixes name = l ++ (cond, o) :: m ∧ (∀ p ∈ l, ¬ Suits (S.alts p.2) pos bare remark p.1) ∧
       Suits (S.alts o) pos bare remark cond ∧ (x, 0) ∈ S.alts o ∧ bare = stem ++ x ∧ a = ⟨stem, w + 2048 * kindOf pos ind, t, o, post, 0⟩)

/-- The name of the table of an article: its type and its index. -/
def tableName (type ind : List Nat) : List Nat := type ++ 32 :: ind

/-- The words of a line make the article `a` (but for its id): the part of speech is known; without a table of endings (names from
the part of speech 48 on have none, others only with the index "0") it is the word as it is; else the word without the ending of
the headword and the basic alternant.  The last letters of the headword, as many as the suffix has, are left out. -/
def ArticleIs (S : RusSource) (norm dies type ind comm : List Nat) (a : RusArticle) : Prop :=
  ∃ pos plural post base cut, TypeIs dies type pos plural ∧ PostText comm post ∧ plainWord norm = base ++ cut ∧ cut.length = post.length ∧
    ((∃ u, (48 ≤ pos ∨ S.endings (tableName type ind) = none ∧ ind = ru "0") ∧ (if pos = 51 then ScaleText ind u else u = 0) ∧
        a = ⟨base, typeBits pos plural + usageBits comm, u, 0, post, 0⟩) ∨
     ∃ t bare, pos < 48 ∧ S.endings (tableName type ind) = some t ∧ Bare S.ftab t pos plural ind base bare ∧
        MixedArticle S (tableName type ind) ind comm bare pos (typeBits pos plural + usageBits comm) t post a)

/-- The articles of a text: one; or, when the words make none and the index has the form `x//y`, those with the index `x` and with
the index `y`. -/
def TextIs (S : RusSource) (s : List Nat) (l : List RusArticle) : Prop :=
  ∃ norm dies type ind comm, RusFields s norm dies type ind comm ∧
    ((∃ a, l = [a] ∧ ArticleIs S norm dies type ind comm a) ∨
     ((¬ ∃ a, ArticleIs S norm dies type ind comm a) ∧
      ((l = [] ∧ ¬ Occurs [47, 47] ind) ∨
       ∃ x y l1 l2, FirstMark [47, 47] ind x y ∧ l = l1 ++ l2 ∧
         ((l1 = [] ∧ ¬ ∃ a, ArticleIs S norm dies type x comm a) ∨ ∃ a, l1 = [a] ∧ ArticleIs S norm dies type x comm a) ∧
         ((l2 = [] ∧ ¬ ∃ a, ArticleIs S norm dies type y comm a) ∨ ∃ a, l2 = [a] ∧ ArticleIs S norm dies type y comm a))))

/-- What a line of a dictionary says: the articles, and the text that is put into the file of unknown words, if any.  A comment is
put there, and a text that makes no article; an empty line, one without an id or with the id 0 is nothing.  `number` is the value of
the text after the mark of the id. -/
def RusLineSays (S : RusSource) (number : List Nat → Nat) (line : List Nat) (arts : List RusArticle) (unk : List (List Nat)) : Prop :=
  ∃ s, Trimmed line s ∧
    (((∃ t, s = 47 :: 47 :: t) ∧ arts = [] ∧ unk = [s]) ∨
     (¬ (∃ t, s = 47 :: 47 :: t) ∧ (s = [] ∨ (¬ ∃ t, IdText s t) ∨ ∃ t, IdText s t ∧ number t = 0) ∧ arts = [] ∧ unk = []) ∨
     (¬ (∃ t, s = 47 :: 47 :: t) ∧ ∃ t l, IdText s t ∧ number t ≠ 0 ∧ TextIs S s l ∧
        ((l = [] ∧ arts = [] ∧ unk = [s]) ∨ (l ≠ [] ∧ arts = l.map (fun a => { a with id := number t }) ∧ unk = []))))

/-- The words of a line are not too long for the arrays they are read into, and the suffix is not longer than the headword. -/
def LineFits (line : List Nat) : Prop :=
  ∀ s norm dies type ind comm, Trimmed line s → RusFields s norm dies type ind comm →
    norm.length < 256 ∧ dies.length < 32 ∧ type.length < 32 ∧ ind.length < 32 ∧
    ∀ post, PostText comm post → post.length ≤ (plainWord norm).length

end Libmorph.Spec
