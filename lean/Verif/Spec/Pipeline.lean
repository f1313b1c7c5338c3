import Verif.Spec.RusHead
import Verif.Spec.RusBounds
/-
What the sources of the Russian dictionary - ending tables, alternation tables, dictionary lines - say together, without images and
references.  Of the model the records of lines (`FxItem`, `IchLine`, `FlexInfo`) are used.
-/
namespace Libmorph.Spec
open Libmorph

/-- The sources of the tables. -/
structure RusSrc where
  flex : List (List Nat × List FxItem)
  mix : List IchLine

/-- What a line of the dictionary makes: the stem, the part of speech with its marks, the name of the ending table, the scale of
cases (of a preposition), the alternation, the suffix and the number. -/
structure SrcArticle where
  stem : List Nat
  info : Nat
  table : Option (List Nat)
  scale : Nat
  alt : Option IchLine
  post : List Nat
  id : Nat
deriving DecidableEq

/-! ### The headword without its ending -/

/-- The order of the lines of an ending table: by the endings, the descriptions, the flags, the tables they go on with. -/
def LineBefore (a b : FxItem) : Prop :=
  bytesLt a.tail b.tail = true ∨ (a.tail = b.tail ∧ (a.gr < b.gr ∨ (a.gr = b.gr ∧ (a.flags < b.flags ∨ (a.flags = b.flags ∧
    bytesLt a.next b.next = true)))))

/-- `e` is the ending of a headword the line `l` of a table makes: of a verb an infinitive, alone, or, where it must go on, with a
reflexive ending; else a line described by `q` that need not go on. -/
def SrcLineEnding (src : List (List Nat × List FxItem)) (verb : Prop) (q : Nat) (l : FxItem) (e : List Nat) : Prop :=
  (¬ verb ∧ l.gr = q ∧ l.flags &&& 0x80 = 0 ∧ e = l.tail) ∨
  (verb ∧ l.gr % 128 = 1 ∧ l.flags &&& 0x80 = 0 ∧ e = l.tail) ∨
  (verb ∧ l.gr % 128 = 1 ∧ l.flags &&& 0x80 ≠ 0 ∧ ∃ lines r, Defined src l.next lines ∧ r ∈ lines ∧ r.gr &&& 0x8000 ≠ 0 ∧ e = l.tail ++ r.tail)

/-- `bare` is the word `base` without the ending of a headword: it is made by the first line of the table, in the order of lines, that
makes one the word ends in. -/
def SrcHeadEnding (src : List (List Nat × List FxItem)) (name : List Nat) (verb : Prop) (q : Nat) (base bare : List Nat) : Prop :=
  ∃ lines l e, Defined src name lines ∧ l ∈ lines ∧ SrcLineEnding src verb q l e ∧ base = bare ++ e ∧
    ∀ l' ∈ lines, LineBefore l' l → ∀ e', SrcLineEnding src verb q l' e' → ¬ e' <:+ base

/-- What is left of the word `base` without its ending: what stands before '@'; or the ending of the headword is cut off; when
it has none, nothing, and only if the index has a ':'. -/
def SrcBare (src : List (List Nat × List FxItem)) (name : List Nat) (pos : Nat) (plural : Bool) (ind base bare : List Nat) : Prop :=
  (∃ rest, base = bare ++ 64 :: rest ∧ 64 ∉ bare) ∨
  (64 ∉ base ∧ SrcHeadEnding src name (IsVerb pos) (headGram pos plural base) base bare) ∨
  (64 ∉ base ∧ (¬ ∃ b, SrcHeadEnding src name (IsVerb pos) (headGram pos plural base) base b) ∧ 58 ∈ ind ∧ bare = base)

/-! ### The alternation -/

/-- The line of an alternation table suits the word: it ends in the first alternant, and the condition holds. -/
def SrcSuits (l : IchLine) (pos : Nat) (bare remark : List Nat) : Prop :=
  (∃ x, l.steps.head? = some x ∧ x <:+ bare) ∧ Condition pos bare remark l.cond

/-- The alternant `x` serves level `k`: it is the `k`-th, or the first one and there is no `k`-th. -/
def StepServes (steps : List (List Nat)) (x : List Nat) (k : Nat) : Prop :=
  steps[k]? = some x ∨ (steps[k]? = none ∧ k < 3 ∧ steps.head? = some x)

/-- What is left of the word, and the alternation, make the article: the first line of the alternation table of the name that suits;
its first alternant is cut off. -/
def SrcMixed (mix : List IchLine) (name ind comm bare : List Nat) (pos w : Nat) (post : List Nat) (A : SrcArticle) : Prop :=
  ∃ remark, RemarkText comm remark ∧
    ((A = ⟨bare, w, some name, 0, none, post, 0⟩ ∧ ∀ l ∈ linesOf mix name, ¬ SrcSuits l pos bare remark) ∨
     ∃ before l after x stem, linesOf mix name = before ++ l :: after ∧ (∀ l' ∈ before, ¬ SrcSuits l' pos bare remark) ∧
       SrcSuits l pos bare remark ∧ l.steps.head? = some x ∧ bare = stem ++ x ∧
       A = ⟨stem, w + 2048 * kindOf pos ind, some name, 0, some l, post, 0⟩)

/-! ### Articles and lines (as `ArticleIs`, `TextIs`, `RusLineSays`) -/

/-- The source has an ending table with the name. -/
def HasTable (src : List (List Nat × List FxItem)) (name : List Nat) : Prop := ∃ p ∈ src, Named p.1 name

/-- The words of a line make the article `A` (but for its number). -/
def SrcArticleIs (Z : RusSrc) (norm dies type ind comm : List Nat) (A : SrcArticle) : Prop :=
  ∃ pos plural post base cut, TypeIs dies type pos plural ∧ PostText comm post ∧ plainWord norm = base ++ cut ∧ cut.length = post.length ∧
    ((∃ u, (48 ≤ pos ∨ ¬ HasTable Z.flex (tableName type ind) ∧ ind = ru "0") ∧ (if pos = 51 then ScaleText ind u else u = 0) ∧
        A = ⟨base, typeBits pos plural + usageBits comm, none, u, none, post, 0⟩) ∨
     ∃ bare, pos < 48 ∧ HasTable Z.flex (tableName type ind) ∧ SrcBare Z.flex (tableName type ind) pos plural ind base bare ∧
        SrcMixed Z.mix (tableName type ind) ind comm bare pos (typeBits pos plural + usageBits comm) post A)

/-- The articles of a text: one; or, when the words make none and the index has the form `x//y`, those with the index `x` and with
the index `y`. -/
def SrcTextIs (Z : RusSrc) (s : List Nat) (l : List SrcArticle) : Prop :=
  ∃ norm dies type ind comm, RusFields s norm dies type ind comm ∧
    ((∃ a, l = [a] ∧ SrcArticleIs Z norm dies type ind comm a) ∨
     ((¬ ∃ a, SrcArticleIs Z norm dies type ind comm a) ∧
      ((l = [] ∧ ¬ Occurs [47, 47] ind) ∨
       ∃ x y l1 l2, FirstMark [47, 47] ind x y ∧ l = l1 ++ l2 ∧
         ((l1 = [] ∧ ¬ ∃ a, SrcArticleIs Z norm dies type x comm a) ∨ ∃ a, l1 = [a] ∧ SrcArticleIs Z norm dies type x comm a) ∧
         ((l2 = [] ∧ ¬ ∃ a, SrcArticleIs Z norm dies type y comm a) ∨ ∃ a, l2 = [a] ∧ SrcArticleIs Z norm dies type y comm a))))

/-- What a line of a dictionary says: the articles, and the text that is put into the file of unknown words, if any. -/
def SrcLineSays (Z : RusSrc) (number : List Nat → Nat) (line : List Nat) (arts : List SrcArticle) (unk : List (List Nat)) : Prop :=
  ∃ s, Trimmed line s ∧
    (((∃ t, s = 47 :: 47 :: t) ∧ arts = [] ∧ unk = [s]) ∨
     (¬ (∃ t, s = 47 :: 47 :: t) ∧ (s = [] ∨ (¬ ∃ t, IdText s t) ∨ ∃ t, IdText s t ∧ number t = 0) ∧ arts = [] ∧ unk = []) ∨
     (¬ (∃ t, s = 47 :: 47 :: t) ∧ ∃ t l, IdText s t ∧ number t ≠ 0 ∧ SrcTextIs Z s l ∧
        ((l = [] ∧ arts = [] ∧ unk = [s]) ∨ (l ≠ [] ∧ arts = l.map (fun a => { a with id := number t }) ∧ unk = []))))

/-! ### Forms -/

/-- The part of speech. -/
def SrcArticle.pos (A : SrcArticle) : Nat := A.info % 64

/-- The capitals the article demands. -/
def SrcArticle.demand (A : SrcArticle) : Nat := if 37 ≤ A.pos ∧ A.pos ≤ 47 then 1 else if A.pos = 59 then 2 else 0

/-- The article has a form with the alternant `x`, the ending `e`, the description `g` and the flags `fl`: `e` is such an ending of its table; a
plural-only word takes plural endings only; `x` serves the level of alternation that the description asks for. -/
def SrcInflects (src : List (List Nat × List FxItem)) (A : SrcArticle) (name : List Nat) (x e : List Nat) (g fl : Nat) : Prop :=
  SrcEnding src name e g fl ∧ (A.info &&& 0x40 ≠ 0 → g &&& 0x800 ≠ 0) ∧
    ((A.alt = none ∧ x = []) ∨ ∃ l, A.alt = some l ∧ StepServes l.steps x (altLevel A.info g fl - 1))

/-- `w` is a form of the article: its stem and its suffix, with an alternant and an ending between them if it is inflected. -/
def SrcHasForm (src : List (List Nat × List FxItem)) (A : SrcArticle) (w : List Nat) : Prop :=
  (A.table = none ∧ w = A.stem ++ A.post) ∨
  ∃ name x e g fl, A.table = some name ∧ SrcInflects src A name x e g fl ∧ w = A.stem ++ x ++ e ++ A.post

/-! ### Limits -/

/-- A table of endings whose lines with the description `q` can be cut off: their texts are shorter than 16; where such a line must go on, it
goes on with a table that has no such line. -/
structure SrcNounShape (src : List (List Nat × List FxItem)) (lines : List FxItem) (q : Nat) : Prop where
  short : ∀ l ∈ lines, l.gr = q → l.tail.length < 16
  onward : ∀ l ∈ lines, l.gr = q → l.flags &&& 0x80 ≠ 0 → ∀ next, Defined src l.next next → ∀ r ∈ next, r.gr ≠ q

/-- A table of endings of verbs whose infinitives can be cut off: no line is reflexive; infinitives are shorter than 16; an infinitive that must
go on is the only one, and goes on with a table of reflexive endings, none of them the end of another. -/
structure SrcVerbShape (src : List (List Nat × List FxItem)) (lines : List FxItem) : Prop where
  active : ∀ l ∈ lines, l.gr &&& 0x8000 = 0
  short : ∀ l ∈ lines, l.gr % 128 = 1 → l.tail.length < 16
  onward : ∀ l ∈ lines, l.gr % 128 = 1 → l.flags &&& 0x80 ≠ 0 →
    (∀ l' ∈ lines, l'.gr % 128 = 1 → l' = l) ∧ ∀ next, Defined src l.next next →
      (∀ r ∈ next, r.gr % 128 ≠ 1 ∧ (r.gr &&& 0x8000 ≠ 0 → r.gr = 0x8000 ∧ r.flags &&& 0x80 = 0 ∧ r.tail.length < 16)) ∧
      ∀ r ∈ next, ∀ r' ∈ next, r.gr &&& 0x8000 ≠ 0 → r'.gr &&& 0x8000 ≠ 0 → r.tail <:+ r'.tail → r.tail = r'.tail

/-- The letters the first-letter bounds of a table are computed from (as `Counted`): the first letter of a line; 0 for a line without letters that
need not go on; for one without letters that must go on, those of the table it goes on with. -/
inductive SrcCounted (src : List (List Nat × List FxItem)) : List Nat → Nat → Prop where
  | letter {name : List Nat} {lines : List FxItem} {l : FxItem} {c : Nat} {s : List Nat} : Defined src name lines → l ∈ lines → l.tail = c :: s →
      SrcCounted src name c
  | blank {name : List Nat} {lines : List FxItem} {l : FxItem} : Defined src name lines → l ∈ lines → l.tail = [] → l.flags &&& 0x80 = 0 →
      SrcCounted src name 0
  | onward {name : List Nat} {lines : List FxItem} {l : FxItem} {c : Nat} : Defined src name lines → l ∈ lines → l.tail = [] → l.flags &&& 0x80 ≠ 0 →
      SrcCounted src l.next c → SrcCounted src name c

/-- The letters below which the bounds reject everything (as `RusDict.Low`): the first letters of the alternants, if none is empty; else those of
the table. -/
def SrcLow (src : List (List Nat × List FxItem)) (name : List Nat) (alt : Option IchLine) (c : Nat) : Prop :=
  (∃ l, alt = some l ∧ [] ∉ l.steps ∧ ∃ s ∈ l.steps, s.head? = some c) ∨ ((∀ l, alt = some l → [] ∈ l.steps) ∧ SrcCounted src name c)

/-- The letters above which the bounds reject everything (as `RusDict.High`): the first letters of the alternants, if one is not empty; else
those of the table. -/
def SrcHigh (src : List (List Nat × List FxItem)) (name : List Nat) (alt : Option IchLine) (c : Nat) : Prop :=
  (∃ l, alt = some l ∧ ∃ s ∈ l.steps, s.head? = some c) ∨ ((∀ l, alt = some l → ∀ s ∈ l.steps, s = []) ∧ SrcCounted src name c)

/-- The limits of the tables: fewer than 128 lines, endings of fewer than 128 letters; alternations of one to four alternants, each shorter than 16; headers that share a name have the same names; the tables are fit for
cutting the headwords. -/
structure TablesFit (Z : RusSrc) : Prop where
  lines : ∀ p ∈ Z.flex, p.2.length < 128
  tails : ∀ p ∈ Z.flex, ∀ l ∈ p.2, l.tail.length < 128 ∧ ∀ b ∈ l.tail, 0 < b ∧ b < 256
  words : ∀ p ∈ Z.flex, ∀ l ∈ p.2, l.gr < 65536 ∧ l.flags < 256
  same : SameNames Z.mix
  space : ichSpace Z.mix < 65530
  steps : ∀ l ∈ Z.mix, 1 ≤ l.steps.length ∧ l.steps.length ≤ 4 ∧ ∀ s ∈ l.steps, s.length < 16 ∧ ∀ b ∈ s, 0 < b ∧ b < 256
  heads : ∀ dies type ind pos plural base lines, TypeIs dies type pos plural → pos < 48 → Defined Z.flex (tableName type ind) lines →
    if IsVerb pos then SrcVerbShape Z.flex lines else SrcNounShape Z.flex lines (headGram pos plural base)
  colons : ∀ dies type ind pos plural, TypeIs dies type pos plural → IsVerb pos → HasTable Z.flex (tableName type ind) → 58 ∉ ind

/-- The limits of an article: its letters and endings are of given alphabets of fewer than 128 letters, the stem has at most 48, the
suffix fewer than 128, an ending at most 64 letters; at most 64 descriptions for one ending; a preposition has a scale of cases and no marks;
the first letters of what follows its stem are within the bounds. -/
structure ArticleFits (alphabet : List Nat) (Z : RusSrc) (A : SrcArticle) : Prop where
  stem : ∀ b ∈ A.stem, b ∈ alphabet
  short : A.stem.length ≤ 48
  post : A.post.length < 128 ∧ ∀ b ∈ A.post, 0 < b ∧ b < 256
  id : A.id < 2 ^ 32
  prepos : A.pos = 51 → A.info = 51 ∧ A.scale ≠ 0
  endings : ∀ name, A.table = some name → ∀ e g fl, SrcEnding Z.flex name e g fl → e.length ≤ 64
  letters : ∀ name, A.table = some name → ∃ B : List Nat, B.length < 128 ∧ ∀ e g fl, SrcEnding Z.flex name e g fl → ∀ b ∈ e, b ∈ B
  few : ∀ name, A.table = some name → ∀ (e : List Nat) (l : List FlexInfo), l.Nodup → (∀ d ∈ l, SrcEnding Z.flex name e d.gramm d.flags) → l.length ≤ 64
  covers : ∀ name, A.table = some name → ∀ x e g fl, SrcInflects Z.flex A name x e g fl → ∀ b, (x ++ e).head? = some b →
    (∃ c, SrcLow Z.flex name A.alt c ∧ c ≤ b) ∧ ∃ c, SrcHigh Z.flex name A.alt c ∧ b ≤ c

/-! ### Headwords -/

/-- The endings of the tables (as `HeadTables`, `HeadOnce`): each is for animate or inanimate words; infinitives have nothing else in their
description but being reflexive; a table has not both reflexive and other endings of headwords, and one ending for each description of a
headword. -/
structure SrcHeads (src : List (List Nat × List FxItem)) : Prop where
  alive : ∀ name e gr fl, SrcEnding src name e gr fl → fl &&& 3 ≠ 0
  bare : ∀ name e gr fl, SrcEnding src name e gr fl → gr % 128 = 1 → gr = 1 ∨ gr = 0x8001
  apart : ∀ name, ∀ q ∈ [1, 0x200], ∀ e e' fl fl', SrcEnding src name e q fl → ¬ SrcEnding src name e' (q + 0x8000) fl'
  once : ∀ name, ∀ q ∈ [0, 0x200, 0x800, 1, 0x8001, 0x8200], ∀ e e' fl fl', SrcEnding src name e q fl → SrcEnding src name e' q fl' → e = e'

/-- A masculine noun, plural only, whose stem alternates. -/
def SrcMascPlural (A : SrcArticle) : Prop := A.info &&& 0x40 ≠ 0 ∧ A.pos ∈ [7, 8, 9] ∧ A.alt ≠ none

/-! ### Forms for a description, dictionary forms -/

/-- `f` is a form of the article, inflected by the table of the name, for the description `q` and the flags `fl`: stem, the alternant that serves the
level of alternation of the request, an ending of that description with a common flag, suffix. -/
def SrcFormAt (src : List (List Nat × List FxItem)) (A : SrcArticle) (name : List Nat) (q fl : Nat) (f : List Nat) : Prop :=
  ∃ x e fl', SrcEnding src name e q fl' ∧ fl' &&& fl ≠ 0 ∧
    ((A.alt = none ∧ x = []) ∨ ∃ l, A.alt = some l ∧ StepServes l.steps x (altLevel A.info q fl - 1)) ∧ f = A.stem ++ x ++ e ++ A.post

/-- The description of the dictionary form: of verbs the infinitive; of adjectives the nominative masculine, of plural-only ones with the plural added
to it; of others the nominative, of plural-only ones the plural. -/
def dictGram (info : Nat) : Nat :=
  if info % 64 ≤ 6 then 1
  else if info % 64 ∈ [25, 26, 27, 28, 34, 36, 42] then if info &&& 0x40 ≠ 0 then 0xa00 else 0x200
  else if info &&& 0x40 ≠ 0 then 0x800 else 0

/-- A verb or an adjective. -/
def SrcReflects (info : Nat) : Prop := info % 64 ≤ 6 ∨ info % 64 ∈ [25, 26, 27, 28, 34, 36, 42]

/-- `f` is a dictionary form of the article: an uninflected word itself; else a form for the description of dictionary forms; of a verb or
an adjective that has none, a reflexive one. -/
def SrcDictForm (src : List (List Nat × List FxItem)) (A : SrcArticle) (f : List Nat) : Prop :=
  (A.table = none ∧ f = A.stem ++ A.post) ∨
  ∃ name, A.table = some name ∧ (SrcFormAt src A name (dictGram A.info) 3 f ∨
    (SrcReflects A.info ∧ (∀ f', ¬ SrcFormAt src A name (dictGram A.info) 3 f') ∧ SrcFormAt src A name (dictGram A.info + 0x8000) 3 f))

/-- `f` is the dictionary form that is reported: none of the others comes before it in the alphabet. -/
def SrcLemma (src : List (List Nat × List FxItem)) (A : SrcArticle) (f : List Nat) : Prop :=
  SrcDictForm src A f ∧ ∀ f', SrcDictForm src A f' → bytesLt f' f = false

end Libmorph.Spec
