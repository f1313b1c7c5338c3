import Verif.Model.RusBuild
import Verif.Model.RusRun
import Verif.Spec.RusTables
import Verif.Spec.RusLevel
import Verif.Spec.Caps
/-
What a Russian dictionary article says, independently of expanded tables and images.
-/
namespace Libmorph
open Libmorph.Spec

/-- The sources of a dictionary: the compact ending tables, the image of the alternation tables, the
alternants it was made from (by reference), and the resolved articles. -/
structure RusDict where
  ftab : List Byte
  mtab : List Byte
  alts : Nat → List (List Byte × Nat)
  arts : List RusArticle

/-- The part of speech. -/
def RusArticle.pos (a : RusArticle) : Nat := a.wdinfo % 64

/-- The article is inflected: it has an ending table (the reference of a preposition, part of speech
51, is its scale of cases). -/
def RusArticle.Inflected (a : RusArticle) : Prop := a.tfoffs ≠ 0 ∧ a.pos ≠ 51

instance rusInflectedDec (a : RusArticle) : Decidable a.Inflected := inferInstanceAs (Decidable (_ ∧ _))

/-- The capitalization an article demands: proper names a capital, abbreviations all capitals. -/
def RusArticle.demand (a : RusArticle) : Nat := if 37 ≤ a.pos ∧ a.pos ≤ 47 then 1 else if a.pos = 59 then 2 else 0

/-- The article is used in the plural only. -/
def RusArticle.PluralOnly (a : RusArticle) : Prop := a.wdinfo &&& 0x40 ≠ 0

instance rusPluralDec (a : RusArticle) : Decidable a.PluralOnly := inferInstanceAs (Decidable (_ ≠ _))

/-- The inflected article has a form with the alternant `x`, the ending `e` and the description `g`: `e` is
such an ending of its table; a plural-only word takes plural endings only; `x` serves the level of
alternation that the description asks for (nothing when there is no alternation). -/
def RusDict.Inflects (D : RusDict) (a : RusArticle) (x e : List Byte) (g : FlexInfo) : Prop :=
  Ending D.ftab a.tfoffs e g.gramm g.flags ∧ (a.PluralOnly → g.gramm &&& 0x800 ≠ 0) ∧
  (if a.mtoffs = 0 then x = [] else Serves (D.alts a.mtoffs) x (Spec.altLevel a.wdinfo g.gramm g.flags - 1))

/-- The article can be read with alternant `x`, ending `e` and description `g`; an uninflected one only
as it is, with the scale of cases (0 when it is no preposition) as the description. -/
def RusDict.Reads (D : RusDict) (a : RusArticle) (x e : List Byte) (g : FlexInfo) : Prop :=
  if a.Inflected then D.Inflects a x e g else x = [] ∧ e = [] ∧ g = ⟨a.tfoffs, 0⟩

/-- `w` is a form of the article. -/
def RusDict.HasForm (D : RusDict) (a : RusArticle) (w : List Byte) : Prop :=
  ∃ x e g, D.Reads a x e g ∧ w = a.stem ++ x ++ e ++ a.post

/-- The first-letter bounds filed with an article are right: whatever may follow its stem begins with a
letter between them (see `C45`). -/
def RusDict.Covered (D : RusDict) (a : RusArticle) : Prop :=
  ∀ lo hi, rusBounds D.ftab D.mtab a = some (lo, hi) →
    ∀ x e g, D.Reads a x e g → ∀ b, (x ++ e).head? = some b → lo ≤ b ∧ b ≤ hi

/-- The limits within which articles can be compiled and looked up: those of the stem tree, of the ending
tables (`FlexOk`, endings of at most 64 letters) and of the alternation tables (`MixOk`), word information
of 13 bits, a preposition with a scale of cases and no flags, no alternation without endings, a class
image of at most 32 K, an ending image below 1 M; the first-letter bounds are right. -/
structure RusOk (A : List Byte) (D : RusDict) (st : RusState) : Prop where
  built : rusBuild D.ftab D.mtab D.arts = some st
  alpha : A.length < 128
  letters : ∀ b ∈ A, 0 < b ∧ b < 256
  stems : ∀ a ∈ D.arts, ∀ b ∈ a.stem, b ∈ A
  short : ∀ a ∈ D.arts, a.stem.length ≤ 48
  ids : ∀ a ∈ D.arts, a.id < 2 ^ 32
  posts : ∀ a ∈ D.arts, a.post.length < 128
  text : ∀ a ∈ D.arts, ∀ b ∈ a.post, 0 < b ∧ b < 256
  words : ∀ a ∈ D.arts, a.wdinfo < 0x2000
  prepos : ∀ a ∈ D.arts, a.pos = 51 → a.wdinfo = 51 ∧ a.tfoffs ≠ 0 ∧ a.mtoffs = 0
  plainw : ∀ a ∈ D.arts, a.tfoffs = 0 → a.mtoffs = 0
  refs : ∀ a ∈ D.arts, a.tfoffs < 65536 ∧ a.mtoffs < 65536
  tables : ∀ a ∈ D.arts, a.Inflected → ∃ B, FlexOk D.ftab B a.tfoffs
  long : ∀ a ∈ D.arts, a.Inflected → ∀ e g fl, Ending D.ftab a.tfoffs e g fl → e.length ≤ 64
  mixes : ∀ a ∈ D.arts, a.mtoffs ≠ 0 → MixOk (D.alts a.mtoffs) ∧
    (∀ p ∈ D.alts a.mtoffs, ∀ b ∈ p.1, 0 < b ∧ b < 256) ∧
    ∃ rest, D.mtab.drop a.mtoffs = mixSer (mixOf (D.alts a.mtoffs)) ++ rest
  covers : ∀ a ∈ D.arts, D.Covered a
  count : D.arts.length < 2 ^ 32
  classes : st.classes.length ≤ 0x8000
  plain : st.plain.length < 2 ^ 20
  size : (st.images D.mtab).stemtree.length < 2 ^ 32

/-- No form is at risk of being missed because of a suffix: as for English (`SuffixSafe`), with the
largest first letter filed with the article. -/
def RusDict.SuffixSafe (D : RusDict) (w : List Byte) : Prop :=
  ∀ a ∈ D.arts, w = a.stem ++ a.post → ∀ b, a.post.head? = some b →
    ∀ a0 ∈ D.arts, a0.stem = a.stem → a0.post <:+ a.post → a0.post ≠ a.post →
      ∀ lo hi lo0 hi0, rusBounds D.ftab D.mtab a = some (lo, hi) → rusBounds D.ftab D.mtab a0 = some (lo0, hi0) →
        hi ≤ hi0 → b ≤ hi0

theorem RusDict.suffixSafe_of_none (D : RusDict) (h : ∀ a ∈ D.arts, a.post = []) (w : List Byte) : D.SuffixSafe w := by
  intro a ha _ b hb
  rw [h a ha] at hb; simp at hb

/-- One reading of a word: an article with an alternant, an ending and its descriptions. -/
structure RusReading where
  art : RusArticle
  alt : List Byte
  ending : List Byte
  grams : List FlexInfo
deriving DecidableEq

/-- The reading is right for the word: its article is in the dictionary, the word is stem, alternant,
ending, suffix, and the descriptions are exactly the right ones, each once, at least one. -/
structure RusDict.Proper (D : RusDict) (w : List Byte) (r : RusReading) : Prop where
  art : r.art ∈ D.arts
  word : w = r.art.stem ++ r.alt ++ r.ending ++ r.art.post
  grams : ∀ g, g ∈ r.grams ↔ D.Reads r.art r.alt r.ending g
  once : r.grams.Nodup
  some_ : r.grams ≠ []

/-- `H` is the list of readings of the word `w` (in small letters) by the articles whose demand is
admitted: right readings, longer stems first; an article's alternant and ending are met as often as
the article is listed, or less often (when a form is at risk). -/
structure RusDict.Readings (D : RusDict) (ok : Nat → Bool) (w : List Byte) (H : List RusReading) : Prop where
  proper : ∀ r ∈ H, D.Proper w r ∧ ok r.art.demand = true
  atMost : ∀ a x e, (H.filter fun r => r.art = a ∧ r.alt = x ∧ r.ending = e).length ≤ D.arts.count a
  all : D.SuffixSafe w → ∀ a ∈ D.arts, ok a.demand = true → ∀ x e g, D.Reads a x e g → w = a.stem ++ x ++ e ++ a.post →
    (H.filter fun r => r.art = a ∧ r.alt = x ∧ r.ending = e).length = D.arts.count a
  order : H.Pairwise fun p q => q.art.stem.length ≤ p.art.stem.length

/-- The spelling of the word is admitted for a demand: capitals are ignored or good. -/
def rusAdmits (w : List Byte) (dwsets : Nat) (demand : Nat) : Bool := dwsets &&& 2 ≠ 0 || decide (CapsFit rusTab w demand)

end Libmorph
