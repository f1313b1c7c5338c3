import Verif.Spec.Wild
import Verif.Spec.Russian
import Verif.Model.RusWild
import Mathlib.Data.List.Chain
/-
What a wildcard search in a Russian dictionary reports.
-/
namespace Libmorph
open Libmorph.Spec

/-- A form found: an article with an alternant, an ending and a description. -/
structure WildHit where
  art : RusArticle
  alt : List Byte
  ending : List Byte
  gram : FlexInfo
deriving DecidableEq

/-- What is reported for it: the lexeme id, the form in small letters and its number; an uninflected word has the
number 255 and is reported without its suffix. -/
def WildHit.report (h : WildHit) : Nat × StrMatch :=
  (h.art.id, if h.art.Inflected then ⟨h.art.stem ++ h.alt ++ h.ending ++ h.art.post, mapWordInfo h.art.wdinfo h.gram.gramm h.gram.flags⟩
    else ⟨h.art.stem, 255⟩)

/-- The search does not miss the form: something stands between stem and suffix, or there is no suffix, or the template
has a rest behind the stem that fits the suffix and begins with a wildcard or with a letter between the first-letter
bounds of the article. -/
def RusDict.WildSeen (D : RusDict) (a : RusArticle) (T part : List Byte) : Prop :=
  part ≠ [] ∨ a.post = [] ∨ ∃ r, WildRest T a.stem r ∧ WildMatch r a.post ∧
    ∀ c, r.head? = some c → c = 42 ∨ c = 63 ∨ ∀ lo hi, rusBounds D.ftab D.mtab a = some (lo, hi) → lo ≤ c ∧ c ≤ hi

/-- A search with the (small-letter) template `T` has to find this. -/
structure RusDict.WildFound (D : RusDict) (T : List Byte) (h : WildHit) : Prop where
  art : h.art ∈ D.arts
  reads : D.Reads h.art h.alt h.ending h.gram
  fits : WildMatch T h.report.2.text
  seen : h.art.Inflected → D.WildSeen h.art T (h.alt ++ h.ending)

/-- The alternants of an article. -/
def RusDict.altsOf (D : RusDict) (a : RusArticle) : List (List Byte) :=
  if a.mtoffs = 0 then [[]] else (D.alts a.mtoffs).map Prod.fst

/-- The limits for a wildcard search: texts without wildcards and shorter than the buffer of 48 bytes (every alternant
with every ending), lexeme ids other than 0. -/
structure RusWildOk (D : RusDict) : Prop where
  ends : ∀ a ∈ D.arts, a.Inflected → ∀ e g fl, Ending D.ftab a.tfoffs e g fl → ∀ c ∈ e, c ≠ 42
  mixes : ∀ a ∈ D.arts, a.Inflected → ∀ x ∈ D.altsOf a, ∀ c ∈ x, c ≠ 42 ∧ c ≠ 63
  posts : ∀ a ∈ D.arts, ∀ c ∈ a.post, c ≠ 42 ∧ c ≠ 63
  stems : ∀ a ∈ D.arts, a.stem.length < 48
  bare : ∀ a ∈ D.arts, a.Inflected → ∀ x ∈ D.altsOf a, a.stem.length + x.length + a.post.length < 48
  short : ∀ a ∈ D.arts, a.Inflected → ∀ x ∈ D.altsOf a, ∀ e g fl, Ending D.ftab a.tfoffs e g fl →
    a.stem.length + x.length + e.length + a.post.length < 48
  ids : ∀ a ∈ D.arts, a.id ≠ 0

/-- The outcome of a search that is defined: `R` are the forms found, in the order in which they are reported; the calls
of the client `C` are for one lexeme each and never empty, two calls in a row are for different lexemes. -/
structure RusDict.WildOutcome (D : RusDict) (T : List Byte) (C : List (Nat × List StrMatch)) (R : List WildHit) : Prop where
  found : ∀ h, h ∈ R ↔ D.WildFound T h
  reported : (C.flatMap fun c => c.2.map fun m => (c.1, m)) = R.map WildHit.report
  nonempty : ∀ c ∈ C, c.2 ≠ []
  change : C.IsChain fun c d => c.1 ≠ d.1

end Libmorph
