import Verif.Spec.Russian
/-
Which forms a Russian article has for a description.
-/
namespace Libmorph
open Libmorph.Spec

/-- The endings of the article that meet a request - the description itself and a common flag -, each
once, the alphabetically last first. -/
structure RusDict.EndingsFor (D : RusDict) (a : RusArticle) (fx : FlexInfo) (es : List (List Byte)) : Prop where
  mem : ∀ e, e ∈ es ↔ ∃ fl, Ending D.ftab a.tfoffs e fx.gramm fl ∧ fl &&& fx.flags ≠ 0
  order : es.Pairwise fun p q => bytesLt q p = true

/-- The alternant for a request: none when there is no alternation, else the alphabetically first that
serves the level the request asks for. -/
def RusDict.AltFor (D : RusDict) (a : RusArticle) (fx : FlexInfo) (x : List Byte) : Prop :=
  if a.mtoffs = 0 then x = []
  else Serves (D.alts a.mtoffs) x (Spec.altLevel a.wdinfo fx.gramm fx.flags - 1) ∧
    ∀ y, Serves (D.alts a.mtoffs) y (Spec.altLevel a.wdinfo fx.gramm fx.flags - 1) → y = x ∨ bytesLt x y = true

/-- The forms of an inflected article that meet a request: stem, alternant, ending, suffix; none when no
alternant serves. -/
def RusDict.FormsOf (D : RusDict) (a : RusArticle) (fx : FlexInfo) (fs : List (List Byte)) : Prop :=
  (∃ x es, D.AltFor a fx x ∧ D.EndingsFor a fx es ∧ fs = es.map fun e => a.stem ++ x ++ e ++ a.post) ∨
  ((∀ x, ¬ D.AltFor a fx x) ∧ fs = [])

/-- The forms of an article for a form number when a word was recognized: 255 asks for an uninflected word
itself, other numbers for the forms of the description with that number (`C27`). -/
def RusDict.FoundForms (D : RusDict) (a : RusArticle) (i : Nat) (fs : List (List Byte)) : Prop :=
  if a.Inflected then
    if i = 255 ∨ getGramInfo a.wdinfo i = noInfo then fs = [] else D.FormsOf a (getGramInfo a.wdinfo i) fs
  else fs = if i = 255 then [a.stem ++ a.post] else []

/-- The forms of an article for a form number, asked for by the lexeme: the same, but a preposition is
given for the form numbers of a noun, not for 255. -/
def RusDict.BuiltForms (D : RusDict) (a : RusArticle) (i : Nat) (fs : List (List Byte)) : Prop :=
  if a.pos = 51 then fs = if i = 255 ∨ getGramInfo a.wdinfo i = noInfo then [] else [a.stem ++ a.post]
  else D.FoundForms a i fs

/-- Join parts with separators. -/
def joinWith : List (List Byte) → List Byte → List Byte
  | [], _ => []
  | [p], _ => p
  | p :: q :: ps, d :: ds => p ++ d :: joinWith (q :: ps) ds
  | p :: q :: ps, [] => p ++ joinWith (q :: ps) []

/-- A word in small letters, printed with the capitalization of a demand (Russian: the parts are separated
by hyphens and apostrophes). -/
def rusPrinted (demand : Nat) (w : List Byte) : List Byte :=
  let parts := wordParts rusTab w
  joinWith (List.zipWith (casedPart rusTab) (demands parts.length demand) parts) (w.filter fun c => rusTab.ctype c = ctDlm)

/-- The limits for lookup by lexeme id: ids below 2^24 (`C02`), an id tree below 4 GB. -/
structure RusIdsOk (D : RusDict) (st : RusState) : Prop where
  ids : ∀ a ∈ D.arts, a.id < 2 ^ 24
  size : (st.images D.mtab).lidstree.length < 2 ^ 32

/-- A request whose forms are recognized by the description they are built for: in a plural-only word it is
plural, and where stems alternate the level does not hang on which flag of an ending is looked at. -/
def RusDict.Steady (D : RusDict) (a : RusArticle) (fx : FlexInfo) : Prop :=
  (a.PluralOnly → fx.gramm &&& 0x800 ≠ 0) ∧
  (a.mtoffs ≠ 0 → ∀ e fl, Ending D.ftab a.tfoffs e fx.gramm fl → fl &&& fx.flags ≠ 0 →
    Spec.altLevel a.wdinfo fx.gramm fl = Spec.altLevel a.wdinfo fx.gramm fx.flags)

end Libmorph
