import Verif.Spec.RusText
import Verif.Spec.RusLemm
/-
When the headword of a line is a form of its article, and its dictionary form.
-/
namespace Libmorph.Spec
open Libmorph

/-- The dictionary of the articles, with the tables of the source. -/
def RusSource.dict (S : RusSource) (mtab : List Nat) (arts : List RusArticle) : RusDict := ⟨S.ftab, mtab, S.alts, arts⟩

/-- The headword is written as it is used: it has no '@', it ends in its suffix, and, for an inflected word, the index has no ':'. -/
structure HeadRegular (norm dies type ind comm : List Nat) : Prop where
  mark : 64 ∉ norm
  suffix : ∀ post, PostText comm post → post <:+ plainWord norm
  colon : 58 ∈ ind → ∀ pos plural, TypeIs dies type pos plural → 48 ≤ pos

/-- A masculine noun, plural only, whose stem alternates (its nominative plural has not the basic alternant). -/
def MascPlural (a : RusArticle) : Prop := a.PluralOnly ∧ a.pos ∈ [7, 8, 9] ∧ a.mtoffs ≠ 0

/-- The endings of the tables: each is for animate or inanimate words; infinitives have nothing else in their description but
being reflexive; a table has not both reflexive and other endings of headwords. -/
structure HeadTables (S : RusSource) : Prop where
  alive : ∀ name t, S.endings name = some t → ∀ e gr fl, Ending S.ftab t e gr fl → fl &&& 3 ≠ 0
  bare : ∀ name t, S.endings name = some t → ∀ e gr fl, Ending S.ftab t e gr fl → gr % 128 = 1 → gr = 1 ∨ gr = 0x8001
  apart : ∀ name t, S.endings name = some t → ∀ q ∈ [1, 0x200], ∀ e e' fl fl', Ending S.ftab t e q fl → ¬ Ending S.ftab t e' (q + 0x8000) fl'

/-- A table has one ending for each description of a headword. -/
def HeadOnce (S : RusSource) : Prop :=
  ∀ name t, S.endings name = some t → ∀ q ∈ [0, 0x200, 0x800, 1, 0x8001, 0x8200], ∀ e e' fl fl', Ending S.ftab t e q fl → Ending S.ftab t e' q fl' → e = e'

/-- `w` is the headword of the line: its first word, without marks of boundaries, with "е" for "ё". -/
def Headword (line w : List Nat) : Prop :=
  ∃ s norm dies type ind comm, Trimmed line s ∧ RusFields s norm dies type ind comm ∧ w = plainWord norm

/-- The headword of the line is written as it is used. -/
def LineRegular (line : List Nat) : Prop :=
  ∀ s norm dies type ind comm, Trimmed line s → RusFields s norm dies type ind comm → HeadRegular norm dies type ind comm

end Libmorph.Spec
