import Verif.Spec.Wild
import Verif.Spec.English
import Verif.Model.Wild
/-
What a wildcard search in an English dictionary reports.
-/
namespace Libmorph

/-- The forms of an article in small letters with their numbers; an uninflected word has the number 255 and is
reported without its suffix. -/
def Article.wildForms (a : Article) : List StrMatch :=
  if a.Inflected then a.endings.map fun p => ⟨a.lowStem ++ p.1 ++ a.post, p.2⟩ else [⟨a.lowStem, 255⟩]

/-- The search does not miss the form with the ending `e`: the ending is not empty, or there is no suffix, or the
template has a rest behind the stem that fits the suffix and begins with a wildcard or with a letter not above the
first letters of the endings. -/
def Article.WildSeen (a : Article) (T e : List Byte) : Prop :=
  e ≠ [] ∨ a.post = [] ∨ ∃ r, WildRest T a.lowStem r ∧ WildMatch r a.post ∧
    ∀ c, r.head? = some c → c = 42 ∨ c = 63 ∨ c ≤ a.topLetter

/-- The form `m` of the lexeme `id` is what a search with the (small-letter) template `T` has to report. -/
def WildFound (as : List Article) (T : List Byte) (id : Nat) (m : StrMatch) : Prop :=
  ∃ a ∈ as, a.id = id ∧ m ∈ a.wildForms ∧ WildMatch T m.text ∧
    (a.Inflected → ∃ e, (e, m.id) ∈ a.endings ∧ m.text = a.lowStem ++ e ++ a.post ∧ a.WildSeen T e)

/-- The limits for a wildcard search: texts without wildcards and shorter than the buffer of 48 bytes, lexeme ids
other than 0, and at most 256 forms per lexeme id. -/
structure WildOk (as : List Article) : Prop where
  ends : ∀ a ∈ as, ∀ p ∈ a.endings, ∀ c ∈ p.1, c ≠ 42 ∧ c ≠ 63
  posts : ∀ a ∈ as, ∀ c ∈ a.post, c ≠ 42 ∧ c ≠ 63
  stems : ∀ a ∈ as, a.lowStem.length < 48
  short : ∀ a ∈ as, ∀ m ∈ a.wildForms, m.text.length < 48
  ids : ∀ a ∈ as, a.id ≠ 0
  few : ∀ id, ((as.filter fun a => a.id = id).flatMap Article.wildForms).length ≤ 256

/-- The calls of the client: every call has a lexeme and its forms, none of them twice; two calls in a row are for
different lexemes. -/
structure WildCalls (found : Nat → StrMatch → Prop) (C : List (Nat × List StrMatch)) : Prop where
  mem : ∀ id m, (∃ c ∈ C, c.1 = id ∧ m ∈ c.2) ↔ found id m
  nonempty : ∀ c ∈ C, c.2 ≠ []
  nodup : ∀ c ∈ C, c.2.Nodup
  change : C.IsChain fun c d => c.1 ≠ d.1

end Libmorph
