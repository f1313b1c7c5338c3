import Verif.Spec.English
import Verif.Model.EngRun
/-
What Lemmatize is to report, independently of the loops that write it.
-/
namespace Libmorph

/-- The grammatical descriptions of an article's ending: one per form number (ascending) with the part of
speech; for an uninflected word one, with form number 255 and the demand in bits 7 and 8. -/
def Article.described (a : Article) (e : List Byte) : List Gram :=
  if a.Inflected then (a.idsOf e).map fun i => ⟨a.pos, i, 0, 0⟩ else [⟨a.pos + 128 * a.demand, 255, 0, 0⟩]

/-- The records: lexeme, where its dictionary form starts in the form buffer, where its descriptions start
in the description buffer, how many there are.  Nothing is counted in a buffer that is not supplied. -/
def lemmRecords (withForms withGrams : Bool) (fpos gpos : Nat) : List (Article × List Byte) → List Lemm
  | [] => []
  | p :: H =>
    ⟨p.1.id, fpos, gpos, if withGrams then (p.1.described p.2).length else 0⟩ ::
      lemmRecords withForms withGrams (if withForms then fpos + p.1.lemma.length + 1 else fpos)
        (if withGrams then gpos + (p.1.described p.2).length else gpos) H

/-- The dictionary forms, zero-terminated, one after another. -/
def lemmTexts (H : List (Article × List Byte)) : List Byte := packed (H.map fun p => p.1.lemma)

/-- The descriptions, one after another. -/
def lemmGramsAll (H : List (Article × List Byte)) : List Gram := H.flatMap fun p => p.1.described p.2

/-- The buffers are large enough for the readings: records, texts (and one byte), descriptions (which are
written only next to records); each word's dictionary forms fit the library's own 256 bytes. -/
structure Roomy (L : Option (List Lemm)) (B : Option (List Byte)) (G : Option (List Gram))
    (H : List (Article × List Byte)) : Prop where
  lemms : ∀ l ∈ L, H.length ≤ l.length
  texts : ∀ b ∈ B, H ≠ [] → (lemmTexts H).length + 1 ≤ b.length
  scratch : ∀ _ ∈ B, ∀ p ∈ H, (packed p.1.dictForms).length ≤ 256
  grams : ∀ _ ∈ L, ∀ g ∈ G, (lemmGramsAll H).length ≤ g.length

/-- The buffers after a successful call: what was asked for at the start, the old content after it. -/
structure Reported (L : Option (List Lemm)) (B : Option (List Byte)) (G : Option (List Gram))
    (H : List (Article × List Byte)) (s : LemmState) : Prop where
  lemms : s.lemms = L.map fun l => lemmRecords B.isSome G.isSome 0 0 H ++ l.drop H.length
  texts : s.forms.buf = B.map fun b => if H = [] then b else lemmTexts H ++ 0 :: b.drop ((lemmTexts H).length + 1)
  grams : s.grams = if L.isSome then G.map fun g => lemmGramsAll H ++ g.drop (lemmGramsAll H).length else G

/-- The buffers have kept their sizes. -/
structure SameSizes (L : Option (List Lemm)) (B : Option (List Byte)) (G : Option (List Gram)) (s : LemmState) : Prop where
  lemms : s.lemms.map List.length = L.map List.length
  texts : s.forms.buf.map List.length = B.map List.length
  grams : s.grams.map List.length = G.map List.length

end Libmorph
