import Verif.Spec.RusForms
import Verif.Spec.RusGram
import Verif.Spec.Lemm
/-
What Russian Lemmatize is to report for a reading: dictionary form and descriptions.
-/
namespace Libmorph
open Libmorph.Spec

instance verbPosDec (w : Nat) : Decidable (VerbPos w) := inferInstanceAs (Decidable (_ ≤ _))
instance adjPosDec (w : Nat) : Decidable (AdjPos w) := inferInstanceAs (Decidable (_ ∈ _))
instance pluralOnlyDec (w : Nat) : Decidable (Spec.PluralOnly w) := inferInstanceAs (Decidable (_ = _))

/-- The description of the dictionary form, for a word met with the description `g`: nouns - nominative
singular, or plural for plural-only words; adjectives - nominative masculine, for plural-only words with the
plural added to it (a description no form has); verbs - the infinitive, or, when a participle was met and
`nfAdjVerbs` is set, its nominative masculine. -/
def dictRequest (wdinfo : Nat) (g : FlexInfo) (dwsets : Nat) : FlexInfo :=
  if VerbPos wdinfo then
    if dwsets &&& 0x100 ≠ 0 ∧ (g.gramm &&& 0x60 = 0x20 ∨ g.gramm &&& 0x60 = 0x40) then ⟨(g.gramm &&& 0x67) + 0x200, 3⟩
    else (VerbForm.infinitive false).desc
  else if AdjPos wdinfo then
    if Spec.PluralOnly wdinfo then ⟨0x200 + 0x800, 3⟩ else (AdjForm.decl false 0 0).desc
  else if Spec.PluralOnly wdinfo then (NounForm.plural 0).desc else (NounForm.singular 0).desc

/-- The dictionary forms of an article met with the description `g`: an uninflected word itself; else the
forms for the dictionary request, or, for verbs and adjectives that have none, the reflexive ones. -/
def RusDict.DictForms (D : RusDict) (a : RusArticle) (g : FlexInfo) (dwsets : Nat) (fs : List (List Byte)) : Prop :=
  if a.Inflected then
    fs ≠ [] ∧ (D.FormsOf a (dictRequest a.wdinfo g dwsets) fs ∨
      (VerbPos a.wdinfo ∨ AdjPos a.wdinfo) ∧ D.FormsOf a (dictRequest a.wdinfo g dwsets) [] ∧
        D.FormsOf a ⟨(dictRequest a.wdinfo g dwsets).gramm + 0x8000, 3⟩ fs)
  else fs = [a.stem ++ a.post]

/-- The alphabetically least of some strings. -/
def leastForm : List (List Byte) → List Byte
  | [] => []
  | f :: fs => fs.foldl (fun s x => if bytesLt x s then x else s) f

/-- The description that settles the dictionary form. -/
def RusReading.first (r : RusReading) : FlexInfo := r.grams.headD ⟨0, 0⟩

/-- A reading as it is reported, `fs` being its dictionary forms: the least of them is printed; the
descriptions get the word information and their form number (255 for uninflected words). -/
def RusReading.step (fs : List (List Byte)) (r : RusReading) : LemmStep where
  id := r.art.id
  scratch := (packed fs).length
  text := rusPrinted r.art.demand (leastForm fs)
  grs := r.grams.map fun g => ⟨0, 0, g.gramm, g.flags⟩
  put := fun g =>
    if r.art.Inflected then ⟨r.art.wdinfo % 2048, mapWordInfo r.art.wdinfo g.grInfo g.bFlags, g.grInfo, g.bFlags⟩
    else ⟨r.art.wdinfo, 255, g.grInfo, g.bFlags⟩

end Libmorph
