import Verif.Model.EngBuild
import Verif.Spec.Caps
import Mathlib.Data.List.Perm.Subperm
/-
What an English dictionary article says, independently of tables and images.
-/
namespace Libmorph

/-- The pieces of a string between separators (always at least one piece). -/
def splitBy (sep : Byte) : List Byte → List (List Byte)
  | [] => [[]]
  | c :: s =>
    if c = sep then [] :: splitBy sep s
    else match splitBy sep s with
      | [] => [[c]]
      | p :: ps => (c :: p) :: ps

/-- The alternative endings of one form: separated by '/' (a trailing one does not count); an ending
written "0…" is the empty one. -/
def altsOf (field : List Byte) : List (List Byte) :=
  let l := splitBy 47 field
  (if l.getLast? = some [] then l.dropLast else l).map fun t => if t.head? = some 48 then [] else t

/-- The endings of a list of forms, the first of which has the number `i`; "-" stands for a form
that does not exist. -/
def flexionsFrom (i : Nat) : List (List Byte) → List (List Byte × Nat)
  | [] => []
  | field :: l => (if field = [45] then [] else (altsOf field).map fun e => (e, i)) ++ flexionsFrom (i + 1) l

/-- What an ending string like "|s|'s/s'|-" means: (ending, form number) pairs.  Forms are separated
by '|', the first '|' only opens the list. -/
def flexionsOf (s : List Byte) : List (List Byte × Nat) :=
  flexionsFrom 0 (splitBy 124 (if s.head? = some 124 then s.drop 1 else s))

/-- The stem of an article, in small letters. -/
def Article.lowStem (a : Article) : List Byte := a.stem.map engTab.lower

/-- The article is inflected: it has an ending string. -/
def Article.Inflected (a : Article) : Prop := a.flex ≠ []

instance (a : Article) : Decidable a.Inflected := inferInstanceAs (Decidable (a.flex ≠ []))

/-- The endings of an article with their form numbers; an uninflected one has none. -/
def Article.endings (a : Article) : List (List Byte × Nat) :=
  if a.Inflected then flexionsOf (a.flex.map engTab.lower) else []

/-- `w` is the form of the article with the given ending: stem, ending, suffix. -/
def Article.Form (a : Article) (w ending : List Byte) : Prop := w = a.lowStem ++ ending ++ a.post

/-- `w` is a form of the article: its stem and suffix around one of its endings, or around nothing if
it is not inflected. -/
def Article.HasForm (a : Article) (w : List Byte) : Prop :=
  if a.Inflected then ∃ e id, (e, id) ∈ a.endings ∧ a.Form w e else a.Form w []

/-- The characters the compiler takes for capitals: A-Z and, the comparison being of a signed with an unsigned number, all
from 128 on. -/
def takenForCapital (b : Byte) : Bool := 65 ≤ b && b ≤ 90 || 128 ≤ b

/-- The capitalization an article demands: 2 when its first two letters are taken for capitals, 1 when only the
first is, 0 otherwise. -/
def Article.demand (a : Article) : Nat :=
  match a.stem with
  | [] => 0
  | [b] => if takenForCapital b then 1 else 0
  | b :: c :: _ => if takenForCapital b then if takenForCapital c then 2 else 1 else 0

end Libmorph

namespace Libmorph

/-- The form numbers filed under an ending, ascending. -/
def Article.idsOf (a : Article) (e : List Byte) : List Nat :=
  ((a.endings.filter fun p => p.1 = e).map Prod.snd).mergeSort

/-- The ending of the article in the word, if the word has its stem in front and its suffix behind. -/
def Article.endingIn (a : Article) (w : List Byte) : Option (List Byte) :=
  let e := (w.drop a.lowStem.length).take (w.length - a.lowStem.length - a.post.length)
  if w = a.lowStem ++ e ++ a.post then some e else none

/-- The largest first letter of an ending (0 when there is none, or no inflection). -/
def Article.topLetter (a : Article) : Nat := a.endings.foldl (fun m p => max m (p.1.headD 0)) 0

theorem Article.endingIn_iff (a : Article) (w e : List Byte) : a.endingIn w = some e ↔ a.Form w e := by
  simp only [Article.endingIn, Article.Form]
  constructor
  · intro h
    split at h
    · rename_i h1; simp only [Option.some.injEq] at h; rw [← h]; exact h1
    · simp at h
  · rintro rfl
    have : (((a.lowStem ++ e ++ a.post).drop a.lowStem.length).take
        ((a.lowStem ++ e ++ a.post).length - a.lowStem.length - a.post.length)) = e := by
      rw [List.append_assoc, List.drop_left]
      rw [show (a.lowStem ++ (e ++ a.post)).length - a.lowStem.length - a.post.length = e.length by
        simp only [List.length_append]; omega]
      simp
    rw [this]
    simp

/-- The limits within which articles can be compiled and looked up: those of the stem tree
(`Spec.Dict`), at most 255 endings per article, 64 of them equal, form numbers below 256, part of
speech below 64, no zero bytes in the text, at most 8192 word classes, an ending image below 64 K. -/
structure EngOk (A : List Byte) (as : List Article) : Prop where
  alpha : A.length < 128
  letters : ∀ b ∈ A, 0 < b ∧ b < 256
  stems : ∀ a ∈ as, ∀ b ∈ a.lowStem, b ∈ A
  short : ∀ a ∈ as, a.stem.length ≤ 48
  ids : ∀ a ∈ as, a.id < 2 ^ 32
  posts : ∀ a ∈ as, a.post.length < 128
  pos : ∀ a ∈ as, a.pos < 0x40
  text : ∀ a ∈ as, ∀ b ∈ a.flex ++ a.post, 0 < b ∧ b < 256
  few : ∀ a ∈ as, a.endings.length < 256
  equal : ∀ a ∈ as, ∀ e, (a.endings.filter fun p => p.1 = e).length ≤ 64
  ends : ∀ a ∈ as, ∀ p ∈ a.endings, p.1.length < 256 ∧ p.2 < 256
  count : as.length < 2 ^ 32
  classes : (engBuild as).classes.tab.length ≤ 8192
  flexes : (engBuild as).box.image.length < 65536
  size : (engBuild as).images.stemtree.length < 2 ^ 32

/-- No form is at risk of being missed (`Spec.Entries`, `Safe`): when the word is stem + suffix of an
article, every article of the same stem with another, shorter suffix that ends the word either comes
later (smaller largest first letter) or admits the first letter of the suffix. -/
def SuffixSafe (as : List Article) (w : List Byte) : Prop :=
  ∀ a ∈ as, w = a.lowStem ++ a.post → ∀ b, a.post.head? = some b →
    ∀ a0 ∈ as, a0.lowStem = a.lowStem → a0.post <:+ a.post → a0.post ≠ a.post →
      a.topLetter ≤ a0.topLetter → b ≤ a0.topLetter

theorem suffixSafe_of_none (as : List Article) (h : ∀ a ∈ as, a.post = []) (w : List Byte) : SuffixSafe as w := by
  intro a ha _ b hb
  rw [h a ha] at hb; simp at hb

end Libmorph

namespace Libmorph

/-- The article has this ending (an uninflected one has the empty ending only). -/
def Article.takes (a : Article) (e : List Byte) : Bool :=
  if a.Inflected then a.idsOf e ≠ [] else e = []

/-- The articles the word is a form of, with the ending, for those whose demand is admitted. -/
def matchesOf (as : List Article) (ok : Nat → Bool) (w : List Byte) : List (Article × List Byte) :=
  as.filterMap fun a => (a.endingIn w).bind fun e => if a.takes e && ok a.demand then some (a, e) else none

/-- The spelling of the word is admitted for a demand: capitals are ignored or good. -/
def admits (w : List Byte) (dwsets : Nat) (demand : Nat) : Bool := dwsets &&& 2 ≠ 0 || decide (CapsFit engTab w demand)

/-- The articles a word as spelled is a form of, with the endings, under the given settings. -/
def Matches (as : List Article) (w : List Byte) (dwsets : Nat) : List (Article × List Byte) :=
  matchesOf as (admits w dwsets) (w.map engTab.lower)

/-- `H` is the list of readings of a word: matching articles with their endings, none more often than it is
listed, longer stems first, and, when no form is at risk (`SuffixSafe`), all of them. -/
structure Readings (as : List Article) (w : List Byte) (dwsets : Nat) (H : List (Article × List Byte)) : Prop where
  sub : H.Subperm (Matches as w dwsets)
  full : SuffixSafe as (w.map engTab.lower) → H.Perm (Matches as w dwsets)
  order : H.Pairwise fun p q => q.1.lowStem.length ≤ p.1.lowStem.length

/-- The endings listed under a form number, in byte order. -/
def Article.endingsFor (a : Article) (i : Nat) : List (List Byte) :=
  ((a.endings.filter fun p => p.2 = i).map Prod.fst).mergeSort fun x y => !bytesLt y x

/-- The forms of an inflected article with a form number, in small letters. -/
def Article.formsWith (a : Article) (i : Nat) : List (List Byte) :=
  (a.endingsFor i).map fun e => a.lowStem ++ e ++ a.post

/-- Zero-terminated strings one after another. -/
def packed (fs : List (List Byte)) : List Byte := fs.flatMap fun f => f ++ [0]

/-- The forms of an article for a form number; 255 asks for an uninflected word itself. -/
def Article.formsFor (a : Article) (i : Nat) : List (List Byte) :=
  if a.Inflected then (if i = 255 then [] else a.formsWith i)
  else if i = 255 then [a.lowStem ++ a.post] else []

/-- The limits for lookup by lexeme id: ids below 2^24 (`C02`), an id tree below 4 GB. -/
structure IdsOk (as : List Article) : Prop where
  ids : ∀ a ∈ as, a.id < 2 ^ 24
  size : (engBuild as).images.lidstree.length < 2 ^ 32

/-- The outcome of writing strings into a buffer `B`: with no strings 0 and the buffer untouched; if they
and one byte more fit, their number and the strings one after another, each followed by a zero, then
one more zero, then the old content; otherwise LEMMBUFF_FAILED (-1) and a buffer of the same length.
`scratch` says that the strings of each word fit the library's own buffer of 256 bytes. -/
def FormOutcome (r : Option (Int × Option (List Byte))) (fs : List (List Byte)) (scratch : Prop) (B : List Byte) : Prop :=
  (fs = [] → scratch → r = some (0, some B)) ∧
  (fs ≠ [] → scratch → (packed fs).length + 1 ≤ B.length →
    r = some ((fs.length : Int), some (packed fs ++ 0 :: B.drop ((packed fs).length + 1)))) ∧
  ((¬ scratch ∨ (fs ≠ [] ∧ B.length < (packed fs).length + 1)) →
    ∃ b, r = some (-1, some b) ∧ b.length = B.length)

/-- The forms among which the dictionary form is chosen: those with the smallest form number below 16
that has any; for an uninflected word the word itself. -/
def Article.dictForms (a : Article) : List (List Byte) :=
  if a.Inflected then (((List.range 16).map a.formsWith).find? (fun l => !l.isEmpty)).getD [] else [a.lowStem]

/-- The dictionary form as printed: the first of them. -/
def Article.lemma (a : Article) : List Byte := printed a.demand (a.dictForms.headD [])

/-- The forms delivered for a form number: as `formsFor`, but an uninflected word without its suffix. -/
def Article.delivered (a : Article) (i : Nat) : List (List Byte) :=
  if a.Inflected then (if i = 255 then [] else a.formsWith i)
  else if i = 255 then [a.lowStem] else []

/-- The strings delivered for a list of articles, in print. -/
def deliveredAll (H : List Article) (i : Nat) : List (List Byte) :=
  H.flatMap fun a => (a.delivered i).map (printed a.demand)

end Libmorph
