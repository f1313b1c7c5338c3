import Verif.Model.RusTables
import Verif.Spec.Trie
/-
What the Russian compact ending tables mean, and when they can be compiled.
-/
namespace Libmorph.Spec

/-- The element `i` stands in the compact table at the reference `tfoffs`. -/
def InTable (ftab : List Byte) (tfoffs : Nat) (i : CItem) : Prop :=
  ∃ l, compactTable ftab tfoffs = some l ∧ i ∈ l

/-- `w` is an ending of the table at `tfoffs`, with description `g` and flags `fl`: either an element
that stands for itself (flag 0x80 absent), or an element and an ending of the table it refers to; the
descriptions are united, the flags intersected. -/
inductive Ending (ftab : List Byte) : Nat → List Byte → Nat → Nat → Prop where
  | here {tfoffs : Nat} {i : CItem} : InTable ftab tfoffs i → i.flags &&& 0x80 = 0 →
      Ending ftab tfoffs i.flex i.gr i.flags
  | next {tfoffs : Nat} {i : CItem} {w : List Byte} {g fl : Nat} : InTable ftab tfoffs i → i.next ≠ 0 →
      Ending ftab i.next w g fl → Ending ftab tfoffs (i.flex ++ w) (i.gr ||| g) (i.flags &&& fl)

/-- The limits of the image: endings over an alphabet of fewer than 128 non-zero bytes, at most 64
descriptions for one ending, bytes that are bytes. -/
structure FlexOk (ftab : List Byte) (A : List Byte) (tfoffs : Nat) : Prop where
  bytes : ∀ b ∈ ftab, b < 256
  alpha : A.length < 128
  letters : ∀ b ∈ A, 0 < b ∧ b < 256
  endings : ∀ w g fl, Ending ftab tfoffs w g fl → ∀ b ∈ w, b ∈ A
  few : ∀ (w : List Byte) (l : List FlexInfo), l.Nodup → (∀ d ∈ l, Ending ftab tfoffs w d.gramm d.flags) → l.length ≤ 64

/-- The alternation table made from a list of (alternant, step): lang-rus/libdict/tools/makeich/mtable.h:84-85. -/
def mixOf (hist : List (List Byte × Nat)) : List Mix := hist.foldl (fun l p => addStep p.1 p.2 l) []

/-- The alternant `s` serves level `k` (0, 1, 2, ...): it was listed for it, or it is a basic alternant
(level 0) and none was listed for level `k`. -/
def Serves (hist : List (List Byte × Nat)) (s : List Byte) (k : Nat) : Prop :=
  (s, k) ∈ hist ∨ ((s, 0) ∈ hist ∧ k < 3 ∧ ∀ s', (s', k) ∉ hist)

/-- The limits of an alternation table: fewer than 256 alternants of fewer than 16 letters, levels 0 to 3. -/
structure MixOk (hist : List (List Byte × Nat)) : Prop where
  count : hist.length < 256
  short : ∀ p ∈ hist, p.1.length < 16
  levels : ∀ p ∈ hist, p.2 < 4

end Libmorph.Spec
