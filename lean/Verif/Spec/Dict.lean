import Verif.Model.Stems
/-
When a list of (stem, entry) pairs can be compiled at all.
-/
namespace Libmorph

/-- The limits of the image format: stems are strings of at most 48 letters over an alphabet of
fewer than 128 non-zero bytes (the child counter has 7 bits), entries have 32-bit ids, 15-bit class
offsets and suffixes shorter than 128 bytes, and the image is smaller than 4 GB. -/
structure DictOk (A : List Byte) (l : List (List Byte × Entry)) : Prop where
  alpha : A.length < 128
  letters : ∀ b ∈ A, 0 < b ∧ b < 256
  stems : ∀ p ∈ l, ∀ b ∈ p.1, b ∈ A
  short : ∀ p ∈ l, p.1.length ≤ 48
  ids : ∀ p ∈ l, p.2.nlexid < 2 ^ 32
  classes : ∀ p ∈ l, p.2.oclass < 0x8000
  posts : ∀ p ∈ l, p.2.stpost.length < 128
  count : l.length < 2 ^ 32
  size : (stemImage (fileAll l)).length < 2 ^ 32

end Libmorph
