import Verif.Model.ClassText
/-
The text of the classes: the JSON value meant, and what the texts in it may contain.
-/
namespace Libmorph

/-- A model as a JSON object. -/
def modelJson (conv : List Byte → List Byte) (s : ClassSample) : JVal :=
  .obj [(asciiBytes "suffix", .str (conv [s.suffix.s0, s.suffix.s1])), (asciiBytes "weight", .int s.mdProd), (asciiBytes "sample", .str (conv s.sample))]

/-- An ending as a JSON object. -/
def flexJson (conv : List Byte → List Byte) (f : MForm) : JVal := .obj [(asciiBytes "id", .int f.1), (asciiBytes "sz", .str (conv f.2))]

/-- A class as a JSON object: part of speech, weight, number, accent, models, endings. -/
def classJson (conv : List Byte → List Byte) (i : Nat) (c : ClassKey × ClassVal) : JVal :=
  .obj ([(asciiBytes "partSp", JVal.int c.1.1), (asciiBytes "rate", .int c.2.modProd), (asciiBytes "index", .int i)] ++
    (if c.2.schemeB then [(asciiBytes "accent", .str (asciiBytes "b"))] else []) ++
    [(asciiBytes "models", .arr (c.2.charSet.map (modelJson conv))), (asciiBytes "inflex", .arr (c.1.2.map (flexJson conv)))])

/-- The classes, numbered. -/
def classesJson (conv : List Byte → List Byte) (m : ClassMap) : JVal :=
  .obj [(asciiBytes "created", .int m.length), (asciiBytes "classes", .arr (m.mapIdx (classJson conv)))]

/-- A text that can stand in a JSON string as it is: no quotation mark, no backslash, no control character. -/
def PlainText (t : List Byte) : Prop := ∀ b ∈ t, 32 ≤ b ∧ b ≠ 34 ∧ b ≠ 92

/-- The texts of a class can be printed: converted they are plain. -/
structure ClassPlain (conv : List Byte → List Byte) (c : ClassKey × ClassVal) : Prop where
  suffix : ∀ s ∈ c.2.charSet, PlainText (conv [s.suffix.s0, s.suffix.s1])
  sample : ∀ s ∈ c.2.charSet, PlainText (conv s.sample)
  ending : ∀ f ∈ c.1.2, PlainText (conv f.2)

/-- The numbers of a class fit the format: counters of 31 bits, bytes. -/
structure ClassFits (c : ClassKey × ClassVal) : Prop where
  partSp : c.1.1 < 256
  rate : c.2.modProd < 2 ^ 31
  weight : ∀ s ∈ c.2.charSet, s.mdProd < 2 ^ 31
  form : ∀ f ∈ c.1.2, f.1 < 256
  models : c.2.charSet ≠ []
  inflex : c.1.2 ≠ []

/-- The conversion back undoes the conversion of the texts of a class. -/
structure ClassBack (conv back : List Byte → List Byte) (c : ClassKey × ClassVal) : Prop where
  suffix : ∀ s ∈ c.2.charSet, back (conv [s.suffix.s0, s.suffix.s1]) = [s.suffix.s0, s.suffix.s1]
  sample : ∀ s ∈ c.2.charSet, back (conv s.sample) = s.sample
  ending : ∀ f ∈ c.1.2, back (conv f.2) = f.2

end Libmorph
