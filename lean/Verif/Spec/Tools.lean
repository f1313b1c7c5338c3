import Verif.Spec.Json
import Verif.Spec.Python
import Verif.Model.Tools
/-
What the command line tools are to print.
-/
namespace Libmorph

/-- The part of speech of a record. -/
def posOf (g : LemmGroup) : Nat := (g.counted.headD ⟨0, 0, 0, 0⟩).wdInfo % 64

/-- The JSON object of a record: dictionary form (converted to the code page), lexeme number, part of speech, form numbers of the
first reading. -/
def lemmaJson (conv : List Byte → List Byte) (g : LemmGroup) : JVal :=
  .obj [(asciiBytes "lemma", .str (conv g.1.text)), (asciiBytes "lexid", .int g.1.id), (asciiBytes "psp", .int (posOf g)),
    (asciiBytes "forms", .arr (g.counted.map fun d => .int d.idForm))]

/-- The text `printf( "%6.4f" )` gives for a number that is finite and not negative: spaces, digits, a point, digits; no zero in
front of other digits. -/
structure ScoreText (t value : List Byte) : Prop where
  shape : ∃ k d f, t = List.replicate k 32 ++ value ∧ value = d ++ 46 :: f ∧ (∀ b ∈ d ++ f, 48 ≤ b ∧ b ≤ 57) ∧ d ≠ [] ∧ f ≠ [] ∧
    (d.head? = some 48 → d = [48])

/-- The JSON object of a lemma of the probabilistic analyser, its weight printed as `score`. -/
def stemJson (L : FuzzyLang) (cs : List FuzzyClass) (w : List Byte) (score : FuzzyLemma → List Byte) (x : FuzzyLemma) : JVal :=
  .obj [(asciiBytes "lemma", .str (fuzzyText L cs w x)), (asciiBytes "score", .num (score x)), (asciiBytes "class", .int x.cls),
    (asciiBytes "psp", .int ((classOf cs x.cls).partSp % 64 : Nat)), (asciiBytes "forms", .arr (x.refs.map fun r => .int r.form))]

/-- As `stemJson`, the dictionary form converted by `conv`. -/
def stemJsonIn (conv : List Byte → List Byte) (L : FuzzyLang) (cs : List FuzzyClass) (w : List Byte) (score : FuzzyLemma → List Byte)
    (x : FuzzyLemma) : JVal :=
  .obj [(asciiBytes "lemma", .str (conv (fuzzyText L cs w x))), (asciiBytes "score", .num (score x)), (asciiBytes "class", .int x.cls),
    (asciiBytes "psp", .int ((classOf cs x.cls).partSp % 64 : Nat)), (asciiBytes "forms", .arr (x.refs.map fun r => .int r.form))]

end Libmorph
