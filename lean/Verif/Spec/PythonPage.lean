import Verif.Spec.Python
/-
What Python gets when the library works in another code page.
-/
namespace Libmorph

/-- The object Python gets for a record when the library works in another code page: as in 1251, the dictionary form converted. -/
def pyRecordIn (conv : List Byte → List Byte) (dwsets : Nat) (g : LemmGroup) : PyLemm :=
  ⟨g.1.id, if dwsets &&& 4 = 0 then some (conv g.1.text) else none,
    if dwsets &&& 8 = 0 ∧ g.counted ≠ [] then some g.counted else none⟩

/-- What Python gets for a lemma of the probabilistic analyser when it works in another code page and the strings are wanted: the dictionary form
converted; the length of the stem is that of the converted stem. -/
def fuzzyLexemeIn {ω : Type} (conv : List Byte → List Byte) (R : FuzzyRank ω) (L : FuzzyLang) (cs : List FuzzyClass) (w : List Byte) (descs : Bool)
    (x : FuzzyLemma) : FuzzyLexeme ω :=
  ⟨(conv ((fuzzyText L cs w x).take x.ccstem)).length, x.cls, fuzzyWeight R cs w x, some (conv (fuzzyText L cs w x)),
    if descs ∧ x.refs ≠ [] then some (x.refs.map fun r => ⟨(classOf cs x.cls).partSp, r.form, 0, 0⟩) else none⟩

end Libmorph
