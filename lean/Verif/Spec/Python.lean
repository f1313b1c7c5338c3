import Verif.Spec.Lemm
import Verif.Spec.Fuzzy
import Verif.Model.Python
/-
What the C++ and the Python interfaces are to deliver.
-/
namespace Libmorph

/-- The lexeme the C++ wrapper delivers for a record: its number, its dictionary form, the descriptions of its first
reading. -/
def groupLexeme (g : LemmGroup) : Lexeme := ⟨g.1.id, g.1.text, g.counted⟩

/-- The object Python gets for a record: the dictionary form unless strings were refused; the descriptions of the first
reading unless they were refused or there are none. -/
def pyRecord (dwsets : Nat) (g : LemmGroup) : PyLemm :=
  ⟨g.1.id, if dwsets &&& 4 = 0 then some g.1.text else none,
    if dwsets &&& 8 = 0 ∧ g.counted ≠ [] then some g.counted else none⟩

/-- What the C++ wrapper delivers for a lemma of the probabilistic analyser. -/
def fuzzyLexeme {ω : Type} (R : FuzzyRank ω) (L : FuzzyLang) (cs : List FuzzyClass) (w : List Byte) (strings descs : Bool)
    (x : FuzzyLemma) : FuzzyLexeme ω :=
  ⟨x.ccstem, x.cls, fuzzyWeight R cs w x, if strings then some (fuzzyText L cs w x) else none,
    if descs ∧ x.refs ≠ [] then some (x.refs.map fun r => ⟨(classOf cs x.cls).partSp, r.form, 0, 0⟩) else none⟩

end Libmorph
