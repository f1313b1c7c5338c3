import Verif.Spec.Fuzzy
/-
A small Russian fuzzy dictionary (code page 1251), for witnesses.
-/
namespace Libmorph

/-- Class 0: masculine nouns with the endings -, а, ов and the models (д)ом, (ст)ол; class 1: surnames with the endings
-, а and the model (Иван)ов. -/
def fuzzySample : List FuzzyClass :=
  [⟨7, false, [(0, []), (1, [224]), (7, [238, 226])], [⟨238, 236, 100, [228, 238, 236]⟩, ⟨238, 235, 40, [241, 242, 238, 235]⟩]⟩,
   ⟨38, false, [(0, []), (1, [224])], [⟨238, 226, 300, [232, 226, 224, 237, 238, 226]⟩]⟩]

/-- The tree of the reversed endings. -/
def fuzzySampleTree : PTree :=
  .node [] none
    [.node [224] none
      [.node [226, 238] (some [⟨1, 300, 1⟩]) [], .node [235, 238] (some [⟨0, 40, 1⟩]) [], .node [236, 238] (some [⟨0, 100, 1⟩]) []],
     .node [226, 238] (some [⟨1, 300, 0⟩])
      [.node [235, 238] (some [⟨0, 40, 7⟩]) [], .node [236, 238] (some [⟨0, 100, 7⟩]) []],
     .node [235, 238] (some [⟨0, 40, 0⟩]) [],
     .node [236, 238] (some [⟨0, 100, 0⟩]) []]

/-- A weight that counts: the length of the ending first, then the power of the model. -/
def sampleRank : FuzzyRank Nat := ⟨fun index power _ _ _ => 10000 * index + power, rusRankSizes⟩

/-- A sort: larger weights first. -/
def sampleSort (l : List (FuzzyStem Nat)) : List (FuzzyStem Nat) := l.insertionSort fun a b => b.weight ≤ a.weight

/-- Столов. -/
def stolov : List Byte := [209, 242, 238, 235, 238, 226]

end Libmorph
