import Verif.Spec.Reports
/-
A small English dictionary that meets all the limits: the hypotheses of the theorems are not vacuous.
-/
namespace Libmorph

/-- "brother-in-law|0|s|'s|s' N post:-in-law" (makeeng.cpp, comment of `FindStemPostfix`), "out-of-the-way A",
"Paris|0|'s N", "brother|0|s N". -/
def engSample : List Article := [
  ⟨[98, 114, 111, 116, 104, 101, 114], [124, 48, 124, 115, 124, 39, 115, 124, 115, 39], 1, [45, 105, 110, 45, 108, 97, 119], 44344⟩,
  ⟨[111, 117, 116, 45, 111, 102, 45, 116, 104, 101, 45, 119, 97, 121], [], 3, [], 17729⟩,
  ⟨[80, 97, 114, 105, 115], [124, 48, 124, 39, 115], 1, [], 7⟩,
  ⟨[98, 114, 111, 116, 104, 101, 114], [124, 48, 124, 115], 1, [], 300⟩]

/-- The letters of the sample. -/
def engSampleLetters : List Byte := [45, 97, 98, 101, 102, 104, 105, 108, 110, 111, 112, 114, 115, 116, 117, 119, 121]

theorem engSample_ok : EngOk engSampleLetters engSample := by
  refine ⟨by decide, by decide, by decide +kernel, by decide, by decide, by decide, by decide, by decide, by decide +kernel, ?_,
    by decide +kernel, by decide, by decide +kernel, by decide +kernel, by decide +kernel⟩
  intro a ha e
  have h : ∀ a ∈ engSample, a.endings.length ≤ 64 := by decide +kernel
  exact Nat.le_trans (List.length_filter_le _ _) (h a ha)

theorem engSample_ids : IdsOk engSample := ⟨by decide, by decide +kernel⟩

end Libmorph
