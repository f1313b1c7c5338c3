import Verif.Lemmas.Lid
/-
A small concrete dictionary, used to show that the hypotheses of the theorems can be met.
-/
namespace Libmorph

/-- Entries: "cat" (id 5, class 1, endings from nothing to 's'), "ca" with suffix "x" (id 7),
"cat" again (id 300, class 2, endings 'e'..'s'), "dog" (id 65536). -/
def sample : List (List Byte × Entry) :=
  [([99, 97, 116], ⟨0, 115, 5, 1, []⟩),
   ([99, 97], ⟨0, 0, 7, 0, [45, 120]⟩),
   ([99, 97, 116], ⟨101, 115, 300, 2, []⟩),
   ([100, 111, 103], ⟨0, 115, 65536, 1, []⟩)]

theorem sample_dictOk : DictOk [97, 99, 100, 103, 111, 116] sample := by
  refine ⟨by decide, by decide, by decide, by decide, by decide, by decide, by decide, by decide, ?_⟩
  decide +kernel

theorem sample_lidOk : LidOk sample := ⟨by decide, by decide +kernel⟩

end Libmorph
