import Verif.Props.C78
/-
C78: cases.
-/
namespace Libmorph
open Spec

theorem name_flexTree : CName (cText "flexTree") := ⟨⟨⟨102, cText "lexTree", by decide, by decide⟩, by decide⟩, by decide⟩
theorem name_space : CName (cText "__libmorphrus__") := ⟨⟨⟨95, cText "_libmorphrus__", by decide, by decide⟩, by decide⟩, by decide⟩

/-- The text of an image of 13 bytes, without a license and a namespace. -/
example : imageFile [] [] (cText "x") [[0, 1, 2], [], [16, 255], [127, 1, 1, 1, 1, 1, 1, 10]] =
    some (cText "  unsigned char x[] =\n  {\n    0x00,0x01,0x02,0x10,0xff,0x7f,0x01,0x01,0x01,0x01,0x01,0x01,\n    0x0a\n  };\n") := by decide +kernel

/-- In a namespace, with the license: what is compiled. -/
example : ∃ text, imageFile rusLicense (cText "__libmorphrus__") (cText "flexTree") [[0, 1, 2], [], [16, 255]] = some text ∧
    cRead text = some [⟨[cText "__libmorphrus__"], cText "flexTree", 8, true, [0, 1, 2, 16, 255]⟩] :=
  C78_array (Or.inr C78_license.1) (Or.inr name_space.path) name_flexTree (by decide) (by decide) (by decide)

/-- The namespaces of the libraries as they are built (CMakeLists.txt:7 of lang-rus/libdict and lang-rus/libprob). -/
theorem name_libmorph_rus : CPath (cText "libmorph::rus") :=
  ⟨[cText "libmorph", cText "rus"], by decide, by
    intro n hn
    simp only [List.mem_cons, List.not_mem_nil, or_false] at hn
    rcases hn with rfl | rfl
    · exact ⟨⟨⟨108, cText "ibmorph", by decide, by decide⟩, by decide⟩, by decide⟩
    · exact ⟨⟨⟨114, cText "us", by decide, by decide⟩, by decide⟩, by decide⟩, by decide⟩
theorem name_libfuzzy_rus : CPath (cText "libfuzzy::rus") :=
  ⟨[cText "libfuzzy", cText "rus"], by decide, by
    intro n hn
    simp only [List.mem_cons, List.not_mem_nil, or_false] at hn
    rcases hn with rfl | rfl
    · exact ⟨⟨⟨108, cText "ibfuzzy", by decide, by decide⟩, by decide⟩, by decide⟩
    · exact ⟨⟨⟨114, cText "us", by decide, by decide⟩, by decide⟩, by decide⟩, by decide⟩
example : ∃ text, imageFile rusLicense (cText "libmorph::rus") (cText "flexTree") [[0, 1, 2], [], [16, 255]] = some text ∧
    cRead text = some [⟨[cText "libmorph", cText "rus"], cText "flexTree", 8, true, [0, 1, 2, 16, 255]⟩] :=
  C78_array (Or.inr C78_license.1) (Or.inr name_libmorph_rus) name_flexTree (by decide) (by decide) (by decide)

/-- Seven classes; the offsets are on two lines. -/
example : ∃ text, fuzzyFile (cText "__libmorphrus__") [[1], [2, 2], [3], [4], [5], [6], [7]] [[9], [8]] = some text ∧
    cRead text = some [⟨[cText "__libmorphrus__"], cText "ClassNumber", 32, false, [7]⟩,
      ⟨[cText "__libmorphrus__"], cText "ClassOffset", 32, true, [0, 1, 3, 4, 5, 6, 7]⟩,
      ⟨[cText "__libmorphrus__"], cText "ClassTables", 8, true, [1, 2, 2, 3, 4, 5, 6, 7]⟩,
      ⟨[cText "__libmorphrus__"], cText "ReverseDict", 8, true, [9, 8]⟩] :=
  C78_fuzzy (Or.inr name_space.path) (by decide) (by decide) (by decide) (by decide) (by decide) (by decide) (by decide)

/-- Its text, with one class. -/
example : fuzzyFile [] [[1]] [[9]] = some (cText "  unsigned  ClassNumber = 1;\n\n  unsigned  ClassOffset[] =\n  {\n    0x000000\n  };\n" ++
    cText "  unsigned char ClassTables[] =\n  {\n    0x01\n  };\n  unsigned char ReverseDict[] =\n  {\n    0x09\n  };\n") := by decide +kernel

end Libmorph
