import Verif.Props.C82
/-
C82: cases; why files of an older dictionary must not be left in place.
-/
namespace Libmorph
open Spec

theorem imageFile_some (license nspace name : List Byte) (pieces : List (List Byte)) : ∃ t, imageFile license nspace name pieces = some t := by
  rw [imageFile, Dumper.close, Dumper.dump]
  exact ⟨_, Option.map_some _ _⟩

/-- Two of the files are not there, one is empty, one is cut anywhere. -/
example (n : Nat) (text : List Byte) (h : imageFile engLicense [] (cText "stemtree") [(engBuild engSample).images.stemtree] = some text) :
    linkEng [] [none, some [], some (text.take n), none] = none ∨
    linkEng [] [none, some [], some (text.take n), none] = some (engBuild engSample).images := by
  refine C82_compiled_english (Or.inl rfl) (by decide) (by decide) (by decide +kernel) (by decide +kernel) (by decide +kernel) (by decide +kernel) ?_
  obtain ⟨t, ht⟩ := imageFile_some engLicense [] (cText "classmap") [(engBuild engSample).images.classmap]
  refine ⟨Or.inl rfl, Or.inr ⟨[], t, ht, rfl⟩, Or.inr ⟨text.take n, text.drop n, ?_, rfl⟩, Or.inl rfl, trivial⟩
  rw [List.take_append_drop]
  exact h

/-- The older dictionary: box, boxes. -/
def crashOld : List Article := [⟨[98, 111, 120], [124, 48, 124, 101, 115], 1, [], 1⟩]
/-- The newer one: cat, cats. -/
def crashNew : List Article := [⟨[99, 97, 116], [124, 48, 124, 115], 1, [], 1⟩]

/-- The compiler writes stemtree.cpp and lidstree.cpp, then flexTree.cpp and classmap.cpp, over the older files (tools/buildmorph.h:159-172,
lang-eng/libdict/buildic/makeeng.cpp:198-209).  Stopped between the two pairs it leaves files of both dictionaries, which compile and link; the library takes
"cates", a word of neither, for known. -/
theorem C82_older_files :
    linkEng [] [imageFile engLicense [] (cText "flexTree") [(engBuild crashOld).images.flexTree],
        imageFile engLicense [] (cText "classmap") [(engBuild crashOld).images.classmap],
        imageFile engLicense [] (cText "stemtree") [(engBuild crashNew).images.stemtree],
        imageFile engLicense [] (cText "lidstree") [(engBuild crashNew).images.lidstree]] =
      some ⟨(engBuild crashNew).images.stemtree, (engBuild crashOld).images.flexTree, (engBuild crashOld).images.classmap, (engBuild crashNew).images.lidstree⟩ ∧
    checkWord ⟨(engBuild crashNew).images.stemtree, (engBuild crashOld).images.flexTree, (engBuild crashOld).images.classmap, (engBuild crashNew).images.lidstree⟩
      (List.replicate 60 0) [99, 97, 116, 101, 115] 0 = some 1 ∧
    checkWord (engBuild crashOld).images (List.replicate 60 0) [99, 97, 116, 101, 115] 0 = some 0 ∧
    checkWord (engBuild crashNew).images (List.replicate 60 0) [99, 97, 116, 101, 115] 0 = some 0 := by
  refine ⟨?_, by decide +kernel, by decide +kernel, by decide +kernel⟩
  obtain ⟨_, b2, b3, _⟩ := engImages_bytes (as := crashOld) (by unfold AllBytes; decide)
  obtain ⟨b1, _, _, b4⟩ := engImages_bytes (as := crashNew) (by unfold AllBytes; decide)
  have r2 := readFile (name := cText "flexTree") (nspace := []) C78_license.2 (Or.inl rfl) (isName (by decide) (by decide) (by decide) (by decide))
    (image := (engBuild crashOld).images.flexTree) (by decide +kernel) (by decide +kernel) b2
  have r4 := readFile (name := cText "classmap") (nspace := []) C78_license.2 (Or.inl rfl) (isName (by decide) (by decide) (by decide) (by decide))
    (image := (engBuild crashOld).images.classmap) (by decide +kernel) (by decide +kernel) b3
  have r5 := readFile (name := cText "stemtree") (nspace := []) C78_license.2 (Or.inl rfl) (isName (by decide) (by decide) (by decide) (by decide))
    (image := (engBuild crashNew).images.stemtree) (by decide +kernel) (by decide +kernel) b1
  have r6 := readFile (name := cText "lidstree") (nspace := []) C78_license.2 (Or.inl rfl) (isName (by decide) (by decide) (by decide) (by decide))
    (image := (engBuild crashNew).images.lidstree) (by decide +kernel) (by decide +kernel) b4
  rw [linkEng, declsOf]
  simp only [List.mapM_cons, List.mapM_nil, r2, r4, r5, r6, scopeOf, if_true]
  rfl

end Libmorph
