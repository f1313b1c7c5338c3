import Verif.Props.C80
import Verif.Props.C68
import Verif.Lemmas.ClassTable
import Verif.Props.C78Ex
import Verif.Spec.RusSample
import Verif.Spec.EngSample
import Verif.Spec.FuzzySample
/-
C80: from the source texts to the linked library; cases.
-/
namespace Libmorph
open Spec

/-- **C80, from the sources.**  Tables of endings, alternations and dictionary texts through the compilers, the C++ files and the linker: the library has the images
about which C68, C69 and C77 are.  (The compiled tables are files, hence bytes.) -/
theorem C80_sources {conv : List Byte → List Byte} {fs : List Byte → Option (List Byte)} {endings alternations : List Byte} {Z : RusSrc} {T : RusTabs}
    {files : List (List (List Byte))} {st : RusState} {nspace : List Byte} {unk : List (List Byte)} (h : Pipeline conv fs endings alternations Z T files st unk)
    (hs : nspace = [] ∨ CPath nspace) (hf : ∀ b ∈ T.ftab, b < 256) (hm : ∀ b ∈ T.mtab, b < 256) (hm0 : T.mtab ≠ []) (l3 : T.mtab.length < 2 ^ 32)
    (hne : st.entries ≠ []) (l4 : (st.images T.mtab).classmap.length < 2 ^ 32) (l5 : (st.images T.mtab).lidstree.length < 2 ^ 32) :
    linkRus nspace (rusLibrary nspace T.mtab st) = some (st.images T.mtab, mixTypes) := by
  obtain ⟨alphabet, os, _, _, k3⟩ := h.images
  refine C80_russian hs k3.built ?_ hf hm hm0 (fun a ha b hb => (k3.text a ha b hb).2) k3.size (Nat.lt_of_lt_of_le h.plain (by decide)) l3 l4 l5
  intro he
  have hb := k3.built
  rw [he, rusBuild] at hb
  simp only [List.foldlM_nil] at hb
  have := Option.some.inj hb
  rw [← this] at hne
  exact hne rfl

/-! ### Cases -/

example : linkRus (cText "__libmorphrus__") (rusLibrary (cText "__libmorphrus__") rusSample.mtab rusSampleState) = some (rusSampleState.images rusSample.mtab, mixTypes) :=
  C80_russian (Or.inr name_space.path) rusSample_ok.built (by decide) (by decide) (by decide) (by decide) (by decide) rusSample_ok.size
    (Nat.lt_of_lt_of_le rusSample_ok.plain (by decide)) (by decide) (by decide +kernel) (by decide +kernel)

/-- A word checked with the linked library. -/
example : (linkRus (cText "__libmorphrus__") (rusLibrary (cText "__libmorphrus__") rusSample.mtab rusSampleState)).bind
    (fun p => rusCheck p.1 (List.replicate 20 0) [241, 238, 237] 0) = rusCheck (rusSampleState.images rusSample.mtab) (List.replicate 20 0) [241, 238, 237] 0 := by
  rw [C80_russian (Or.inr name_space.path) rusSample_ok.built (by decide) (by decide) (by decide) (by decide) (by decide) rusSample_ok.size
    (Nat.lt_of_lt_of_le rusSample_ok.plain (by decide)) (by decide) (by decide +kernel) (by decide +kernel)]
  rfl

example : linkEng [] (engLibrary [] (engBuild engSample)) = some (engBuild engSample).images :=
  C80_english (Or.inl rfl) (by decide) (by decide) (by decide +kernel) (by decide +kernel) (by decide +kernel) (by decide +kernel)

example : linkFuzzy (cText "libfuzzy::rus") (fuzzyFile (cText "libfuzzy::rus") (fuzzySample.map FuzzyClass.ser) [fuzzySampleTree.ser]) =
    some (fuzzyImages fuzzySample fuzzySampleTree) :=
  C80_fuzzy (Or.inr name_libfuzzy_rus) (by decide)
    (fun c hc => ⟨(by decide : ∀ c ∈ fuzzySample, c.partSp < 256) c hc, (by decide : ∀ c ∈ fuzzySample, ∀ f ∈ c.flexes, f.1 < 256 ∧ ∀ b ∈ f.2, b < 256) c hc,
      (by decide : ∀ c ∈ fuzzySample, ∀ m ∈ c.models, m.s0 < 256 ∧ m.s1 < 256 ∧ ∀ b ∈ m.sample, b < 256) c hc⟩)
    (by simp [fuzzySampleTree, PTree.Text, PTree.Texts]) (by decide +kernel) (by decide +kernel)

/-- A dictionary without articles makes a file of classes that does not compile. -/
example : linkEng [] (engLibrary [] (engBuild [])) = none := by
  obtain ⟨text, h1, h2⟩ := C78_empty (license := engLicense) (nspace := []) (name := cText "classmap") (pieces := [[]]) (Or.inr C78_license.2) (Or.inl rfl)
    (isName (by decide) (by decide) (by decide) (by decide)) rfl
  have e : (engBuild []).images.classmap = [] := rfl
  rw [linkEng, declsOf, engLibrary]
  simp only [List.mapM_cons, e, h1, Option.bind_some, h2]
  cases (imageFile engLicense [] (cText "flexTree") [(engBuild []).images.flexTree]).bind cRead <;> rfl

end Libmorph
