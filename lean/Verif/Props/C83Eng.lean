import Verif.Lemmas.EngTwo
import Verif.Props.C23
import Verif.Spec.EngSample
/-
C83 for English: the order of the articles, and a growing dictionary.
-/
namespace Libmorph
open Spec

section
variable {A A' : List Byte} {as as' : List Article}

/-- **C83** The English calls that take a word answer the same, in whatever order the articles were compiled. -/
theorem C83_english_words (t : Moved Article.Clash as as') (h : EngOk A as) (h' : EngOk A' as') (w junk : List Byte) (dwsets : Nat)
    (hparts : (wordParts engTab w).length ≤ 8) :
    checkWord (engBuild as).images junk w dwsets = checkWord (engBuild as').images junk w dwsets ∧
    (∀ L B G, lemmatize (engBuild as).images junk w L B G dwsets = lemmatize (engBuild as').images junk w L B G dwsets) ∧
    ∀ B idform, findForms (engBuild as).images junk B w idform dwsets = findForms (engBuild as').images junk B w idform dwsets :=
  ⟨eng_two_check t h h' w junk dwsets hparts, fun L B G => eng_two_lemmatize t h h' w junk dwsets hparts L B G,
    fun B idform => eng_two_findForms t h h' w junk idform dwsets hparts B⟩

/-- **C83** So do those that take a number. -/
theorem C83_english_numbers (t : Moved Article.Clash as as') (h : EngOk A as) (h' : EngOk A' as') (hi : IdsOk as) (hi' : IdsOk as') (junk : List Byte)
    (id : Nat) (hid : id < 2 ^ 32) (hj : (lexkey id).length + junk.length = 16) :
    getWdInfo (engBuild as).images junk id = getWdInfo (engBuild as').images junk id ∧
    ∀ B idform, buildForm (engBuild as).images junk B id idform = buildForm (engBuild as').images junk B id idform :=
  ⟨eng_two_wdInfo t h h' hi hi' junk id hid hj, fun B idform => eng_two_buildForm t h h' hi hi' junk id idform hid hj B⟩

/-- **C83** Articles added, in any places, take no word away from an English dictionary, as long as none is at risk because of a suffix (C41). -/
theorem C83_english_growth_partial (h : EngOk A as) (h' : EngOk A' as') (hs : ∀ a ∈ as, a ∈ as') (w junk : List Byte) (dwsets : Nat)
    (hne : w ≠ []) (hlen : w.length < 48) (hparts : (wordParts engTab w).length ≤ 8) (hsafe : SuffixSafe as' (w.map engTab.lower))
    (hw : checkWord (engBuild as).images junk w dwsets = some 1) : checkWord (engBuild as').images junk w dwsets = some 1 := by
  obtain ⟨a, ha, r⟩ := C41_sound h w junk dwsets (Or.inr (Or.inl ⟨hlen, hparts⟩)) hw
  exact (C41_found_partial h' w junk dwsets hne hlen hparts hsafe).1 ⟨a, hs a ha, r⟩

end

/-- **C83** refuted in full for English: "brother-in-law" is a word until "brother" is added in front of it. -/
theorem C83_english_growth_counterexample :
    checkWord (engBuild lostSuffix.tail).images [] [98, 114, 111, 116, 104, 101, 114, 45, 105, 110, 45, 108, 97, 119] 0 = some 1 ∧
    checkWord (engBuild lostSuffix).images [] [98, 114, 111, 116, 104, 101, 114, 45, 105, 110, 45, 108, 97, 119] 0 = some 0 :=
  ⟨C41_counterexample.2, C41_counterexample.1⟩

theorem engBack_ok : EngOk engSampleLetters engSample.reverse where
  alpha := engSample_ok.alpha
  letters := engSample_ok.letters
  stems := fun a ha => engSample_ok.stems a (List.mem_reverse.1 ha)
  short := fun a ha => engSample_ok.short a (List.mem_reverse.1 ha)
  ids := fun a ha => engSample_ok.ids a (List.mem_reverse.1 ha)
  posts := fun a ha => engSample_ok.posts a (List.mem_reverse.1 ha)
  pos := fun a ha => engSample_ok.pos a (List.mem_reverse.1 ha)
  text := fun a ha => engSample_ok.text a (List.mem_reverse.1 ha)
  few := fun a ha => engSample_ok.few a (List.mem_reverse.1 ha)
  equal := fun a ha => engSample_ok.equal a (List.mem_reverse.1 ha)
  ends := fun a ha => engSample_ok.ends a (List.mem_reverse.1 ha)
  count := by decide
  classes := by decide +kernel
  flexes := by decide +kernel
  size := by decide +kernel

/-- The hypotheses are met: the sample backwards has other images and the same answers. -/
theorem engBack_moved : Moved Article.Clash engSample engSample.reverse :=
  .of_perm (List.reverse_perm _).symm (by
    have : ∀ a ∈ engSample, ∀ b ∈ engSample, a.id = b.id → a = b := by decide
    exact fun a ha b hb hc => hc.2.2.2 (this a ha b hb hc.2.2.1))

example : (engBuild engSample).images.classmap ≠ (engBuild engSample.reverse).images.classmap := by decide +kernel

example : checkWord (engBuild engSample.reverse).images [] [80, 97, 114, 105, 115, 39, 115] 0 = some 1 := by
  rw [← (C83_english_words engBack_moved engSample_ok engBack_ok _ [] 0 (by decide +kernel)).1]
  decide +kernel

end Libmorph
