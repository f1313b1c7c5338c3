import Verif.Props.C83
import Verif.Props.C68Ex
/-
C83: the sample of C68 with its lines in the opposite order, all in one file.
-/
namespace Libmorph
open Spec

/-- The lines in the opposite order. -/
def backTexts : List (List (List Byte)) := [pipeTexts.flatten.reverse]

theorem back_builds : (rusCompile pipeTabs id (backTexts.map fileOf)).isSome = true := by decide +kernel

def backState : RusState := ((rusCompile pipeTabs id (backTexts.map fileOf)).get back_builds).1

theorem back_unknown : ((rusCompile pipeTabs id (backTexts.map fileOf)).get back_builds).2 = [ru "нечто # x y LID:13", ru "// sample"] := by decide +kernel
theorem back_compile : rusCompile pipeTabs id (backTexts.map fileOf) = some (backState, [ru "нечто # x y LID:13", ru "// sample"]) := get_pair back_unknown
theorem back_mem (l : List Byte) : l ∈ backTexts.flatten ↔ l ∈ pipeTexts.flatten := by simp [backTexts]
theorem back_linesFit : ∀ lines ∈ backTexts, ∀ l ∈ lines, 10 ∉ l ∧ 0 ∉ l ∧ l.length < 1022 ∧ LineFits l := by
  intro lines hl l hm
  obtain ⟨h1, h2, h3, h4, _⟩ := pipe_texts l ((back_mem l).1 (List.mem_flatten.2 ⟨lines, hl, hm⟩))
  exact ⟨h1, h2, h3, h4⟩
theorem back_fitting : ∃ alphabet : List Byte, alphabet.length < 128 ∧ (∀ b ∈ alphabet, 0 < b ∧ b < 256) ∧
    ∀ line ∈ backTexts.flatten, ∀ arts unk, SrcLineSays pipeSrc lidNumber line arts unk → ∀ A ∈ arts, ArticleFits alphabet pipeSrc A :=
  ⟨pipeAlphabet, by decide +kernel, by decide +kernel, fun line hl => pipe_articles line ((back_mem line).1 hl)⟩
theorem back_count : backTexts.flatten.length < 2 ^ 31 := by decide
theorem back_classes : backState.classes.length ≤ 0x8000 := by decide +kernel
theorem back_plain : backState.plain.length < 2 ^ 20 := by decide +kernel
theorem back_size : (backState.images pipeTabs.mtab).stemtree.length < 2 ^ 32 := by decide +kernel

theorem back_pipeline : Pipeline id pipeFiles (ru "t/a.tf") (ru "c.mx") pipeSrc pipeTabs backTexts backState [ru "нечто # x y LID:13", ru "// sample"] :=
  ⟨pipeFiles_readable, ⟨2, pipe_flexImage⟩, ⟨1, pipe_mixImage⟩, pipe_flexText, pipe_mixText, pipe_fits, back_linesFit, back_compile, back_fitting, back_count, back_classes,
    back_plain, back_size⟩

/-- No two lines clash: the numbers differ. -/
theorem pipe_noClash : ∀ x ∈ pipeTexts.flatten, ∀ y ∈ pipeTexts.flatten, ¬ LinesClash pipeSrc lidNumber x y := by
  rintro x hx y hy ⟨hne, l, u, m, v, s1, s2, P, hP, Q, hQ, -, -, e⟩
  have key : ∀ x ∈ pipeTexts.flatten, ∀ y ∈ pipeTexts.flatten, x ≠ y → ∀ r ∈ rusLine pipeTabs x, ∀ r' ∈ rusLine pipeTabs y,
      ∀ a ∈ r.arts, ∀ b ∈ r'.arts, a.id ≠ b.id := by decide +kernel
  have hf := pipe_fit pipe_fits pipe_compiled
  obtain ⟨r, hr, hu⟩ := C60_line_total hf (pipe_texts x hx).2.2.2.1
  obtain ⟨r', hr', hu'⟩ := C60_line_total hf (pipe_texts y hy).2.2.2.1
  obtain ⟨L, t1, t2⟩ := says_of pipe_fits pipe_compiled s1
  obtain ⟨M, t3, t4⟩ := says_of pipe_fits pipe_compiled s2
  obtain ⟨a, ha, hra⟩ := forall₂_mem_left t2 hP
  obtain ⟨b, hb, hrb⟩ := forall₂_mem_left t4 hQ
  rw [← ((hu _ _).1 t1).1] at ha
  rw [← ((hu' _ _).1 t3).1] at hb
  exact key x hx y hy hne r hr r' hr' a ha b hb (by rw [hra.id, hrb.id, e])

/-- The two orders of the lines meet the hypotheses of `C83_lines`; the images are not the same. -/
theorem back_moved : Moved (LinesClash pipeSrc lidNumber) pipeTexts.flatten backTexts.flatten :=
  .of_perm (by simpa [backTexts] using (List.reverse_perm pipeTexts.flatten).symm) pipe_noClash

example : pipeState.images pipeTabs.mtab ≠ backState.images pipeTabs.mtab := by
  intro h
  have : (pipeState.images pipeTabs.mtab).classmap ≠ (backState.images pipeTabs.mtab).classmap := by decide +kernel
  exact this (congrArg RusImages.classmap h)

example : rusCheck (backState.images pipeTabs.mtab) [] (ru "Смеяться") 0 = some 1 := by
  rw [← ((C83_lines pipe_pipeline back_pipeline back_moved).1 (ru "Смеяться") [] 0 (by decide +kernel)).1]
  decide +kernel

/-- A part of the lines, and all of them. -/
example : rusCheck (backState.images pipeTabs.mtab) [] (ru "ивану") 2 = some 1 :=
  C83_growth_partial pipe_pipeline back_pipeline (fun l hl => (back_mem l).2 hl) (ru "ивану") [] 2 (by decide +kernel) (by decide +kernel) (by decide +kernel) (by
    intro line hl arts unk hs A hA hpost heq
    obtain ⟨r, h1, a, h2, h3⟩ := pipe_realizes line ((back_mem line).1 hl) arts unk hs A hA
    have : ∀ r ∈ pipeResults, ∀ a ∈ r.arts, (ru "ивану").map rusTab.lower ≠ a.stem ++ a.post := by decide +kernel
    exact this r h1 a h2 (by rw [h3.stem, h3.post, heq])) (by decide +kernel)

end Libmorph
