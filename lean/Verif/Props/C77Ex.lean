import Verif.Props.C68Ex
import Verif.Props.C77
/-
C77: a case, with the sources of C68Ex.
-/
namespace Libmorph
open Spec

theorem pipe_defined : Defined pipeSrc.flex (ru "нсв_нп 5") [⟨ru "ть", 1, 0x83, ru "y"⟩, ⟨ru "ешь", 20, 0x83, ru "y"⟩] ∧
    Defined pipeSrc.flex (ru "y") [⟨ru "ся", 0x8000, 3, []⟩] := by
  constructor
  · refine ⟨pipeSrc.flex.take 2, ru "нсв_нп 5", pipeSrc.flex.drop 3, rfl, (mem_tabNames _ _).1 (by decide +kernel), ?_⟩
    intro p hp
    rw [← mem_tabNames]
    have : ∀ p ∈ pipeSrc.flex.take 2, ru "нсв_нп 5" ∉ tabNames p.1 := by decide +kernel
    exact this p hp
  · refine ⟨pipeSrc.flex.take 1, ru "y", pipeSrc.flex.drop 2, rfl, (mem_tabNames _ _).1 (by decide +kernel), ?_⟩
    intro p hp
    rw [← mem_tabNames]
    have : ∀ p ∈ pipeSrc.flex.take 1, ru "y" ∉ tabNames p.1 := by decide +kernel
    exact this p hp

theorem pipe_ids (A : SrcArticle) (h : InFiles pipeSrc pipeTexts A) : A.id < 2 ^ 24 := by
  obtain ⟨line, hline, arts, u, hs, hA⟩ := h
  obtain ⟨r, hr1, a, ha, hr⟩ := pipe_realizes line hline arts u hs A hA
  have key : ∀ r ∈ pipeResults, ∀ a ∈ RusLineResult.arts r, a.id < 2 ^ 24 := by decide +kernel
  rw [← hr.id]
  exact key r hr1 a ha

/-- By the sources, form 24 of the line of "смеяться" is "смеяешься", and form 1 (the infinitive; the word is reflexive) is the headword. -/
theorem pipe_form (A : SrcArticle) (h1 : A.stem = ru "смея") (h4 : A.post = []) (h5 : A.alt = none) (h6 : A.table = some (ru "нсв_нп 5")) (h7 : A.info = 2) :
    SrcFormNo pipeSrc.flex A 24 (ru "смеяешься") ∧ SrcLemma pipeSrc.flex A (ru "смеяться") := by
  have hd := pipe_defined.1
  have hy : SrcEnding pipeSrc.flex (ru "y") (ru "ся") 0x8000 3 := SrcEnding.here (l := ⟨ru "ся", 0x8000, 3, []⟩) pipe_defined.2 (by simp) rfl
  have e1 : SrcEnding pipeSrc.flex (ru "нсв_нп 5") (ru "ться") 0x8001 3 :=
    SrcEnding.next (l := ⟨ru "ть", 1, 0x83, ru "y"⟩) hd (by simp) (by decide) hy
  have e2 : SrcEnding pipeSrc.flex (ru "нсв_нп 5") (ru "ешься") 0x8014 3 :=
    SrcEnding.next (l := ⟨ru "ешь", 20, 0x83, ru "y"⟩) hd (by simp) (by decide) hy
  have hno : ∀ f, ¬ SrcFormAt pipeSrc.flex A (ru "нсв_нп 5") 1 3 f := by
    rintro f ⟨x, e, fl, he, _⟩
    exact pipe_heads.apart _ 1 (by simp) _ _ _ _ he e1
  have hat : SrcFormAt pipeSrc.flex A (ru "нсв_нп 5") 0x8001 3 (ru "смеяться") :=
    ⟨[], ru "ться", 3, e1, by decide, Or.inl ⟨h5, rfl⟩, by rw [h1, h4]; decide +kernel⟩
  have hg : dictGram A.info = 1 := by rw [h7]; decide
  refine ⟨Or.inr ⟨_, h6, by decide, by rw [h7]; decide, [], ru "ешься", 3, ?_, ?_, Or.inl ⟨h5, rfl⟩, ?_⟩, ?_, ?_⟩
  · rw [h7]; exact e2
  · rw [h7]; decide
  · rw [h1, h4]; decide +kernel
  · exact Or.inr ⟨_, h6, Or.inr ⟨Or.inl (by rw [h7]; decide), by rw [hg]; exact hno, by rw [hg]; exact hat⟩⟩
  · rintro f (⟨k, _⟩ | ⟨name, k, hf⟩)
    · rw [h6] at k; simp at k
    · rw [h6] at k; cases k
      rw [hg] at hf
      rcases hf with hf | ⟨_, _, hf⟩
      · exact absurd hf (hno f)
      · rw [formAt_unique (pipe_heads.once _ 0x8001 (by simp)) hf hat]
        exact bytesLt_irrefl _

/-- BuildForm of lexeme 14 has an answer by the sources, and FindForms of "Смеяться" for form 24 gives "смеяешься". -/
example : (∃ A, InFiles pipeSrc pipeTexts A ∧ A.id = 14 ∧ ∃ fs : List (List Byte), fs.Nodup ∧ (∀ f, f ∈ fs ↔ SrcBuiltNo pipeSrc.flex A 24 f) ∧
      FormOutcome (rusBuildForm (pipeState.images pipeTabs.mtab) (List.replicate 15 0) (some (List.replicate 30 77)) 14 24) (fs.map (rusPrinted A.demand))
        ((packed fs).length ≤ 256) (List.replicate 30 77)) ∧
    ∃ R : List (SrcArticle × List (List Byte)), (∃ p ∈ R, p.1.id = 14 ∧ ru "смеяешься" ∈ p.2) ∧ ∀ junk B, B ≠ [] →
      FormOutcome (rusFindForms (pipeState.images pipeTabs.mtab) junk (some B) (ru "Смеяться") 24 0)
        (R.flatMap fun p => p.2.map (rusPrinted p.1.demand)) (∀ p ∈ R, (packed p.2).length ≤ 256) B := by
  obtain ⟨A, hs, h1, h2, h3, ⟨h4, h5⟩, h6, h7⟩ := pipe_says
  have hl : ru "смеяться # нсв_нп 5 LID:14" ∈ pipeTexts.flatten := by decide +kernel
  have hin : InFiles pipeSrc pipeTexts A := ⟨_, hl, _, _, hs, by simp⟩
  obtain ⟨f1, f2⟩ := pipe_form A h1 h4 h5 h6 h7
  refine ⟨C77_build_form pipe_pipeline pipe_ids (by decide +kernel) (List.replicate 15 0) 14 24 (by decide) ⟨A, hin, h2⟩ _ (by decide), ?_⟩
  obtain ⟨R, r1, r2, r3⟩ := C77_find_forms_partial pipe_pipeline (ru "Смеяться") 0 24 (by decide +kernel) (by decide +kernel) (by decide +kernel)
  refine ⟨R, ?_, r3⟩
  have hk : Knows pipeSrc pipeTexts (ru "Смеяться") A := by
    refine ⟨_, hl, _, _, hs, by simp, ?_⟩
    rw [show (ru "Смеяться").map rusTab.lower = ru "смеяться" by decide +kernel]
    have hhead : Headword (ru "смеяться # нсв_нп 5 LID:14") (ru "смеяться") := by
      have := headword_of (line := ru "смеяться # нсв_нп 5 LID:14") (n := ru "смеяться") (d := ru "#") (t := ru "нсв_нп") (i := ru "5") (c := ru "LID:14") (by decide +kernel)
      rw [show plainWord (ru "смеяться") = ru "смеяться" by decide +kernel] at this
      exact this
    exact C69_headword pipe_pipeline hs (pipe_texts _ hl).2.2.2.2 hhead (by simp) (pipe_masc _ hl _ _ hs A (by simp))
  obtain ⟨p, hp, p1, _, p3⟩ := r2 (by
    rintro B ⟨line, hline, arts, u, hs, hB⟩ _ e
    obtain ⟨r, hr1, a, ha, hr⟩ := pipe_realizes line hline arts u hs B hB
    have key : ∀ r ∈ pipeResults, ∀ a ∈ RusLineResult.arts r, (ru "Смеяться").map rusTab.lower ≠ a.stem ++ a.post := by decide +kernel
    rw [← hr.stem, ← hr.post] at e
    exact key r hr1 a ha e) A hk (by rw [h3]; decide +kernel)
  exact ⟨p, hp, by rw [p1, h2], (p3 _).2 f1⟩

/-- What the images say: form 24 of lexeme 14; forms 24 of "Смеяться"; the part of speech. -/
example : rusBuildForm (pipeState.images pipeTabs.mtab) (List.replicate 15 0) (some (List.replicate 12 77)) 14 24 = some (1, some (ru "смеяешься" ++ [0, 0, 77])) ∧
    rusFindForms (pipeState.images pipeTabs.mtab) [] (some (List.replicate 12 77)) (ru "Смеяться") 24 0 = some (1, some (ru "смеяешься" ++ [0, 0, 77])) ∧
    rusWdInfo (pipeState.images pipeTabs.mtab) (List.replicate 15 0) 14 = some (1, some 2) := by
  decide +kernel

end Libmorph
