import Verif.Props.C76
import Verif.Props.C30
/-
C97: from the lines of an English dictionary to FindMatch.
-/
namespace Libmorph
open Spec

/-- The line gives the form `m` under the lexeme id `n`: a form with its number of the article it says, or, when the article is not inflected, its word without
the suffix and the number 255. -/
def LineReports (line : List Byte) (n : Nat) (m : StrMatch) : Prop :=
  ∃ a, LineSays lidNumber line (some a) ∧ a.id = n ∧
    ((a.Inflected ∧ ∃ e, (e, m.id) ∈ a.endings ∧ m.text = a.lowStem ++ e ++ a.post) ∨ (¬ a.Inflected ∧ m.id = 255 ∧ m.text = a.lowStem))

/-- **C97** FindMatch with the dictionary compiled from English texts: always defined; what it reports fits the template and is given by some line under the id it is
reported with; a form the lines give that fits the template is reported.  Missing: forms of inflected articles with a suffix whose ending is empty. -/
theorem C97_english_partial {A : List Byte} (files : List (List (List Byte)))
    (h : ∀ lines ∈ files, ∀ l ∈ lines, 10 ∉ l ∧ 0 ∉ l ∧ l.length < 1022) (os : List (Option Article))
    (hos : List.Forall₂ (LineSays lidNumber) files.flatten os) (hok : EngOk A (os.filterMap id)) (hw : WildOk (os.filterMap id)) :
    ∃ st, engCompile id (files.map fileOf) = some (some st) ∧
      ∀ tail smatch client str, tail ≠ [] → smatch.length = 48 → str ≠ [] → str.length < 48 → (wordParts engTab str).length ≤ 8 →
        ∃ C, findMatch st.images tail smatch client str = some (if C = [] then 0 else client C, C) ∧
          (∀ c ∈ C, c.2 ≠ [] ∧ ∀ m ∈ c.2, WildMatch (str.map engTab.lower) m.text ∧ ∃ line ∈ files.flatten, LineReports line c.1 m) ∧
          (∀ line ∈ files.flatten, ∀ n m, LineReports line n m → WildMatch (str.map engTab.lower) m.text →
            (∀ a, LineSays lidNumber line (some a) → a.post = [] ∨ ¬ a.Inflected ∨ m.text ≠ a.lowStem ++ a.post) → ∃ c ∈ C, c.1 = n ∧ m ∈ c.2) := by
  obtain ⟨m1, m2⟩ := forall₂_mem hos
  refine ⟨_, (C55_files files h _).2 ⟨os, hos, rfl⟩, ?_⟩
  intro tail smatch client str ht hb hne hlen hparts
  obtain ⟨C, h1, h2, -⟩ := C31_exact_partial hok hw tail smatch ht hb client str hne hlen hparts
  refine ⟨C, h1, ?_, ?_⟩
  · intro c hc
    refine ⟨h2.nonempty c hc, fun m hm => ?_⟩
    obtain ⟨n, C', k1, k2⟩ := C30_sound hok hw tail smatch ht hb client str hne hlen hparts
    rw [h1] at k1
    simp only [Option.some.injEq, Prod.mk.injEq] at k1
    obtain ⟨e1, a, ha, e2, e3⟩ := k2 c (by rw [← k1.2]; exact hc) m hm
    obtain ⟨o, ho, hoa⟩ := List.mem_filterMap.1 ha
    obtain ⟨line, hl, hs⟩ := m1 o ho
    have hoa : o = some a := hoa
    exact ⟨e1, line, hl, a, by rw [← hoa]; exact hs, e2, e3⟩
  · rintro line hl n ⟨text, i⟩ ⟨a, hs, rfl, hm⟩ hfit hmid
    obtain ⟨o, ho, ho'⟩ := m2 line hl
    have ha : a ∈ os.filterMap id := List.mem_filterMap.2 ⟨o, ho, by rw [← lineSays_unique hs ho']; rfl⟩
    refine (h2.mem a.id _).2 ⟨a, ha, rfl, ?_⟩
    simp only at hm hfit
    have hmid := hmid a hs
    rcases hm with ⟨hi, e, he, rfl⟩ | ⟨hi, rfl, rfl⟩
    · refine ⟨by rw [Article.wildForms, if_pos hi]; exact List.mem_map.2 ⟨_, he, rfl⟩, hfit, fun _ => ⟨e, he, rfl, ?_⟩⟩
      rcases hmid with k | k | k
      · exact Or.inr (Or.inl k)
      · exact absurd hi k
      · exact Or.inl fun e0 => k (by subst e0; simp)
    · refine ⟨by rw [Article.wildForms, if_neg hi]; simp, hfit, fun h0 => absurd h0 hi⟩

/-- **C97** FindMatch with the dictionary compiled from English texts, exactly: reported are the forms of the lines that fit the template, but for those with an empty ending
and a suffix which the search does not see (`Article.WildSeen`); each call of the client is for one lexeme, with forms that differ; a template with no asterisk but
at its end is answered with one call for a lexeme, when the lines have different ids. -/
theorem C97_english_exact {A : List Byte} (files : List (List (List Byte)))
    (h : ∀ lines ∈ files, ∀ l ∈ lines, 10 ∉ l ∧ 0 ∉ l ∧ l.length < 1022) (os : List (Option Article))
    (hos : List.Forall₂ (LineSays lidNumber) files.flatten os) (hok : EngOk A (os.filterMap id)) (hw : WildOk (os.filterMap id)) :
    ∃ st, engCompile id (files.map fileOf) = some (some st) ∧
      ∀ tail smatch client str, tail ≠ [] → smatch.length = 48 → str ≠ [] → str.length < 48 → (wordParts engTab str).length ≤ 8 →
        ∃ C, findMatch st.images tail smatch client str = some (if C = [] then 0 else client C, C) ∧
          (∀ n m, (∃ c ∈ C, c.1 = n ∧ m ∈ c.2) ↔ ∃ line ∈ files.flatten, ∃ a, LineSays lidNumber line (some a) ∧ a.id = n ∧ WildMatch (str.map engTab.lower) m.text ∧
            ((a.Inflected ∧ ∃ e, (e, m.id) ∈ a.endings ∧ m.text = a.lowStem ++ e ++ a.post ∧ a.WildSeen (str.map engTab.lower) e) ∨
             (¬ a.Inflected ∧ m.id = 255 ∧ m.text = a.lowStem))) ∧
          (∀ c ∈ C, c.2 ≠ [] ∧ c.2.Nodup) ∧ C.IsChain (fun c d => c.1 ≠ d.1) ∧
          (StarLast (str.map engTab.lower) → ((os.filterMap id).map Article.id).Nodup → (C.map Prod.fst).Nodup) := by
  obtain ⟨m1, m2⟩ := forall₂_mem hos
  refine ⟨_, (C55_files files h _).2 ⟨os, hos, rfl⟩, ?_⟩
  intro tail smatch client str ht hb hne hlen hparts
  obtain ⟨C, h1, h2, h3⟩ := C31_exact_partial hok hw tail smatch ht hb client str hne hlen hparts
  refine ⟨C, h1, ?_, fun c hc => ⟨h2.nonempty c hc, h2.nodup c hc⟩, h2.change, h3⟩
  rintro n ⟨text, i⟩
  rw [h2.mem]
  constructor
  · rintro ⟨a, ha, e1, hf, e2, e3⟩
    obtain ⟨o, ho, hoa⟩ := List.mem_filterMap.1 ha
    obtain ⟨line, hl, hs⟩ := m1 o ho
    have hoa : o = some a := hoa
    refine ⟨line, hl, a, by rw [← hoa]; exact hs, e1, e2, ?_⟩
    by_cases hi : a.Inflected
    · exact Or.inl ⟨hi, e3 hi⟩
    · rw [Article.wildForms, if_neg hi, List.mem_singleton] at hf
      simp only [StrMatch.mk.injEq] at hf
      exact Or.inr ⟨hi, hf.2, hf.1⟩
  · rintro ⟨line, hl, a, hs, e1, e2, e3⟩
    obtain ⟨o, ho, ho'⟩ := m2 line hl
    have ha : a ∈ os.filterMap id := List.mem_filterMap.2 ⟨o, ho, by rw [← lineSays_unique hs ho']; rfl⟩
    simp only at e3 e2
    rcases e3 with ⟨hi, e, k1, rfl, k3⟩ | ⟨hi, rfl, rfl⟩
    · refine ⟨a, ha, e1, by rw [Article.wildForms, if_pos hi]; exact List.mem_map.2 ⟨_, k1, rfl⟩, e2, fun _ => ⟨e, k1, rfl, k3⟩⟩
    · exact ⟨a, ha, e1, by rw [Article.wildForms, if_neg hi]; simp, e2, fun h0 => absurd h0 hi⟩

/-- The hypotheses of `C97_english_partial` are met: in the compiled sample text "b*s" finds "brothers", form 1 of lexeme 300, and all that it finds is given by its lines. -/
example : ∃ st, engCompile id [fileOf sampleLines] = some (some st) ∧ ∃ C, (∃ n, findMatch st.images [0] (List.replicate 48 0) (fun _ => 7) [98, 42, 115] = some (n, C)) ∧
    (∃ c ∈ C, c.1 = 300 ∧ ⟨litBytes "brothers", 1⟩ ∈ c.2) ∧ ∀ c ∈ C, ∀ m ∈ c.2, ∃ line ∈ sampleLines, LineReports line c.1 m := by
  obtain ⟨st, h1, h2⟩ := C97_english_partial [sampleLines] (by decide +kernel) _ sampleLines_say (A := engSampleLetters) engSample_ok engSample_wild
  obtain ⟨C, k1, k2, k3⟩ := h2 [0] (List.replicate 48 0) (fun _ => 7) [98, 42, 115] (by decide) (by decide) (by decide) (by decide) (by decide +kernel)
  refine ⟨st, h1, C, ⟨_, k1⟩, ?_, ?_⟩
  · have e : [sampleLines].flatten = sampleLines := by simp
    rw [e] at k3
    have ha : engLine (litBytes "\tbrother|0|s N LID:300") = some (.article (engSample[3]'(by decide))) := by decide +kernel
    refine k3 (litBytes "\tbrother|0|s N LID:300") (by decide +kernel) 300 ⟨litBytes "brothers", 1⟩
      ⟨_, (engLine_article _ _).1 ha, by decide +kernel, Or.inl ⟨by decide +kernel, litBytes "s", by decide +kernel, by decide +kernel⟩⟩
      (.same (by decide) (by decide) (.more (.more (.more (.more (.more (.more (.none (.same (by decide) (by decide) .nil))))))))) ?_
    intro b hb
    have hb := (engLine_article _ _).2 hb
    rw [ha] at hb
    simp only [Option.some.injEq, LineResult.article.injEq] at hb
    subst hb
    exact Or.inl (by decide +kernel)
  · intro c hc m hm
    obtain ⟨-, line, hl, hr⟩ := (k2 c hc).2 m hm
    exact ⟨line, by simpa using hl, hr⟩

end Libmorph
