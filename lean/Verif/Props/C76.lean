import Verif.Props.C55
import Verif.Props.C23
import Verif.Props.C19
/-
C76: the text of an English dictionary, and what Lemmatize and BuildForm answer with the dictionary compiled from it.
-/
namespace Libmorph
open Spec

/-- **C76** The readings of a word over the lines of the text: the article of a line together with one of its endings. -/
theorem C76_readings {files : List (List (List Byte))} {os : List (Option Article)}
    (hos : List.Forall₂ (LineSays lidNumber) files.flatten os) (w : List Byte) (dwsets : Nat) (a : Article) (e : List Byte) :
    (a, e) ∈ Matches (os.filterMap id) w dwsets ↔
      (∃ line ∈ files.flatten, LineSays lidNumber line (some a)) ∧ w.map engTab.lower = a.lowStem ++ e ++ a.post ∧
      (if a.Inflected then ∃ i, (e, i) ∈ a.endings else e = []) ∧ (dwsets &&& 2 ≠ 0 ∨ CapsFit engTab w a.demand) := by
  rw [C41_matches]
  refine and_congr_left fun _ => ?_
  obtain ⟨m1, m2⟩ := forall₂_mem hos
  constructor
  · intro ha
    obtain ⟨o, ho, rfl⟩ := List.mem_filterMap.1 ha
    exact m1 _ ho
  · rintro ⟨line, hl, hs⟩
    obtain ⟨o, ho, ho'⟩ := m2 line hl
    exact List.mem_filterMap.2 ⟨_, ho, by rw [← lineSays_unique hs ho']; rfl⟩

/-- **C76** Lemmatize with the dictionary compiled from a text: one lexeme for every reading of the word over the lines of the
text (`C76_readings` says which they are), for any buffers that have the room, whatever was in the scratch area. -/
theorem C76_lemmas_partial {A : List Byte} (files : List (List (List Byte)))
    (h : ∀ lines ∈ files, ∀ l ∈ lines, 10 ∉ l ∧ 0 ∉ l ∧ l.length < 1022) (os : List (Option Article))
    (hos : List.Forall₂ (LineSays lidNumber) files.flatten os) (hok : EngOk A (os.filterMap id)) :
    ∃ st, engCompile id (files.map fileOf) = some (some st) ∧
      ∀ w dwsets, w ≠ [] → w.length < 48 → (wordParts engTab w).length ≤ 8 →
        SuffixSafe (os.filterMap id) (w.map engTab.lower) →
        ((Matches (os.filterMap id) w dwsets).map fun p => p.1.id).Nodup →
        (∀ p ∈ Matches (os.filterMap id) w dwsets, p.1.dictForms ≠ []) →
        ∃ H, H.Perm (Matches (os.filterMap id) w dwsets) ∧
          H.Pairwise (fun p q => q.1.lowStem.length ≤ p.1.lowStem.length) ∧
          ∀ junk L B G, Roomy L B G H →
            ∃ s, lemmatize st.images junk w L B G dwsets = some ((H.length : Int), s) ∧ Reported L B G H s :=
  ⟨_, (C55_files files h _).2 ⟨os, hos, rfl⟩, fun w dwsets hne hlen hparts hs hid hD =>
    C41_lemmas_partial hok w dwsets hne hlen hparts hs hid hD⟩

/-- **C76** BuildForm with the dictionary compiled from a text: given the id of a line that no other article has, it counts and
writes exactly the forms of that line's article with the given form number, in the capitals the line is written in. -/
theorem C76_forms_partial {A : List Byte} (files : List (List (List Byte)))
    (h : ∀ lines ∈ files, ∀ l ∈ lines, 10 ∉ l ∧ 0 ∉ l ∧ l.length < 1022) (os : List (Option Article))
    (hos : List.Forall₂ (LineSays lidNumber) files.flatten os) (hok : EngOk A (os.filterMap id)) (hi : IdsOk (os.filterMap id)) :
    ∃ st, engCompile id (files.map fileOf) = some (some st) ∧
      ∀ line ∈ files.flatten, ∀ a, LineSays lidNumber line (some a) →
        (∀ line' ∈ files.flatten, ∀ b, LineSays lidNumber line' (some b) → b.id = a.id → b = a) →
        a.Inflected ∨ a.post = [] → ∀ i junk B, (lexkey a.id).length + junk.length = 16 → B ≠ [] →
        (packed (a.formsFor i)).length ≤ 256 → (packed (a.formsFor i)).length + 1 ≤ B.length →
        ∃ b, buildForm st.images junk (some B) a.id i = some (((a.formsFor i).length : Int), some b) ∧
          packed ((a.formsFor i).map (printed a.demand)) <+: b := by
  obtain ⟨m1, m2⟩ := forall₂_mem hos
  refine ⟨_, (C55_files files h _).2 ⟨os, hos, rfl⟩, ?_⟩
  intro line hl a hs hone hpost i junk B hj hB hsc hfit
  refine C22_forms_partial hok hi a ?_ ?_ hpost i junk B hj hB hsc hfit
  · obtain ⟨o, ho, ho'⟩ := m2 line hl
    refine List.mem_filterMap.2 ⟨o, ho, ?_⟩
    rw [← lineSays_unique hs ho']; rfl
  · intro b hb hid
    obtain ⟨o, ho, hob⟩ := List.mem_filterMap.1 hb
    obtain ⟨l', hl', hs'⟩ := m1 o ho
    refine hone l' hl' b ?_ hid
    have : o = some b := hob
    rwa [this] at hs'

theorem sampleLines_say : List.Forall₂ (LineSays lidNumber) [sampleLines].flatten (none :: none :: engSample.map some) := by
  have hs : ∀ l, engLine l = some .skip → LineSays lidNumber l none := fun l => (engLine_skip l).1
  have ha : ∀ l a, engLine l = some (.article a) → LineSays lidNumber l (some a) := fun l a => (engLine_article l a).1
  exact .cons (hs _ (by decide +kernel)) (.cons (hs _ (by decide +kernel)) (.cons (ha _ _ (by decide +kernel))
    (.cons (ha _ _ (by decide +kernel)) (.cons (ha _ _ (by decide +kernel)) (.cons (ha _ _ (by decide +kernel)) .nil)))))

/-- The hypotheses of `C76_lemmas_partial` are met: Lemmatize with the compiled text finds one lexeme for "Brothers":
the article of the line "brother|0|s N LID:300". -/
example : ∃ st, engCompile id [fileOf sampleLines] = some (some st) ∧ ∃ H, H.map (fun p => (p.1.id, p.2)) = [(300, litBytes "s")] ∧
    ∀ junk L B G, Roomy L B G H →
      ∃ s, lemmatize st.images junk (litBytes "Brothers") L B G 0 = some (1, s) ∧ Reported L B G H s := by
  obtain ⟨st, h1, h2⟩ := C76_lemmas_partial [sampleLines] (by decide +kernel) _ sampleLines_say (A := engSampleLetters) engSample_ok
  obtain ⟨H, hp, -, hr⟩ := h2 (litBytes "Brothers") 0 (by decide +kernel) (by decide +kernel) (by decide +kernel)
    (by unfold SuffixSafe; decide +kernel) (by decide +kernel) (by decide +kernel)
  have e : (Matches ((none :: none :: engSample.map some).filterMap id) (litBytes "Brothers") 0).map (fun p => (p.1.id, p.2)) =
    [(300, litBytes "s")] := by decide +kernel
  have hm := hp.map (fun p : Article × List Byte => (p.1.id, p.2))
  rw [e] at hm
  have hm := List.perm_singleton.1 hm
  refine ⟨st, h1, H, hm, ?_⟩
  have hl : H.length = 1 := by simpa using congrArg List.length hm
  rw [hl] at hr
  exact hr

/-- The hypotheses of `C76_forms_partial` are met: BuildForm with the compiled text makes "brothers-in-law". -/
example : ∃ st, engCompile id [fileOf sampleLines] = some (some st) ∧ ∃ b,
    buildForm st.images (List.replicate 14 170) (some (List.replicate 40 170)) 44344 1 = some (1, some b) ∧
    litBytes "brothers-in-law" ++ [0] <+: b := by
  obtain ⟨st, h1, h2⟩ := C76_forms_partial [sampleLines] (by decide +kernel) _ sampleLines_say (A := engSampleLetters) engSample_ok
    engSample_ids
  obtain ⟨b, h3, h4⟩ := h2 (litBytes "brother-in-law|0|s|'s|s' N LID:44344 post:-in-law") (by decide +kernel)
    (engSample.head (by decide)) ((engLine_article _ _).1 (by decide +kernel)) (by
      intro l hl b hb hid
      have hb := (engLine_article _ _).2 hb
      have hall : ∀ l ∈ [sampleLines].flatten, ∀ b, engLine l = some (.article b) → b.id = 44344 →
          b = engSample.head (by decide) := by
        intro l hl
        simp only [List.flatten_cons, List.flatten_nil, List.append_nil, sampleLines, List.mem_cons, List.not_mem_nil, or_false] at hl
        rcases hl with rfl | rfl | rfl | rfl | rfl | rfl
        all_goals
          intro b hb hid
          have hb' := hb.symm
        · rw [show engLine (litBytes "// sample") = some .skip by decide +kernel] at hb'; simp at hb'
        · rw [show engLine [] = some .skip by decide +kernel] at hb'; simp at hb'
        · rw [show engLine (litBytes "brother-in-law|0|s|'s|s' N LID:44344 post:-in-law") = some (.article (engSample.head (by decide)))
            by decide +kernel] at hb'
          simpa using hb'
        · rw [show engLine (litBytes "out-of-the-way A LID:17729") = some (.article (engSample[1]'(by decide)))
            by decide +kernel] at hb'
          simp at hb'; subst hb'; revert hid; decide +kernel
        · rw [show engLine (litBytes "Paris|0|'s  N LID: 7") = some (.article (engSample[2]'(by decide)))
            by decide +kernel] at hb'
          simp at hb'; subst hb'; revert hid; decide +kernel
        · rw [show engLine (litBytes "\tbrother|0|s N LID:300") = some (.article (engSample[3]'(by decide)))
            by decide +kernel] at hb'
          simp at hb'; subst hb'; revert hid; decide +kernel
      exact hall l hl b hb hid)
    (by decide +kernel) 1 (List.replicate 14 170) (List.replicate 40 170) (by decide +kernel) (by decide) (by decide +kernel) (by decide +kernel)
  refine ⟨st, h1, b, ?_, ?_⟩
  · have e1 : ((engSample.head (by decide)).formsFor 1).length = 1 := by decide +kernel
    rw [e1] at h3
    exact h3
  · have e2 : packed (((engSample.head (by decide)).formsFor 1).map (printed (engSample.head (by decide)).demand)) =
      litBytes "brothers-in-law" ++ [0] := by decide +kernel
    rw [e2] at h4
    exact h4

end Libmorph
