import Verif.Props.C64
import Verif.Props.C30
import Verif.Props.C30Rus
/-
C65, C66: the Python classes over the dictionaries.
-/
namespace Libmorph
open Libmorph.Spec

variable {A : List Byte} {D : RusDict} {st : RusState}

theorem pySettings_eq (dwsets : Nat) : pySettings dwsets = if dwsets &&& 2 ≠ 0 then 2 else 0 := rfl

theorem pyLemmatize_spec
    {call : Option (List Lemm) → Option (List Byte) → Option (List Gram) → Nat → Option (Int × LemmState)} {dwsets : Nat}
    {H : List LemmStep} (h : LemmSpec (fun L B G => call L B G (pySettings dwsets)) H) (hz : ∀ p ∈ H, 0 ∉ p.text)
    (lx : List Lemm) (sb : List Byte) (gr : List Gram) :
    (GroupRoomy (some lx) (if dwsets &&& 4 = 0 then some sb else none) (if dwsets &&& 8 = 0 then some gr else none) (lemmGroups true H) →
      pyLemmatize call lx sb gr dwsets = some ((lemmGroups true H).map (pyRecord dwsets))) ∧
    (JoinSafe (some lx) (if dwsets &&& 8 = 0 then some gr else none) H →
      ¬ GroupFits (some lx) (if dwsets &&& 4 = 0 then some sb else none) (if dwsets &&& 8 = 0 then some gr else none) (lemmGroups true H) →
      pyLemmatize call lx sb gr dwsets = some []) := by
  obtain ⟨h1, h2⟩ := h (some lx) (pyStrings dwsets sb) (pyGrams dwsets gr)
  refine ⟨fun hr => ?_, fun hj hf => ?_⟩
  · obtain ⟨s, k1, k2⟩ := h1 hr
    obtain ⟨l, l1, l2, l3, l4, l5⟩ := reported_says k2
    have b4 : s.forms.buf.isSome = decide (dwsets &&& 4 = 0) := by rw [l4, pyStrings]; split <;> simp_all
    have b8 : s.grams.isSome = decide (dwsets &&& 8 = 0) := by rw [l5, pyGrams]; split <;> simp_all
    have := mapM_of_forall₂ (f := readPyLemm s.forms.buf (s.grams.getD [])) (k := pyRecord dwsets)
      (fun r g (hg : _ ∧ 0 ∉ g.1.text) => readPyLemm_says hg.1 dwsets b4 b8 hg.2)
      (forall₂_and_right l3 fun g hg => hz _ (mem_lemmGroups hg))
    simp only [Option.isSome_some] at this l2
    simp only [pyLemmatize, k1, bind, Option.bind_some, Option.isSome_some, l1, Option.getD_some, Int.toNat_natCast, if_pos l2, this]
  · obtain ⟨r, s, k1, k2⟩ := h2 hj hf
    have : r.toNat = 0 := by omega
    have hle : r ≤ (s.lemms.getD []).length := by omega
    simp [pyLemmatize, k1, this, hle]

/-! ### C65 -/

/-- **C65** lemmatize, Russian.  The word is looked up with the capitals ignored or not; when 32 records, 2048 bytes and 512
descriptions suffice, the list has an object for each record the library is to report (C44), with the number of the lexeme, the
dictionary form unless SF_NO_LEMMA_STRING is given, the descriptions of the first reading unless SF_NO_GRAMMAR_DATA is given;
whatever the buffers contained.  When they do not suffice, the list is empty.
Missing: words of articles without dictionary form; sizes between the sufficient and the necessary (C90). -/
theorem C65_lemmatize_partial (h : RusOk A D st) (w junk : List Byte) (dwsets : Nat) (s : Nat) (hs : s = if dwsets &&& 2 ≠ 0 then 2 else 0)
    (hne : w ≠ []) (hlen : w.length < 48) (hparts : (wordParts rusTab w).length ≤ 8) (hD : D.HasDict (w.map rusTab.lower) s) :
    ∃ H, D.Readings (rusAdmits w s) (w.map rusTab.lower) H ∧
    ∃ F : RusReading → List (List Byte), (∀ r ∈ H, D.DictForms r.art r.first s (F r)) ∧
    ∀ (lx : List Lemm) (sb : List Byte) (gr : List Gram), lx.length = 32 → sb.length = 2048 → gr.length = 512 →
      let hs := H.map fun r => r.step (F r)
      let B := if dwsets &&& 4 = 0 then some sb else none
      let G := if dwsets &&& 8 = 0 then some gr else none
      (GroupRoomy (some lx) B G (lemmGroups true hs) →
        pyLemmatize (rusLemmatize (st.images D.mtab) junk w) lx sb gr dwsets = some ((lemmGroups true hs).map (pyRecord dwsets))) ∧
      (JoinSafe (some lx) G hs → ¬ GroupFits (some lx) B G (lemmGroups true hs) →
        pyLemmatize (rusLemmatize (st.images D.mtab) junk w) lx sb gr dwsets = some []) := by
  subst hs
  obtain ⟨H, h1, F, hF, h2, h3⟩ := rus_lemmSpec h w junk _ hne hlen hparts hD
  exact ⟨H, h1, F, hF, fun lx sb gr _ _ _ => pyLemmatize_spec (call := rusLemmatize (st.images D.mtab) junk w) h2 h3 lx sb gr⟩

/-- **C65** lemmatize, English. -/
theorem C65_english_partial {as : List Article} (h : EngOk A as) (w junk : List Byte) (dwsets : Nat) (s : Nat)
    (hs : s = if dwsets &&& 2 ≠ 0 then 2 else 0)
    (hne : w ≠ []) (hlen : w.length < 48) (hparts : (wordParts engTab w).length ≤ 8) (hD : ∀ p ∈ Matches as w s, p.1.dictForms ≠ []) :
    ∃ H, Readings as w s H ∧
    ∀ (lx : List Lemm) (sb : List Byte) (gr : List Gram), lx.length = 32 → sb.length = 2048 → gr.length = 512 →
      let hs := H.map Article.step
      let B := if dwsets &&& 4 = 0 then some sb else none
      let G := if dwsets &&& 8 = 0 then some gr else none
      (GroupRoomy (some lx) B G (lemmGroups true hs) →
        pyLemmatize (lemmatize (engBuild as).images junk w) lx sb gr dwsets = some ((lemmGroups true hs).map (pyRecord dwsets))) ∧
      (JoinSafe (some lx) G hs → ¬ GroupFits (some lx) B G (lemmGroups true hs) →
        pyLemmatize (lemmatize (engBuild as).images junk w) lx sb gr dwsets = some []) := by
  subst hs
  obtain ⟨H, h1, h2, h3⟩ := eng_lemmSpec h w junk _ hne hlen hparts hD
  exact ⟨H, h1, fun lx sb gr _ _ _ => pyLemmatize_spec (call := lemmatize (engBuild as).images junk w) h2 h3 lx sb gr⟩

/-- **C65** check_word: 1 for a word of the dictionary (up to suffixes, C43), 0 for others, if it is shorter than 48 bytes. -/
theorem C65_check_word_partial (h : RusOk A D st) (w junk : List Byte) (dwsets : Nat) (s : Nat) (hs : s = if dwsets &&& 2 ≠ 0 then 2 else 0)
    (hne : w ≠ []) (hlen : w.length < 48) (hparts : (wordParts rusTab w).length ≤ 8)
    (hsuf : D.SuffixSafe (w.map rusTab.lower)) :
    ∃ r, pyCheckWord (rusCheck (st.images D.mtab) junk w) dwsets = some r ∧ (r = 0 ∨ r = 1) ∧
      (r = 1 ↔ ∃ a ∈ D.arts, D.HasForm a (w.map rusTab.lower) ∧ rusAdmits w s a.demand = true) := by
  subst hs
  exact C43_check_exact_partial h w junk _ hne hlen hparts hsuf

/-- **C65** a word of 48 bytes and more (of 16 parts at most): check_word answers -4, which Python takes for true, and lemmatize an
empty list, as for an unknown word; in the two languages, with any dictionary. -/
theorem C65_too_long (w junk : List Byte) (dwsets : Nat) (hlen : 48 ≤ w.length) (lx : List Lemm) (sb : List Byte) (gr : List Gram) :
    (∀ im : RusImages, (wordParts rusTab w).length ≤ 16 → pyCheckWord (rusCheck im junk w) dwsets = some (-4) ∧
      pyLemmatize (rusLemmatize im junk w) lx sb gr dwsets = some []) ∧
    (∀ im : Images, (wordParts engTab w).length ≤ 16 → pyCheckWord (checkWord im junk w) dwsets = some (-4) ∧
      pyLemmatize (lemmatize im junk w) lx sb gr dwsets = some []) := by
  refine ⟨fun im hp => ?_, fun im hp => ?_⟩
  · have hp : ∀ d, rusPrepare w d = some (.error WORDBUFF_FAILED) := by
      intro d
      have := C15_too_long rusTab rusTab_ok formLength w hlen hp
      simp only [rusPrepare, rusCanonic, if_neg (show ¬ w.length = 0 by omega), this, bind, Option.bind_some, pure]
    exact ⟨by simp [pyCheckWord, rusCheck, hp, WORDBUFF_FAILED], by simp [pyLemmatize, rusLemmatize, hp, WORDBUFF_FAILED]⟩
  · obtain ⟨h1, h2, -⟩ := C14_too_long_partial im junk w (pySettings dwsets) hlen hp
    exact ⟨by rw [pyCheckWord, h1], by simp [pyLemmatize, h2, WORDBUFF_FAILED]⟩

/-- **C65** build_form, Russian: the forms of an article with the number; none if they exceed 256 bytes (the buffer of 2048
does not count, the library's own does). -/
theorem C65_build_form (h : RusOk A D st) (hi : RusIdsOk D st) (junk : List Byte) (id i : Nat)
    (hj : (lexkey id).length + junk.length = 16) (hex : ∃ a ∈ D.arts, a.id = id) (sb : List Byte) (hb : sb.length = 2048) :
    ∃ a ∈ D.arts, a.id = id ∧ ∃ fs, D.BuiltForms a i fs ∧
      pyBuildForm (fun b => rusBuildForm (st.images D.mtab) junk (some b) id i) sb
        = some (if (packed fs).length ≤ 256 then fs.map (rusPrinted a.demand) else []) := by
  obtain ⟨a, ha, h1, fs, h2, h3⟩ := C46_build_form h hi junk id i hj hex sb (by intro h0; simp [h0] at hb)
  refine ⟨a, ha, h1, fs, h2, ?_⟩
  have ht : ∀ f ∈ fs, Text f := builtForms_text h ha h2
  rw [pyBuildForm, wrapForms_outcome (call := fun b => rusBuildForm (st.images D.mtab) junk (some b) id i) h3 (fun f hf => by
    obtain ⟨g, hg, rfl⟩ := List.mem_map.1 hf
    exact rusPrinted_text _ a.demand_le _ (ht g hg))]
  have hl : (packed (fs.map (rusPrinted a.demand))).length = (packed fs).length := by
    clear h2 h3
    induction fs with
    | nil => rfl
    | cons f fs ih =>
      have h1 := ih fun x hx => ht x (by simp [hx])
      have h2 := (capSet_rusPrinted f [] a.demand a.demand_le (ht f (by simp))).2
      simp only [List.map_cons, packed_cons, List.length_append, List.length_cons]
      omega
  rw [hl, hb]
  congr 1
  by_cases hc : (packed fs).length ≤ 256
  · rw [if_pos ⟨hc, by omega⟩, if_pos hc]
  · rw [if_neg (by omega), if_neg hc]

/-- **C65** build_form, English. -/
theorem C65_english_build_form {as : List Article} (h : EngOk A as) (hi : IdsOk as) (junk sb : List Byte)
    (id i : Nat) (hj : (lexkey id).length + junk.length = 16) (hb : sb.length = 2048) (hex : ∃ a ∈ as, a.id = id) :
    ∃ a ∈ as, a.id = id ∧ pyBuildForm (fun b => buildForm (engBuild as).images junk (some b) id i) sb
      = some (if (packed (a.delivered i)).length ≤ 256 then (a.delivered i).map (printed a.demand) else []) := by
  obtain ⟨a, ha, h1, h2⟩ := buildForm_eq h hi junk id i hj hex sb (by rintro rfl; simp at hb)
  refine ⟨a, ha, h1, ?_⟩
  rw [pyBuildForm, wrapForms_outcome (call := fun b => buildForm (engBuild as).images junk (some b) id i) h2 (h.deliveredText ha i),
    printed_packed_length h ha, hb]
  congr 1
  by_cases hc : (packed (a.delivered i)).length ≤ 256
  · rw [if_pos ⟨by omega, by omega⟩, if_pos hc]
  · rw [if_neg (by omega), if_neg hc]

/-- Thirty-three adverbs spelled alike. -/
def manyHomonyms : List RusArticle := (List.range 33).map fun i => ⟨[242, 224, 236], 54, 0, 0, [], i + 1⟩

/-- **C65** refuted for words of more than 32 lexemes: check_word knows the word, lemmatize gives the list of an unknown one. -/
theorem C65_silent :
    ((rusBuild [] [0] manyHomonyms).bind fun st => pyCheckWord (rusCheck (st.images [0]) [] [242, 224, 236]) 0) = some 1 ∧
    ((rusBuild [] [0] manyHomonyms).bind fun st => pyLemmatize (rusLemmatize (st.images [0]) [] [242, 224, 236]) (junkLemms 32)
      (junkBytes 2048) (junkGrams 512) 0) = some [] ∧
    ((rusBuild [] [0] manyHomonyms).bind fun st => pyLemmatize (rusLemmatize (st.images [0]) [] [242, 224, 235]) (junkLemms 32)
      (junkBytes 2048) (junkGrams 512) 0) = some [] := by decide +kernel

/-- Non-vacuity: "сна" with all, without strings, without descriptions. -/
example : (pyLemmatize (rusLemmatize (rusSampleState.images rusSample.mtab) [] [241, 237, 224]) (junkLemms 32) (junkBytes 2048) (junkGrams 512) 0
      = some [⟨300, some [241, 238, 237], some [⟨7, 1, 0x1000, 3⟩]⟩]) ∧
    (pyLemmatize (rusLemmatize (rusSampleState.images rusSample.mtab) [] [241, 237, 224]) (junkLemms 32) (junkBytes 2048) (junkGrams 512) 4
      = some [⟨300, none, some [⟨7, 1, 0x1000, 3⟩]⟩]) ∧
    (pyLemmatize (rusLemmatize (rusSampleState.images rusSample.mtab) [] [241, 237, 224]) (junkLemms 32) (junkBytes 2048) (junkGrams 512) 8
      = some [⟨300, some [241, 238, 237], none⟩]) ∧
    (pyLemmatize (rusLemmatize (rusSampleState.images rusSample.mtab) [] [209, 205, 224]) (junkLemms 32) (junkBytes 2048) (junkGrams 512) 12
      = some []) ∧
    (pyLemmatize (rusLemmatize (rusSampleState.images rusSample.mtab) [] [209, 205, 224]) (junkLemms 32) (junkBytes 2048) (junkGrams 512) 14
      = some [⟨300, none, none⟩]) ∧
    pyBuildForm (fun b => rusBuildForm (rusSampleState.images rusSample.mtab) (List.replicate 15 0) (some b) 7 10) (junkBytes 2048)
      = some [[200, 226, 224, 237, 251]] := by
  decide +kernel

/-! ### C66: find_match -/

theorem heardBy_all (cb : List (Nat × List StrMatch) → PyAnswer) : ∀ (C B : List (Nat × List StrMatch)),
    (∀ P c Q, C = P ++ c :: Q → cb (B ++ P ++ [c]) ≠ .noInt) → heardBy cb B C = (B ++ C, false) := by
  intro C
  induction C with
  | nil => intro B _; simp [heardBy]
  | cons c C ih =>
    intro B h
    rw [heardBy, if_neg (by simpa using h [] c C rfl), ih]
    · simp
    · intro P d Q hC
      have := h (c :: P) d Q (by rw [hC]; rfl)
      simpa using this

theorem heardBy_first (cb : List (Nat × List StrMatch) → PyAnswer) : ∀ (P B : List (Nat × List StrMatch)) c Q,
    (∀ P' d Q', P = P' ++ d :: Q' → cb (B ++ P' ++ [d]) ≠ .noInt) → cb (B ++ P ++ [c]) = .noInt →
    heardBy cb B (P ++ c :: Q) = (B ++ P ++ [c], true) := by
  intro P
  induction P with
  | nil => intro B c Q _ hc; simp only [List.append_nil] at hc; simp [heardBy, hc]
  | cons p P ih =>
    intro B c Q h hc
    rw [List.cons_append, heardBy, if_neg (by simpa using h [] p P rfl), ih (B ++ [p]) c Q]
    · simp
    · intro P' d Q' hC
      have := h (p :: P') d Q' (by rw [hC]; rfl)
      simpa using this
    · simpa using hc

theorem pyFindMatch_eq {search : (List (Nat × List StrMatch) → Int) → Option (Int × List (Nat × List StrMatch))}
    {C : List (Nat × List StrMatch)} (h : ∀ client, search client = some (if C = [] then 0 else client C, C))
    (cb : List (Nat × List StrMatch) → PyAnswer) :
    ((∀ P c Q, C = P ++ c :: Q → cb (P ++ [c]) ≠ .noInt) →
      pyFindMatch search cb = some (.ok (if C = [] then 0 else (cb C).code.getD 0), C)) ∧
    (∀ P c Q, C = P ++ c :: Q → (∀ P' d Q', P = P' ++ d :: Q' → cb (P' ++ [d]) ≠ .noInt) → cb (P ++ [c]) = .noInt →
      pyFindMatch search cb = some (.error (), P ++ [c])) := by
  refine ⟨fun hn => ?_, fun P c Q hC hn hc => ?_⟩
  · have := heardBy_all cb C [] (by simpa using hn)
    simp [pyFindMatch, h, this]
  · have := heardBy_first cb P [] c Q (by simpa using hn) (by simpa using hc)
    rw [List.nil_append, ← hC] at this
    simp [pyFindMatch, h, this]

/-- **C66** find_match, English.  The calls are settled by the dictionary and the template: those of C31, each lexeme with its forms.
However the function answers — nonzero, or by raising — every one of them is made, and the result is the answer to the last one, -1 if
that one raised, 0 if there is none.  Only an answer that is no integer ends the search, with an exception. -/
theorem C66_find_match {as : List Article} (h : EngOk A as) (hw : WildOk as) (tail smatch : List Byte) (htail : tail ≠ [])
    (hbuf : smatch.length = 48) (str : List Byte) (hne : str ≠ []) (hlen : str.length < 48) (hparts : (wordParts engTab str).length ≤ 8) :
    ∃ C, WildCalls (WildFound as (str.map engTab.lower)) C ∧ ∀ cb : List (Nat × List StrMatch) → PyAnswer,
      let search := fun client => findMatch (engBuild as).images tail smatch client str
      ((∀ P c Q, C = P ++ c :: Q → cb (P ++ [c]) ≠ .noInt) →
        pyFindMatch search cb = some (.ok (if C = [] then 0 else match cb C with | .value n => n | _ => -1), C)) ∧
      (∀ P c Q, C = P ++ c :: Q → (∀ P' d Q', P = P' ++ d :: Q' → cb (P' ++ [d]) ≠ .noInt) → cb (P ++ [c]) = .noInt →
        pyFindMatch search cb = some (.error (), P ++ [c])) := by
  have key : ∀ client client' : List (Nat × List StrMatch) → Int, (findMatch (engBuild as).images tail smatch client str).map (·.2)
      = (findMatch (engBuild as).images tail smatch client' str).map (·.2) := by
    intro c c'
    simp only [findMatch, bind, pure]
    split
    · rfl
    split
    · rfl
    rcases capGet engTab formLength str with _ | _ | ⟨lo, s⟩
    · rfl
    · rfl
    simp only [Option.bind_some]
    rcases wildScan (engWildTarget (engBuild as).images engReg) ((engBuild as).images.stemtree ++ tail) lo (smatch, {}) with _ | ⟨r, x, s⟩
    · rfl
    simp only [Option.bind_some, Option.map_some, MatchSt.finish]
    split
    · rfl
    split <;> rfl
  obtain ⟨C, h1, h2, -⟩ := C31_exact_partial h hw tail smatch htail hbuf (fun _ => 0) str hne hlen hparts
  have hall : ∀ client, findMatch (engBuild as).images tail smatch client str = some (if C = [] then 0 else client C, C) := by
    intro client
    obtain ⟨C', k1, -⟩ := C31_exact_partial h hw tail smatch htail hbuf client str hne hlen hparts
    have := key (fun _ => 0) client
    rw [h1, k1] at this
    simp only [Option.map_some, Option.some.injEq] at this
    rw [k1, ← this]
  refine ⟨C, h2, fun cb => ?_⟩
  obtain ⟨p1, p2⟩ := pyFindMatch_eq (search := fun client => findMatch (engBuild as).images tail smatch client str) hall cb
  refine ⟨fun hn => ?_, p2⟩
  rw [p1 hn]
  by_cases h0 : C = []
  · simp [h0]
  · simp only [if_neg h0]
    have := hn _ (C.getLast h0) [] (by rw [List.dropLast_concat_getLast])
    rw [List.dropLast_concat_getLast] at this
    cases hcb : cb C with
    | value n => rfl
    | raises => rfl
    | noInt => exact absurd hcb this

/-- **C66** find_match, Russian; for the searches that are defined (C31). -/
theorem C66_russian (h : RusOk A D st) (hw : RusWildOk D) (tail smatch : List Byte) (htail : tail ≠ [])
    (hbuf : smatch.length = 48) (str : List Byte) (hne : str ≠ []) (hlen : str.length < 48) (hparts : (wordParts rusTab str).length ≤ 8)
    (hdef : (rusFindMatch (st.images D.mtab) tail smatch (fun _ => 0) str).isSome) :
    ∃ C R, D.WildOutcome (str.map rusTab.lower) C R ∧ ∀ cb : List (Nat × List StrMatch) → PyAnswer,
      let search := fun client => rusFindMatch (st.images D.mtab) tail smatch client str
      ((∀ P c Q, C = P ++ c :: Q → cb (P ++ [c]) ≠ .noInt) →
        pyFindMatch search cb = some (.ok (if C = [] then 0 else match cb C with | .value n => n | _ => -1), C)) ∧
      (∀ P c Q, C = P ++ c :: Q → (∀ P' d Q', P = P' ++ d :: Q' → cb (P' ++ [d]) ≠ .noInt) → cb (P ++ [c]) = .noInt →
        pyFindMatch search cb = some (.error (), P ++ [c])) := by
  have key : ∀ client client' : List (Nat × List StrMatch) → Int, (rusFindMatch (st.images D.mtab) tail smatch client str).map (·.2)
      = (rusFindMatch (st.images D.mtab) tail smatch client' str).map (·.2) := by
    intro c c'
    simp only [rusFindMatch, bind, pure]
    split
    · rfl
    split
    · rfl
    rcases capGet rusTab formLength str with _ | _ | ⟨lo, s⟩
    · rfl
    · rfl
    simp only [Option.bind_some]
    rcases wildScan (rusWildTarget (st.images D.mtab) rusReg) ((st.images D.mtab).stemtree ++ tail) lo (smatch, {}) with _ | ⟨r, x, s⟩
    · rfl
    simp only [Option.bind_some, Option.map_some, MatchSt.finish]
    split
    · rfl
    split <;> rfl
  obtain ⟨res, hres⟩ := Option.isSome_iff_exists.1 hdef
  obtain ⟨C, R, rfl, h2⟩ := (C31_rus_exact_partial h hw tail smatch htail hbuf (fun _ => 0) str hne hlen hparts).1 res hres
  have hall : ∀ client, rusFindMatch (st.images D.mtab) tail smatch client str = some (if C = [] then 0 else client C, C) := by
    intro client
    have k := key (fun _ => 0) client
    rw [hres] at k
    simp only [Option.map_some] at k
    obtain ⟨res', k1, k2⟩ := Option.map_eq_some_iff.1 k.symm
    obtain ⟨C', R', rfl, -⟩ := (C31_rus_exact_partial h hw tail smatch htail hbuf client str hne hlen hparts).1 res' k1
    simp only at k2
    rw [k1, k2]
  refine ⟨C, R, h2, fun cb => ?_⟩
  obtain ⟨p1, p2⟩ := pyFindMatch_eq (search := fun client => rusFindMatch (st.images D.mtab) tail smatch client str) hall cb
  refine ⟨fun hn => ?_, p2⟩
  rw [p1 hn]
  by_cases h0 : C = []
  · simp [h0]
  · simp only [if_neg h0]
    have := hn _ (C.getLast h0) [] (by rw [List.dropLast_concat_getLast])
    rw [List.dropLast_concat_getLast] at this
    cases hcb : cb C with
    | value n => rfl
    | raises => rfl
    | noInt => exact absurd hcb this

/-- **C66** refuted as documented ("the calls go on until the function returns a value other than 0"): the function answers 1 to the first
call and 0 to the others; it is called for every lexeme, and the result is 0. -/
theorem C66_no_stop :
    (pyFindMatch (fun client => findMatch (engBuild engSample).images [0] (List.replicate 48 0) client [42])
      (fun cs => if cs.length = 1 then .value 1 else .value 0)).map (fun r => (r.1.toOption, decide (2 ≤ r.2.length))) = some (some 0, true) ∧
    (pyFindMatch (fun client => findMatch (engBuild engSample).images [0] (List.replicate 48 0) client [42])
      (fun cs => if cs.length = 1 then .raises else .value 0)).map (fun r => (r.1.toOption, decide (2 ≤ r.2.length))) = some (some 0, true) ∧
    (pyFindMatch (fun client => findMatch (engBuild engSample).images [0] (List.replicate 48 0) client [42])
      (fun cs => if cs.length = 1 then .noInt else .value 0)).map (fun r => (r.1.toOption, r.2.length)) = some (none, 1) := by
  decide +kernel

end Libmorph
