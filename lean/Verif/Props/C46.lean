import Verif.Lemmas.RusFormsApi
import Verif.Spec.RusSample
import Verif.Props.C43
/-
C46: Russian FindForms and BuildForm; C47: Russian GetWdInfo; C48: forms that were built are recognized.
-/
namespace Libmorph
open Libmorph.Spec
variable {A : List Byte} {D : RusDict} {st : RusState}

/-! ### C46 -/

/-- **C46**, FindForms: the word has a list of readings (`RusDict.Readings`, as for CheckWord, `C43`), and for
every form number every article has a list of forms, determined by the tables (`RusDict.FoundForms`);
FindForms puts out the forms of the readings one after another, printed with the article's capitals. -/
theorem C46_find_forms (h : RusOk A D st) (w : List Byte) (dwsets : Nat)
    (hne : w ≠ []) (hlen : w.length < 48) (hparts : (wordParts rusTab w).length ≤ 8) :
    ∃ H, D.Readings (rusAdmits w dwsets) (w.map rusTab.lower) H ∧
      ∀ i, ∃ F : RusArticle → List (List Byte), (∀ a ∈ D.arts, D.FoundForms a i (F a)) ∧ ∀ junk B, B ≠ [] →
        FormOutcome (rusFindForms (st.images D.mtab) junk (some B) w i dwsets)
          (H.flatMap fun r => (F r.art).map (rusPrinted r.art.demand))
          (∀ r ∈ H, (packed (F r.art)).length ≤ 256) B := by
  obtain ⟨H, hH⟩ := rusScanOf_exists h (w.map rusTab.lower) (by simpa using hlen)
  refine ⟨_, rusHeard_readings hH, fun i => ?_⟩
  obtain ⟨F, hF⟩ := foundForms_exists h i
  exact ⟨F, hF, fun junk B hB => rusFindForms_heard h w junk dwsets i hne hlen hparts hH B hB F hF⟩

/-- **C46**, BuildForm: the forms the tables give an article with the id asked for. -/
theorem C46_build_form (h : RusOk A D st) (hi : RusIdsOk D st) (junk : List Byte) (id i : Nat)
    (hj : (lexkey id).length + junk.length = 16) (hex : ∃ a ∈ D.arts, a.id = id) (B : List Byte) (hB : B ≠ []) :
    ∃ a ∈ D.arts, a.id = id ∧ ∃ fs, D.BuiltForms a i fs ∧ FormOutcome (rusBuildForm (st.images D.mtab) junk (some B) id i)
      (fs.map (rusPrinted a.demand)) ((packed fs).length ≤ 256) B := rusBuildForm_eq h hi junk id i hj hex B hB

/-- An id of one article only. -/
theorem C46_build_form_one (h : RusOk A D st) (hi : RusIdsOk D st) (junk : List Byte) (i : Nat) (a : RusArticle) (ha : a ∈ D.arts)
    (hone : ∀ b ∈ D.arts, b.id = a.id → b = a) (hj : (lexkey a.id).length + junk.length = 16) (fs : List (List Byte))
    (hfs : D.BuiltForms a i fs) (B : List Byte) (hB : B ≠ []) :
    FormOutcome (rusBuildForm (st.images D.mtab) junk (some B) a.id i) (fs.map (rusPrinted a.demand)) ((packed fs).length ≤ 256) B := by
  obtain ⟨b, hb, hid, gs, g1, g2⟩ := rusBuildForm_eq h hi junk a.id i hj ⟨a, ha, rfl⟩ B hB
  have := hone b hb hid
  subst this
  rw [builtForms_unique hfs g1]
  exact g2

/-- No article with the id: nothing, and the buffer stays as it is. -/
theorem C46_build_form_unknown (h : RusOk A D st) (hi : RusIdsOk D st) (junk : List Byte) (id i : Nat) (hid : id < 2 ^ 32)
    (hj : (lexkey id).length + junk.length = 16) (hno : ∀ a ∈ D.arts, a.id ≠ id) (B : List Byte) (hB : B ≠ []) :
    rusBuildForm (st.images D.mtab) junk (some B) id i = some (0, some B) := by
  simp [rusBuildForm, rus_lid_absent h hi junk id hid hj hno, List.length_eq_zero_iff, hB]

/-- A missing or empty output buffer is refused. -/
theorem C46_arguments (im : RusImages) (junk : List Byte) (id i : Nat) :
    rusBuildForm im junk none id i = some (ARGUMENT_FAILED, none) ∧
    rusBuildForm im junk (some []) id i = some (ARGUMENT_FAILED, some []) := ⟨rfl, rfl⟩

/-- The specification leaves no choice. -/
theorem C46_forms_determined (a : RusArticle) (i : Nat) (fs gs : List (List Byte)) :
    (D.FoundForms a i fs → D.FoundForms a i gs → fs = gs) ∧ (D.BuiltForms a i fs → D.BuiltForms a i gs → fs = gs) :=
  ⟨foundForms_unique, builtForms_unique⟩

theorem rusSample_ids : RusIdsOk rusSample rusSampleState := ⟨by decide, by decide +kernel⟩

/-- Non-vacuity: "сна" and form 2 (dative) give "сну"; lexeme 5, form 11 (genitive plural), gives "ножниц";
lexeme 7, form 10, gives "Иваны" with its capital. -/
example : rusFindForms (rusSampleState.images rusSample.mtab) [] (some (List.replicate 8 77)) [241, 237, 224] 2 0
      = some (1, some [241, 237, 243, 0, 0, 77, 77, 77]) ∧
    rusBuildForm (rusSampleState.images rusSample.mtab) (List.replicate 15 0) (some (List.replicate 8 77)) 5 11
      = some (1, some [237, 238, 230, 237, 232, 246, 0, 0]) ∧
    rusBuildForm (rusSampleState.images rusSample.mtab) (List.replicate 15 0) (some (List.replicate 8 77)) 7 10
      = some (1, some [200, 226, 224, 237, 251, 0, 0, 77]) := by decide +kernel

/-- The preposition: FindForms delivers it for 255, BuildForm does not (but for the numbers of noun forms). -/
theorem C46_preposition_numbers :
    rusFindForms (rusSampleState.images rusSample.mtab) [] (some [77, 77, 77]) [226] 255 0 = some (1, some [226, 0, 0]) ∧
    rusBuildForm (rusSampleState.images rusSample.mtab) (List.replicate 15 0) (some [77, 77, 77]) 12 255 = some (0, some [77, 77, 77]) ∧
    rusBuildForm (rusSampleState.images rusSample.mtab) (List.replicate 15 0) (some [77, 77, 77]) 12 0 = some (1, some [226, 0, 0]) := by
  decide +kernel

/-! ### C47 -/

/-- **C47**: GetWdInfo returns the part of speech of an article with the id. -/
theorem C47_part_of_speech (h : RusOk A D st) (hi : RusIdsOk D st) (a : RusArticle) (ha : a ∈ D.arts)
    (hsame : ∀ b ∈ D.arts, b.id = a.id → b.pos = a.pos) (junk : List Byte) (hj : (lexkey a.id).length + junk.length = 16) :
    rusWdInfo (st.images D.mtab) junk a.id = some (1, some a.pos) := by
  obtain ⟨b, hb, hid, hg⟩ := rusWdInfo_eq h hi junk a.id hj ⟨a, ha, rfl⟩
  rw [hg, hsame b hb hid]

theorem C47_unknown (h : RusOk A D st) (hi : RusIdsOk D st) (junk : List Byte) (id : Nat) (hid : id < 2 ^ 32)
    (hj : (lexkey id).length + junk.length = 16) (hno : ∀ a ∈ D.arts, a.id ≠ id) :
    rusWdInfo (st.images D.mtab) junk id = some (0, none) := by
  simp [rusWdInfo, rus_lid_absent h hi junk id hid hj hno]

example : rusWdInfo (rusSampleState.images rusSample.mtab) (List.replicate 14 0) 44344 = some (1, some 7) :=
  C47_part_of_speech rusSample_ok rusSample_ids ⟨[241], 7, 1, 1, [45, 242, 238], 44344⟩ (by decide) (by decide) _ (by decide)

/-! ### C48 -/

/-- The form numbers of nouns: in plural-only words only plural descriptions. -/
theorem steady_plural (wdinfo i : Nat) (hv : isVerb (wdinfo % 256) = false) (hadj : isAdjective (wdinfo % 256) = false)
    (hw : wdinfo &&& 0x40 ≠ 0) (hn : getGramInfo wdinfo i ≠ noInfo) : (getGramInfo wdinfo i).gramm &&& 0x800 ≠ 0 := by
  have hw' : wdinfo % 256 &&& 0x40 ≠ 0 := by
    rw [and_ff_mod, Nat.and_assoc]; exact hw
  have key : ∀ i < 18, 10 ≤ i → (getNounInfo i).gramm &&& 0x800 ≠ 0 := by decide +kernel
  simp only [getGramInfo, hv, hadj, Bool.false_eq_true, if_false, wfMultiple] at hn ⊢
  by_cases hi : i < 10
  · rw [if_pos (by simp [hw', hi])] at hn
    exact absurd rfl hn
  · rw [if_neg (by simp [hi])] at hn ⊢
    by_cases h17 : i < 18
    · exact key i h17 (by omega)
    · exfalso; apply hn
      simp only [getNounInfo]
      rw [if_neg (by omega)]

/-- Only three classes of nouns (masculine and feminine of both animacies) have a level that hangs on the flags. -/
theorem steady_level (wdinfo gr fl fl' : Nat) (h : wdinfo % 64 ≠ 9 ∧ wdinfo % 64 ≠ 15 ∧ wdinfo % 64 ≠ 18) :
    Spec.altLevel wdinfo gr fl = Spec.altLevel wdinfo gr fl' := by
  have hk : ∀ p < 64, p ≠ 9 ∧ p ≠ 15 ∧ p ≠ 18 → mixTypes.getD p 0 ≠ 4 ∧ mixTypes.getD p 0 ≠ 7 := by decide
  have := hk (wdinfo % 64) (Nat.mod_lt _ (by decide)) h
  rw [← pos_eq] at this
  rw [← swapLevel_eq, ← swapLevel_eq]
  simp only [swapLevel]
  split <;> rename_i h1
  all_goals first | rfl | (exfalso; first | exact this.1 h1 | exact this.2 h1)

/-- A form that was built is one of the article's forms. -/
theorem formsOf_hasForm {a : RusArticle} {fx : FlexInfo} {fs : List (List Byte)} (hinf : a.Inflected) (hs : D.Steady a fx)
    (h : D.FormsOf a fx fs) {f : List Byte} (hf : f ∈ fs) : D.HasForm a f ∧
      ∃ x e fl, f = a.stem ++ x ++ e ++ a.post ∧ D.Reads a x e ⟨fx.gramm, fl⟩ ∧ fl &&& fx.flags ≠ 0 := by
  suffices hh : ∃ x e fl, f = a.stem ++ x ++ e ++ a.post ∧ D.Reads a x e ⟨fx.gramm, fl⟩ ∧ fl &&& fx.flags ≠ 0 by
    obtain ⟨x, e, fl, h1, h2, h3⟩ := hh
    exact ⟨⟨x, e, _, h2, h1⟩, x, e, fl, h1, h2, h3⟩
  rcases h with ⟨x, es, h1, h2, rfl⟩ | ⟨_, rfl⟩
  · obtain ⟨e, he, rfl⟩ := List.mem_map.1 hf
    obtain ⟨fl, h3, h4⟩ := (h2.mem e).1 he
    refine ⟨x, e, fl, rfl, ?_, h4⟩
    simp only [RusDict.Reads, if_pos hinf, RusDict.Inflects]
    refine ⟨h3, hs.1, ?_⟩
    simp only [RusDict.AltFor] at h1
    split
    · rename_i h0; rwa [if_pos h0] at h1
    · rename_i h0
      rw [if_neg h0] at h1
      rw [hs.2 h0 e fl h3 h4]
      exact h1.1
  · simp at hf

theorem foundForms_hasForm {a : RusArticle} {i : Nat} {fs : List (List Byte)}
    (hs : a.Inflected → getGramInfo a.wdinfo i ≠ noInfo → D.Steady a (getGramInfo a.wdinfo i)) (h : D.FoundForms a i fs)
    {f : List Byte} (hf : f ∈ fs) : D.HasForm a f := by
  unfold RusDict.FoundForms at h
  split at h
  · rename_i hinf
    split at h
    · subst h; simp at hf
    · rename_i hi
      push Not at hi
      exact (formsOf_hasForm hinf (hs hinf hi.2) h hf).1
  · rename_i hinf
    subst h
    split at hf
    · rw [List.mem_singleton] at hf
      exact ⟨[], [], ⟨a.tfoffs, 0⟩, by simp [RusDict.Reads, hinf], by simp [hf]⟩
    · simp at hf

theorem builtForms_hasForm {a : RusArticle} {i : Nat} {fs : List (List Byte)}
    (hs : a.Inflected → getGramInfo a.wdinfo i ≠ noInfo → D.Steady a (getGramInfo a.wdinfo i)) (h : D.BuiltForms a i fs)
    {f : List Byte} (hf : f ∈ fs) : D.HasForm a f := by
  unfold RusDict.BuiltForms at h
  split at h
  · rename_i hp
    have hinf : ¬ a.Inflected := fun hh => hh.2 hp
    subst h
    split at hf
    · simp at hf
    · rw [List.mem_singleton] at hf
      exact ⟨[], [], ⟨a.tfoffs, 0⟩, by simp [RusDict.Reads, hinf], by simp [hf]⟩
  · exact foundForms_hasForm hs h hf

/-- The full statement: every form built for an article is recognized when capitals are ignored (forms in
small letters, of at most 47 letters and 8 parts, not at risk because of a suffix). -/
def C48_full : Prop := ∀ (A : List Byte) (D : RusDict) (st : RusState), RusOk A D st → ∀ a ∈ D.arts, ∀ i fs, D.BuiltForms a i fs →
  ∀ f ∈ fs, f ≠ [] → f.length < 48 → (wordParts rusTab f).length ≤ 8 → f.map rusTab.lower = f → D.SuffixSafe f →
    ∀ junk, rusCheck (st.images D.mtab) junk f 2 = some 1

/-- **C48**: what BuildForm or FindForms (see `C46`) delivers is accepted by CheckWord, capitals ignored, when
the request is steady.  Missing: requests that are not (`C48_counterexample`). -/
theorem C48_recognized_partial (h : RusOk A D st) (a : RusArticle) (ha : a ∈ D.arts) (i : Nat) (fs : List (List Byte))
    (hfs : D.BuiltForms a i fs ∨ D.FoundForms a i fs)
    (hs : a.Inflected → getGramInfo a.wdinfo i ≠ noInfo → D.Steady a (getGramInfo a.wdinfo i))
    (f : List Byte) (hf : f ∈ fs) (hne : f ≠ []) (hlen : f.length < 48) (hparts : (wordParts rusTab f).length ≤ 8)
    (hlow : f.map rusTab.lower = f) (hsafe : D.SuffixSafe f) (dwsets : Nat) (hd : dwsets &&& 2 ≠ 0) (junk : List Byte) :
    rusCheck (st.images D.mtab) junk f dwsets = some 1 := by
  have hform : D.HasForm a f := by
    rcases hfs with h1 | h1
    · exact builtForms_hasForm hs h1 hf
    · exact foundForms_hasForm hs h1 hf
  obtain ⟨r, h1, _, h2⟩ := C43_check_exact_partial h f junk dwsets hne hlen hparts (by rw [hlow]; exact hsafe)
  rw [h1, h2.2 ⟨a, ha, by rw [hlow]; exact hform, by simp [rusAdmits, hd]⟩]

/-- Nouns of one animacy and uninflected words are always steady. -/
theorem C48_recognized_nouns (h : RusOk A D st) (a : RusArticle) (ha : a ∈ D.arts) (i : Nat) (fs : List (List Byte))
    (hfs : D.BuiltForms a i fs ∨ D.FoundForms a i fs)
    (hn : isVerb (a.wdinfo % 256) = false ∧ isAdjective (a.wdinfo % 256) = false ∨ ¬ a.PluralOnly)
    (hm : a.pos ≠ 9 ∧ a.pos ≠ 15 ∧ a.pos ≠ 18 ∨ a.mtoffs = 0)
    (f : List Byte) (hf : f ∈ fs) (hne : f ≠ []) (hlen : f.length < 48) (hparts : (wordParts rusTab f).length ≤ 8)
    (hlow : f.map rusTab.lower = f) (hsafe : D.SuffixSafe f) (dwsets : Nat) (hd : dwsets &&& 2 ≠ 0) (junk : List Byte) :
    rusCheck (st.images D.mtab) junk f dwsets = some 1 := by
  refine C48_recognized_partial h a ha i fs hfs (fun _ hg => ⟨fun hp => ?_, fun h0 e fl _ _ => ?_⟩) f hf hne hlen hparts hlow hsafe
    dwsets hd junk
  · rcases hn with hn | hn
    · exact steady_plural _ _ hn.1 hn.2 hp hg
    · exact absurd hp hn
  · rcases hm with hm | hm
    · exact steady_level _ _ _ _ hm
    · exact absurd hm h0

/-- The form as printed is accepted with its capitals: under any settings, with the restrictions of
`C17_printed_is_accepted_partial` (at most three parts, small letters, under demand 1 no part of one letter beside others). -/
theorem C48_printed_partial (h : RusOk A D st) (a : RusArticle) (ha : a ∈ D.arts) (i : Nat) (fs : List (List Byte))
    (hfs : D.BuiltForms a i fs ∨ D.FoundForms a i fs)
    (hs : a.Inflected → getGramInfo a.wdinfo i ≠ noInfo → D.Steady a (getGramInfo a.wdinfo i))
    (f : List Byte) (hf : f ∈ fs) (hne : f ≠ []) (hlen : f.length < 48) (hparts : (wordParts rusTab f).length ≤ 3)
    (htext : Text f) (hlow : f.map rusTab.lower = f) (hlet : ∀ c ∈ f, rusTab.ctype c ≠ ctInvalid)
    (hsmall : ∀ p ∈ wordParts rusTab f, Small rusTab p)
    (h1 : a.demand = 1 → 1 < (wordParts rusTab f).length → ∀ p ∈ wordParts rusTab f, 2 ≤ p.length)
    (hsafe : D.SuffixSafe f) (dwsets : Nat) (junk : List Byte) :
    rusCheck (st.images D.mtab) junk (rusPrinted a.demand f) dwsets = some 1 := by
  have hform : D.HasForm a f := by
    rcases hfs with h1 | h1
    · exact builtForms_hasForm hs h1 hf
    · exact foundForms_hasForm hs h1 hf
  obtain ⟨hcs, hpl⟩ := capSet_rusPrinted f [] a.demand a.demand_le htext
  obtain ⟨w1, e1, e2, e3⟩ := C16_same_letters rusTab rusTab_ok rusTab_upOk f [] a.demand htext hlet
  have : w1 = rusPrinted a.demand f := by rw [hcs] at e1; simpa using e1.symm
  subst this
  obtain ⟨w2, g1, _, g3⟩ := C16_parts rusTab rusTab_ok rusTab_upOk f [] a.demand a.demand_le htext
  have : w2 = rusPrinted a.demand f := by rw [hcs] at g1; simpa using g1.symm
  subst this
  have hnp : (wordParts rusTab (rusPrinted a.demand f)).length ≤ 3 := by
    rw [g3, List.length_zipWith]; omega
  have hne' : rusPrinted a.demand f ≠ [] := by
    intro h0; rw [h0] at hpl; exact hne (List.length_eq_zero_iff.1 hpl.symm)
  obtain ⟨w3, out, s, k1, k2, k3⟩ := C17_printed_is_accepted_partial rusTab rusTab_ok rusTab_upOk f [] a.demand a.demand_le htext hlen
    hsmall hparts h1
  have : w3 = rusPrinted a.demand f := by rw [hcs] at k1; simpa using k1.symm
  subst this
  have hfit : CapsFit rusTab (rusPrinted a.demand f) a.demand := by
    obtain ⟨s', h1, h2, h3, h4, h5⟩ := capGet_summary rusTab rusTab_ok formLength (rusPrinted a.demand f) hne' (by simp only [formLength]; omega) (by decide) (by omega)
    rw [show formLength = 48 from rfl, k2] at h1
    simp only [Option.some.injEq, Prod.mk.injEq] at h1
    rw [← h4 a.demand a.demand_le, ← h1.2]
    exact k3
  have hlow' : (rusPrinted a.demand f).map rusTab.lower = f := by rw [e3, hlow]
  obtain ⟨r, h1, _, h2⟩ := C43_check_exact_partial h (rusPrinted a.demand f) junk dwsets hne' (by omega) (by omega)
    (by rw [hlow']; exact hsafe)
  rw [h1, h2.2 ⟨a, ha, by rw [hlow']; exact hform, by simp [rusAdmits, hfit]⟩]

/-- Two compact tables: at 1 the accusative "" of both animacies, at 4 an adjective's "ый". -/
def c48Flex : List Byte := [0, 0, 1, 3, 0, 0x30, 0, 0, 1, 3, 0, 0x02, 2, 251, 233]

/-- "сон" in the class of both animacies (9), and a plural-only adjective (25) "сл" with singular forms. -/
def c48Dict : RusDict where
  ftab := c48Flex
  mtab := 0 :: mixSer (mixOf rusSampleAlts)
  alts := fun _ => rusSampleAlts
  arts := [⟨[241], 9, 1, 1, [], 300⟩, ⟨[241, 235], 25 + 0x40, 4, 0, [], 7⟩]

theorem c48_builds : (rusBuild c48Dict.ftab c48Dict.mtab c48Dict.arts).isSome = true := by decide +kernel

/-- What the compiler makes of it. -/
def c48State : RusState := (rusBuild c48Dict.ftab c48Dict.mtab c48Dict.arts).get c48_builds

theorem c48_flex : (∀ tf ∈ [1, 4], FlexOk c48Flex [251, 233] tf) ∧
    (∀ tf ∈ [1, 4], ∀ e g fl, Ending c48Flex tf e g fl → e.length ≤ 64) ∧
    (∀ tf ∈ [1, 4], SaneTable c48Flex tf) := by
  refine ⟨?_, ?_, ?_⟩
  · intro tf htf
    simp only [List.mem_cons, List.not_mem_nil, or_false] at htf
    rcases htf with rfl | rfl
    · exact flexOk_of (d := 3) (l := (allEndings c48Flex 3 1).get (by decide +kernel)) (by simp)
        (by decide) (by decide) (by decide) (by decide +kernel) (by decide +kernel)
    · exact flexOk_of (d := 3) (l := (allEndings c48Flex 3 4).get (by decide +kernel)) (by simp)
        (by decide) (by decide) (by decide) (by decide +kernel) (by decide +kernel)
  · intro tf htf e g fl he
    simp only [List.mem_cons, List.not_mem_nil, or_false] at htf
    rcases htf with rfl | rfl
    · have h : ∀ p ∈ (allEndings c48Flex 3 1).get (by decide +kernel), p.1.length ≤ 64 := by decide +kernel
      exact h _ (mem_allEndings he (d := 3) (by simp))
    · have h : ∀ p ∈ (allEndings c48Flex 3 4).get (by decide +kernel), p.1.length ≤ 64 := by decide +kernel
      exact h _ (mem_allEndings he (d := 3) (by simp))
  · intro tf htf
    refine saneTable_of [1, 4] tf ?_ (by decide +kernel) (by decide +kernel) (by decide +kernel)
    simp only [List.mem_cons, List.not_mem_nil, or_false] at htf ⊢
    rcases htf with rfl | rfl <;> simp

theorem c48_ok : RusOk [235, 241] c48Dict c48State where
  built := by simp [c48State]
  alpha := by decide
  letters := by decide
  stems := by decide
  short := by decide
  ids := by decide
  posts := by decide
  text := by decide
  words := by decide
  prepos := by decide
  plainw := by decide
  refs := by decide
  tables := by
    intro a ha hinf
    have : ∀ a ∈ c48Dict.arts, a.Inflected → a.tfoffs ∈ [1, 4] := by decide
    exact ⟨_, c48_flex.1 _ (this a ha hinf)⟩
  long := by
    intro a ha hinf
    have : ∀ a ∈ c48Dict.arts, a.Inflected → a.tfoffs ∈ [1, 4] := by decide
    exact c48_flex.2.1 _ (this a ha hinf)
  mixes := by
    intro a ha hmt
    have : ∀ a ∈ c48Dict.arts, a.mtoffs ≠ 0 → a.mtoffs = 1 := by decide
    rw [this a ha hmt]
    exact ⟨⟨by decide, by decide, by decide⟩, by decide, [], by decide +kernel⟩
  covers := by
    intro a ha
    have h1 : ∀ a ∈ c48Dict.arts, a.Inflected → a.tfoffs ∈ [1, 4] ∧ a.pos < 48 := by decide
    have h2 : ∀ a ∈ c48Dict.arts, a.mtoffs ≠ 0 → a.mtoffs = 1 := by decide
    refine C45_bounds_cover_partial c48Dict a (fun h => (h1 a ha h).2) (fun h => c48_flex.2.2 _ (h1 a ha h).1) ?_
    intro hinf hmt
    rw [h2 a ha hmt]
    exact ⟨Or.inr (by decide), ⟨by decide, by decide, by decide⟩, by decide, [], by decide +kernel⟩
  count := by decide
  classes := by decide +kernel
  plain := by decide +kernel
  size := by decide +kernel

theorem c48_ids : RusIdsOk c48Dict c48State := ⟨by decide, by decide +kernel⟩

/-- **C48** refuted: for the plural-only adjective BuildForm builds a singular form that CheckWord refuses; for a
noun of both animacies it builds the accusative with the alternant of the inanimate, which CheckWord refuses. -/
theorem C48_counterexample :
    rusBuildForm (c48State.images c48Dict.mtab) (List.replicate 15 0) (some (List.replicate 6 0)) 7 0
      = some (1, some [241, 235, 251, 233, 0, 0]) ∧
    rusCheck (c48State.images c48Dict.mtab) [] [241, 235, 251, 233] 2 = some 0 ∧
    rusBuildForm (c48State.images c48Dict.mtab) (List.replicate 14 0) (some (List.replicate 6 0)) 300 3
      = some (1, some [241, 238, 237, 0, 0, 0]) ∧
    rusCheck (c48State.images c48Dict.mtab) [] [241, 238, 237] 2 = some 0 := by decide +kernel

/-- The full statement is false. -/
theorem C48_not_full : ¬ C48_full := by
  intro hf
  obtain ⟨fs, f1⟩ := builtForms_exists c48_ok (a := ⟨[241, 235], 25 + 0x40, 4, 0, [], 7⟩) (by decide) 0
  have hc := C48_counterexample.2.1
  have hmem : [241, 235, 251, 233] ∈ fs := by
    unfold RusDict.BuiltForms RusDict.FoundForms at f1
    rw [if_neg (by decide), if_pos (by decide), if_neg (by decide)] at f1
    rcases f1 with ⟨x, es, g1, g2, rfl⟩ | ⟨g1, _⟩
    · have hx : x = [] := by simpa [RusDict.AltFor] using g1
      subst hx
      refine List.mem_map.2 ⟨[251, 233], (g2.mem _).2 ⟨3, ?_, by decide⟩, rfl⟩
      have : InTable c48Flex 4 ⟨3, 0x200, [251, 233], 0⟩ := ⟨[⟨3, 0x200, [251, 233], 0⟩], by decide +kernel, by simp⟩
      exact Ending.here this (by decide)
    · exact absurd (by simp [RusDict.AltFor]) (g1 [])
  have := hf _ _ _ c48_ok _ (by decide) 0 fs f1 _ hmem (by decide) (by decide) (by decide +kernel) (by decide +kernel)
    (c48Dict.suffixSafe_of_none (by decide) _) []
  rw [hc] at this
  exact absurd this (by decide)

/-- The hypotheses are met: "сна", genitive of "сон". -/
example : ∀ fs, rusSample.BuiltForms ⟨[241], 7, 1, 1, [], 300⟩ 1 fs → [241, 237, 224] ∈ fs →
    ∀ junk, rusCheck (rusSampleState.images rusSample.mtab) junk [241, 237, 224] 2 = some 1 := by
  intro fs h1 h2 junk
  refine C48_recognized_nouns rusSample_ok ⟨[241], 7, 1, 1, [], 300⟩ (by decide) 1 fs (Or.inl h1) (Or.inr (by decide))
    (Or.inl (by decide)) _ h2 (by decide) (by decide) (by decide +kernel) (by decide +kernel) ?_ 2 (by decide) junk
  intro a _ hw b hb
  have : a.post = [] := by
    have h3 : ∀ a ∈ rusSample.arts, [241, 237, 224] = a.stem ++ a.post → a.post = [] := by decide
    exact h3 a (by assumption) hw
  rw [this] at hb; simp at hb

end Libmorph
