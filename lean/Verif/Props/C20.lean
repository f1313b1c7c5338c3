import Verif.Props.C64
import Verif.Props.C19
/-
C20: what BuildForm and FindForms leave in a buffer of any size.
-/
namespace Libmorph
open Spec

/-- A positive answer: so many strings, one after another, then a zero; what was behind it is there still. -/
theorem outcome_filled {r : Option (Int × Option (List Byte))} {fs : List (List Byte)} {sc : Prop} {B : List Byte} (h : FormOutcome r fs sc B) (ht : ∀ f ∈ fs, Text f)
    {n : Int} {b : Option (List Byte)} (hr : r = some (n, b)) (hn : 0 < n) :
    n = fs.length ∧ ∃ rest, B = B.take ((packed fs).length + 1) ++ rest ∧ b = some (packed fs ++ 0 :: rest) ∧ splitForms n.toNat (packed fs ++ 0 :: rest) = some fs := by
  obtain ⟨h1, h2, h3⟩ := h
  by_cases hsc : sc
  · by_cases h0 : fs = []
    · rw [h1 h0 hsc] at hr
      cases hr; omega
    · by_cases hf : (packed fs).length + 1 ≤ B.length
      · rw [h2 h0 hsc hf] at hr
        cases hr
        exact ⟨rfl, _, (List.take_append_drop _ _).symm, rfl, splitForms_packed fs _ ht⟩
      · obtain ⟨b', e, _⟩ := h3 (Or.inr ⟨h0, by omega⟩)
        rw [e] at hr; cases hr; omega
  · obtain ⟨b', e, _⟩ := h3 (Or.inl hsc)
    rw [e] at hr; cases hr; omega

/-- What the caller finds in the buffer after an answer n > 0: n strings, one after another, each ended by a zero, one more zero behind, and the old content behind that;
cutting the buffer at the zeros n times gives the forms. -/
def Filled (B : List Byte) (n : Int) (b : Option (List Byte)) (fs : List (List Byte)) : Prop :=
  n = fs.length ∧ ∃ rest, B = B.take ((packed fs).length + 1) ++ rest ∧ b = some (packed fs ++ 0 :: rest) ∧ splitForms n.toNat (packed fs ++ 0 :: rest) = some fs

/-- **C20, English.**  For a buffer of any size and content: when the call answers n > 0, the buffer holds the n forms of an entry with this number (of the entries that match
the word), as `Filled` says. -/
theorem C20_english {A : List Byte} {as : List Article} (h : EngOk A as) :
    (IdsOk as → ∀ junk id i, (lexkey id).length + junk.length = 16 → (∃ a ∈ as, a.id = id) →
      ∀ B n b, B ≠ [] → buildForm (engBuild as).images junk (some B) id i = some (n, b) → 0 < n →
        ∃ a ∈ as, a.id = id ∧ Filled B n b ((a.delivered i).map (printed a.demand))) ∧
    ∀ w dwsets, w ≠ [] → w.length < 48 → (wordParts engTab w).length ≤ 8 → ∃ H, Readings as w dwsets H ∧ ∀ junk B i n b, B ≠ [] →
      findForms (engBuild as).images junk (some B) w i dwsets = some (n, b) → 0 < n → Filled B n b (deliveredAll (H.map Prod.fst) i) := by
  constructor
  · intro hi junk id i hj hex B n b hB e hn
    obtain ⟨a, ha, h1, h2⟩ := buildForm_eq h hi junk id i hj hex B hB
    exact ⟨a, ha, h1, outcome_filled h2 (h.deliveredText ha i) e hn⟩
  · intro w dwsets hne hlen hparts
    obtain ⟨V, hV⟩ := scanOf_exists h (w.map engTab.lower) (by simpa using hlen)
    have hr := heard_readings hV.visits dwsets
    refine ⟨_, hr, fun junk B i n b hB e hn => ?_⟩
    have hmem : ∀ p ∈ heard V w dwsets, p.1 ∈ as := fun p hp => (mem_Matches.1 (hr.mem hp)).1
    refine outcome_filled (findForms_heard h w junk dwsets i hne hlen hparts hV B hB) ?_ e hn
    intro f hf
    simp only [deliveredAll, List.mem_flatMap] at hf
    obtain ⟨a, ha, hf⟩ := hf
    obtain ⟨p, hp, rfl⟩ := List.mem_map.1 ha
    exact h.deliveredText (hmem p hp) i f hf

/-- **C20, Russian.** -/
theorem C20_russian {A : List Byte} {D : RusDict} {st : RusState} (h : RusOk A D st) :
    (RusIdsOk D st → ∀ junk id i, (lexkey id).length + junk.length = 16 → (∃ a ∈ D.arts, a.id = id) →
      ∀ B n b, B ≠ [] → rusBuildForm (st.images D.mtab) junk (some B) id i = some (n, b) → 0 < n →
        ∃ a ∈ D.arts, a.id = id ∧ ∃ fs, D.BuiltForms a i fs ∧ Filled B n b (fs.map (rusPrinted a.demand))) ∧
    ∀ w dwsets, w ≠ [] → w.length < 48 → (wordParts rusTab w).length ≤ 8 → ∃ H, D.Readings (rusAdmits w dwsets) (w.map rusTab.lower) H ∧
      ∀ i, ∃ F : RusArticle → List (List Byte), (∀ a ∈ D.arts, D.FoundForms a i (F a)) ∧ ∀ junk B n b, B ≠ [] →
        rusFindForms (st.images D.mtab) junk (some B) w i dwsets = some (n, b) → 0 < n →
          Filled B n b (H.flatMap fun r => (F r.art).map (rusPrinted r.art.demand)) := by
  constructor
  · intro hi junk id i hj hex B n b hB e hn
    obtain ⟨a, ha, h1, fs, h2, h3⟩ := C46_build_form h hi junk id i hj hex B hB
    refine ⟨a, ha, h1, fs, h2, outcome_filled h3 ?_ e hn⟩
    intro f hf
    obtain ⟨g, hg, rfl⟩ := List.mem_map.1 hf
    exact rusPrinted_text _ a.demand_le _ (builtForms_text h ha h2 g hg)
  · intro w dwsets hne hlen hparts
    obtain ⟨H, h1, h2⟩ := C46_find_forms h w dwsets hne hlen hparts
    refine ⟨H, h1, fun i => ?_⟩
    obtain ⟨F, h3, h4⟩ := h2 i
    refine ⟨F, h3, fun junk B n b hB e hn => outcome_filled (h4 junk B hB) ?_ e hn⟩
    intro f hf
    obtain ⟨r, hr, hf⟩ := List.mem_flatMap.1 hf
    obtain ⟨g, hg, rfl⟩ := List.mem_map.1 hf
    have ha := (h1.proper r hr).1.art
    exact rusPrinted_text _ r.art.demand_le _ (foundForms_text h ha (h3 _ ha) g hg)

/-- The hypotheses are met: a call for lexeme 44344 with 17 bytes of 1s, and the Russian "сна" with eight bytes, answer 1. -/
example : EngOk engSampleLetters engSample ∧ IdsOk engSample ∧ (lexkey 44344).length + (List.replicate 14 0).length = 16 ∧
    (buildForm (engBuild engSample).images (List.replicate 14 0) (some (List.replicate 17 1)) 44344 1).map (·.1) = some 1 ∧
    Filled (List.replicate 8 77) 1 (some [241, 237, 243, 0, 0, 77, 77, 77]) [[241, 237, 243]] ∧
    rusFindForms (rusSampleState.images rusSample.mtab) [] (some (List.replicate 8 77)) [241, 237, 224] 2 0
      = some (1, some [241, 237, 243, 0, 0, 77, 77, 77]) :=
  ⟨engSample_ok, engSample_ids, by decide +kernel, by decide +kernel, ⟨rfl, [77, 77, 77], by decide, by decide, by decide +kernel⟩, by decide +kernel⟩

end Libmorph
