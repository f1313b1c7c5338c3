import Verif.Lemmas.RusLemm
import Verif.Props.C46
import Verif.Props.C37
/-
C44, C49: Russian Lemmatize.
-/
namespace Libmorph
open Libmorph.Spec
variable {A : List Byte} {D : RusDict} {st : RusState}

/-- Every article has a dictionary form for the word (the library otherwise takes "any form", which reads
an array that no longer exists: `C44_no_dictionary_form`). -/
def RusDict.HasDict (D : RusDict) (w : List Byte) (dwsets : Nat) : Prop :=
  ∀ a ∈ D.arts, ∀ x e g, D.Reads a x e g → w = a.stem ++ x ++ e ++ a.post → ∃ fs, D.DictForms a g dwsets fs

theorem proper_few (h : RusOk A D st) {w : List Byte} {r : RusReading} (hp : D.Proper w r) : r.grams.length < 2 ^ 32 := by
  by_cases hinf : r.art.Inflected
  · obtain ⟨B, hB⟩ := h.tables _ hp.art hinf
    have := hB.few r.ending r.grams hp.once (fun d hd => by
      have := (hp.grams d).1 hd
      simp only [RusDict.Reads, if_pos hinf] at this
      exact this.1)
    omega
  · have : ∀ g ∈ r.grams, g = ⟨r.art.tfoffs, 0⟩ := by
      intro g hg
      have := (hp.grams g).1 hg
      simp only [RusDict.Reads, if_neg hinf] at this
      exact this.2.2
    have hrep := List.eq_replicate_of_mem this
    have hn := hp.once
    rw [hrep, List.nodup_replicate] at hn
    omega

theorem first_reads {w : List Byte} {r : RusReading} (hp : D.Proper w r) : D.Reads r.art r.alt r.ending r.first := by
  obtain ⟨g, gs, hg⟩ := List.exists_cons_of_ne_nil hp.some_
  rw [RusReading.first, hg, List.headD_cons]
  exact (hp.grams g).1 (by rw [hg]; simp)

/-- **C44** what Lemmatize reports: the readings of the word are its right readings (`C43`), one record for
each run of readings of one lexeme, with the lexeme, the least dictionary form printed with its capitals, and the
descriptions of the first reading of the run with their form numbers; what the others add is written behind
and not counted.  It fails only for lack of room and blames the right buffer; one spare record and description
are enough.  Missing: words of articles without dictionary form, and the descriptions not counted. -/
theorem C44_lemmatize_partial (h : RusOk A D st) (w : List Byte) (dwsets : Nat)
    (hne : w ≠ []) (hlen : w.length < 48) (hparts : (wordParts rusTab w).length ≤ 8)
    (hD : D.HasDict (w.map rusTab.lower) dwsets) :
    ∃ H, D.Readings (rusAdmits w dwsets) (w.map rusTab.lower) H ∧
    ∃ F : RusReading → List (List Byte), (∀ r ∈ H, D.DictForms r.art r.first dwsets (F r)) ∧ ∀ junk L B G,
      let gs := lemmGroups L.isSome (H.map fun r => r.step (F r))
      (GroupRoomy L B G gs → ∃ s, rusLemmatize (st.images D.mtab) junk w L B G dwsets = some ((gs.length : Int), s) ∧
        GroupReported L B G gs s ∧ SameSizes L B G s) ∧
      (JoinSafe L G (H.map fun r => r.step (F r)) → ¬ GroupFits L B G gs →
        ∃ r s, rusLemmatize (st.images D.mtab) junk w L B G dwsets = some (r, s) ∧ r < 0 ∧ GroupBlames L B G gs r ∧
          SameSizes L B G s) := by
  obtain ⟨H, hH⟩ := rusScanOf_exists h (w.map rusTab.lower) (by simpa using hlen)
  have hr := rusHeard_readings (dwsets := dwsets) hH
  have hex : ∀ r ∈ rusHeard H w dwsets, ∃ fs, D.DictForms r.art r.first dwsets fs := by
    intro r hm
    have hp := (hr.proper r hm).1
    exact hD _ hp.art _ _ _ (first_reads hp) hp.word
  classical
  refine ⟨rusHeard H w dwsets, hr, fun r => if hm : r ∈ rusHeard H w dwsets then (hex r hm).choose else [], ?_, ?_⟩
  · intro r hm
    simp only [dif_pos hm]
    exact (hex r hm).choose_spec
  intro junk L B G
  generalize hF : (fun r => if hm : r ∈ rusHeard H w dwsets then (hex r hm).choose else []) = F
  have hF' : ∀ r ∈ rusHeard H w dwsets, D.DictForms r.art r.first dwsets (F r) := by
    intro r hm
    subst hF
    simp only [dif_pos hm]
    exact (hex r hm).choose_spec
  have k := rusLemmatize_groups h w junk dwsets hne hlen hparts hH L B G F (fun _ => hF')
    (fun r hm => proper_few h (hr.proper r hm).1)
  refine ⟨fun hroom => ?_, fun hsafe hfit => ?_⟩
  · rcases k hroom.safe with ⟨s, k1, k2⟩ | ⟨k0, -⟩
    · exact ⟨s, k1, k2.reported, k2.sizes⟩
    · exact absurd hroom k0
  · rcases k hsafe with ⟨s, k1, k2⟩ | ⟨k0, r, s, k1, k2, k3⟩
    · exact absurd k2.fits hfit
    · refine ⟨r, s, k1, ?_, k2, k3⟩
      rcases k2 with ⟨h2, -⟩ | ⟨h2, -⟩ | ⟨h2, -⟩ <;> rw [h2] <;> decide

theorem bytesLt_asymm {a b : List Byte} (h : bytesLt a b = true) : bytesLt b a = false := by
  by_contra hc
  simp only [Bool.not_eq_false] at hc
  exact absurd (bytesLt_trans h hc) (by rw [bytesLt_irrefl]; simp)

/-- **C44** the dictionary form printed is one of the dictionary forms and none of them comes before it. -/
theorem C44_least (fs : List (List Byte)) (hne : fs ≠ []) : leastForm fs ∈ fs ∧ ∀ f ∈ fs, bytesLt f (leastForm fs) = false := by
  refine ⟨leastForm_mem hne, ?_⟩
  cases fs with
  | nil => exact absurd rfl hne
  | cons f fs =>
    have key : ∀ (l : List (List Byte)) (s : List Byte),
        let m := l.foldl (fun s x => if bytesLt x s then x else s) s
        (m = s ∨ bytesLt m s = true) ∧ ∀ x ∈ l, bytesLt x m = false := by
      intro l
      induction l with
      | nil => intro s; exact ⟨Or.inl rfl, by simp⟩
      | cons d l ih =>
        intro s
        simp only [List.foldl_cons]
        by_cases hd : bytesLt d s
        · rw [if_pos hd]
          obtain ⟨i1, i2⟩ := ih d
          refine ⟨Or.inr ?_, ?_⟩
          · rcases i1 with i1 | i1
            · rw [i1]; exact hd
            · exact bytesLt_trans i1 hd
          · intro x hx
            rcases List.mem_cons.1 hx with rfl | hx
            · rcases i1 with i1 | i1
              · rw [i1]; exact bytesLt_irrefl _
              · exact bytesLt_asymm i1
            · exact i2 x hx
        · rw [if_neg hd]
          obtain ⟨i1, i2⟩ := ih s
          refine ⟨i1, ?_⟩
          intro x hx
          rcases List.mem_cons.1 hx with rfl | hx
          · rcases i1 with i1 | i1
            · rw [i1]; simpa using hd
            · by_contra hc
              simp only [Bool.not_eq_false] at hc
              exact hd (bytesLt_trans hc i1)
          · exact i2 x hx
    obtain ⟨k1, k2⟩ := key fs f
    intro x hx
    rcases List.mem_cons.1 hx with rfl | hx
    · rcases k1 with k1 | k1
      · simp only [leastForm, k1]; exact bytesLt_irrefl _
      · exact bytesLt_asymm k1
    · exact k2 x hx

/-- **C44** what a reading adds to a record it joins: nothing when the record has form number 0, else
everything, also what the record has already (the numbers are compared before they are worked out). -/
theorem C44_joined_adds (fs fs' : List (List Byte)) (r r' : RusReading) (l : List LemmStep) :
    LemmGroup.adds (r.step fs, l) (r'.step fs') =
      if ∃ x ∈ LemmGroup.counted (r.step fs, l), x.idForm = 0 then [] else LemmGroup.counted (r'.step fs', []) := by
  simp only [LemmGroup.adds]
  split
  · rename_i hx
    have : ((r'.step fs').grs.filter fun r_1 => !((LemmGroup.counted (r.step fs, l)).any fun x => decide (x.idForm = r_1.idForm))) = [] := by
      rw [List.filter_eq_nil_iff]
      intro g hg
      simp only [RusReading.step, List.mem_map] at hg
      obtain ⟨y, -, rfl⟩ := hg
      obtain ⟨x, hx1, hx2⟩ := hx
      simp only [Bool.not_eq_true', Bool.not_eq_false, List.any_eq_true, decide_eq_true_eq]
      exact ⟨x, hx1, hx2⟩
    rw [this]; rfl
  · rename_i hx
    have : ((r'.step fs').grs.filter fun r_1 => !((LemmGroup.counted (r.step fs, l)).any fun x => decide (x.idForm = r_1.idForm)))
        = (r'.step fs').grs := by
      rw [List.filter_eq_self]
      intro g hg
      simp only [RusReading.step, List.mem_map] at hg
      obtain ⟨y, -, rfl⟩ := hg
      simp only [Bool.not_eq_true', List.any_eq_false, decide_eq_true_eq]
      exact fun x hx1 hx2 => hx ⟨x, hx1, hx2⟩
    rw [this]; rfl

/-- **C49** for every word the interface takes, CheckWord answers 1 exactly when Lemmatize - with any buffers
that are large enough - reports at least one lemma; without buffers no condition is left. -/
theorem C49_agree (h : RusOk A D st) (w : List Byte) (dwsets : Nat)
    (hne : w ≠ []) (hlen : w.length < 48) (hparts : (wordParts rusTab w).length ≤ 8) (junk : List Byte) :
    ∃ n : Nat, rusLemmatize (st.images D.mtab) junk w none none none dwsets = some ((n : Int), ⟨none, 0, ⟨none, 0⟩, none, 0, n⟩) ∧
      rusCheck (st.images D.mtab) junk w dwsets = some (if 0 < n then 1 else 0) := by
  obtain ⟨H, hH⟩ := rusScanOf_exists h (w.map rusTab.lower) (by simpa using hlen)
  have hr := rusHeard_readings (dwsets := dwsets) hH
  have k := rusLemmatize_groups h w junk dwsets hne hlen hparts hH none none none (fun _ => []) (by simp)
    (fun r hm => proper_few h (hr.proper r hm).1) (by intro l hl; simp at hl)
  have hg : (lemmGroups (none : Option (List Lemm)).isSome ((rusHeard H w dwsets).map fun r => r.step [])).length
      = (rusHeard H w dwsets).length := by
    rw [lemmGroups_apart _ _ (by intro h0; simp at h0)]; simp
  refine ⟨(rusHeard H w dwsets).length, ?_, ?_⟩
  · rcases k with ⟨s, k1, k2⟩ | ⟨k0, -⟩
    · rw [k1, hg]
      obtain ⟨s1, s2, s3, s4, s5, s6⟩ := s
      have e1 := k2.lemms; have e2 := k2.lcur; have e3 := k2.forms; have e4 := k2.grams; have e5 := k2.gcur; have e6 := k2.nbuilt
      simp only [HoldRecords, FormsHold, Option.isSome_none, Bool.false_eq_true, if_false, Bool.false_and] at e1 e2 e3 e4 e5 e6
      rw [show (lemmGroups false ((rusHeard H w dwsets).map fun r => r.step [])).length = (rusHeard H w dwsets).length from hg] at e6
      subst e1 e2 e3 e4 e5 e6
      rfl
    · exfalso
      apply k0
      exact ⟨⟨by simp, by simp, by simp, by simp⟩, by simp, by simp⟩
  · rw [rusCheck_heard w junk dwsets hne hlen hparts hH]
    cases rusHeard H w dwsets <;> simp

/-- **C49** with records, form and description buffers that are large enough (forms within the library's own
256 bytes), for words whose articles have dictionary forms. -/
theorem C49_agree_buffers (h : RusOk A D st) (w : List Byte) (dwsets : Nat)
    (hne : w ≠ []) (hlen : w.length < 48) (hparts : (wordParts rusTab w).length ≤ 8)
    (hD : D.HasDict (w.map rusTab.lower) dwsets) :
    ∃ nl nb ng : Nat, ∀ (junk : List Byte) (L : List Lemm) (B : List Byte) (G : List Gram), nl ≤ L.length → nb ≤ B.length → ng ≤ G.length →
      (∀ a ∈ D.arts, ∀ g fs, D.DictForms a g dwsets fs → (packed fs).length ≤ 256) →
      ∃ n s, rusLemmatize (st.images D.mtab) junk w (some L) (some B) (some G) dwsets = some (n, s) ∧
        rusCheck (st.images D.mtab) junk w dwsets = some (if 0 < n then 1 else 0) := by
  obtain ⟨H, hH⟩ := rusScanOf_exists h (w.map rusTab.lower) (by simpa using hlen)
  have hr := rusHeard_readings (dwsets := dwsets) hH
  have hex : ∀ r ∈ rusHeard H w dwsets, ∃ fs, D.DictForms r.art r.first dwsets fs := by
    intro r hm
    have hp := (hr.proper r hm).1
    exact hD _ hp.art _ _ _ (first_reads hp) hp.word
  classical
  let F : RusReading → List (List Byte) := fun r => if hm : r ∈ rusHeard H w dwsets then (hex r hm).choose else []
  have hF' : ∀ r ∈ rusHeard H w dwsets, D.DictForms r.art r.first dwsets (F r) := by
    intro r hm
    simp only [F, dif_pos hm]
    exact (hex r hm).choose_spec
  let gs := lemmGroups true ((rusHeard H w dwsets).map fun r => r.step (F r))
  refine ⟨gs.length + 1, (groupTexts gs).length + 1, (groupGrams gs).length + 1, fun junk L B G h1 h2 h3 h4 => ?_⟩
  have hrec := C37_records ((rusHeard H w dwsets).map fun r => r.step (F r))
  have hroom : GroupRoomy (some L) (some B) (some G) gs := by
    refine ⟨⟨?_, ?_, ?_, ?_⟩, ?_, ?_⟩
    · rintro l ⟨⟩; omega
    · rintro b ⟨⟩ _; exact h2
    · rintro b ⟨⟩ g hg
      have hm : g.1 ∈ (rusHeard H w dwsets).map fun r => r.step (F r) := by
        rw [← hrec.2.1, List.mem_flatMap]
        exact ⟨g, hg, by simp⟩
      obtain ⟨r, hr1, hr2⟩ := List.mem_map.1 hm
      rw [← hr2]
      exact h4 _ (hr.proper r hr1).1.art _ _ (hF' r hr1)
    · rintro l ⟨⟩ g ⟨⟩; omega
    · rintro _ l ⟨⟩ g ⟨⟩; omega
    · rintro _ l ⟨⟩ g ⟨⟩; omega
  have k := rusLemmatize_groups h w junk dwsets hne hlen hparts hH (some L) (some B) (some G) F (fun _ => hF')
    (fun r hm => proper_few h (hr.proper r hm).1) hroom.safe
  rcases k with ⟨s, k1, -⟩ | ⟨k0, -⟩
  · refine ⟨_, s, k1, ?_⟩
    rw [rusCheck_heard w junk dwsets hne hlen hparts hH]
    have : rusHeard H w dwsets = [] ↔ ¬ (0 : Int) < ((lemmGroups (some L).isSome ((rusHeard H w dwsets).map fun r => r.step (F r))).length : Int) := by
      constructor
      · intro h0; rw [h0]; simp [lemmGroups]
      · intro h0
        have hl : gs = [] := List.length_eq_zero_iff.1 (by
          have : (lemmGroups (some L).isSome ((rusHeard H w dwsets).map fun r => r.step (F r))).length = gs.length := rfl
          omega)
        have h5 := hrec.2.1
        rw [show lemmGroups true ((rusHeard H w dwsets).map fun r => r.step (F r)) = gs from rfl, hl] at h5
        simpa using h5
    by_cases h0 : rusHeard H w dwsets = []
    · rw [if_pos h0, if_neg (this.1 h0)]
    · rw [if_neg h0, if_pos (by_contra fun hc => h0 (this.2 hc))]
  · exact absurd hroom k0

/-- An article with an ending and an alternant for its dictionary request has dictionary forms. -/
theorem dictForms_of (h : RusOk A D st) {a : RusArticle} (ha : a ∈ D.arts) (hinf : a.Inflected) {g : FlexInfo} {dwsets : Nat}
    {x e : List Byte} {fl : Nat} (hx : D.AltFor a (dictRequest a.wdinfo g dwsets) x)
    (he : Ending D.ftab a.tfoffs e (dictRequest a.wdinfo g dwsets).gramm fl) (hfl : fl &&& (dictRequest a.wdinfo g dwsets).flags ≠ 0) :
    ∃ fs, D.DictForms a g dwsets fs := by
  obtain ⟨fs, h1, -⟩ := rusWordForms_inflected h ha hinf (dictRequest a.wdinfo g dwsets)
  refine ⟨fs, ?_⟩
  rw [RusDict.DictForms, if_pos hinf]
  refine ⟨?_, Or.inl h1⟩
  rcases h1 with ⟨y, es, -, h3, h4⟩ | ⟨h2, -⟩
  · rw [h4]
    have := (h3.mem e).2 ⟨fl, he, hfl⟩
    intro h0
    rw [List.map_eq_nil_iff] at h0
    rw [h0] at this; simp at this
  · exact absurd hx (h2 x)

theorem c44_ending_1 : Ending rusSample.ftab 1 [] 0 3 :=
  Ending.here (i := ⟨3, 0, [], 0⟩) ⟨(compactTable rusSampleFlex 1).get (by decide +kernel), by simp [rusSample], by decide +kernel⟩ (by decide)

theorem c44_ending_31 : Ending rusSample.ftab 31 [251] 0x800 3 :=
  Ending.here (i := ⟨3, 0x800, [251], 0⟩) ⟨(compactTable rusSampleFlex 31).get (by decide +kernel), by simp [rusSample], by decide +kernel⟩ (by decide)

/-- Every article of the sample has its dictionary form: the hypothesis of `C44` and `C49` holds of every word. -/
theorem rusSample_hasDict (w : List Byte) (dwsets : Nat) : rusSample.HasDict w dwsets := by
  intro a ha x e g _ _
  by_cases hinf : a.Inflected
  · have hs : ∃ y d fl, rusSample.AltFor a (dictRequest a.wdinfo g dwsets) y ∧
        Ending rusSample.ftab a.tfoffs d (dictRequest a.wdinfo g dwsets).gramm fl ∧ fl &&& (dictRequest a.wdinfo g dwsets).flags ≠ 0 := by
      have hreq : ∀ b ∈ rusSample.arts, b.Inflected → ¬ VerbPos b.wdinfo ∧ ¬ AdjPos b.wdinfo := by decide
      have hr := hreq a ha hinf
      have alt : rusSample.AltFor a ⟨0, 3⟩ [238, 237] ∨ a.mtoffs = 0 := by
        by_cases hm : a.mtoffs = 0
        · exact Or.inr hm
        · left
          have hl : ∀ b ∈ rusSample.arts, b.mtoffs ≠ 0 → Spec.altLevel b.wdinfo 0 3 - 1 = 0 := by decide
          rw [RusDict.AltFor, if_neg hm, hl a ha hm]
          refine ⟨Or.inl (by simp [rusSample, rusSampleAlts]), ?_⟩
          intro y hy
          left
          rcases hy with hy | ⟨hy, -⟩ <;>
            simpa [rusSample, rusSampleAlts] using hy
      simp only [dictRequest, if_neg hr.1, if_neg hr.2]
      by_cases hp : Spec.PluralOnly a.wdinfo
      · rw [if_pos hp]
        have h1 : ∀ b ∈ rusSample.arts, Spec.PluralOnly b.wdinfo → b.mtoffs = 0 ∧ b.tfoffs = 31 := by decide
        obtain ⟨m1, m2⟩ := h1 a ha hp
        refine ⟨[], [251], 3, ?_, ?_, by decide⟩
        · rw [RusDict.AltFor, if_pos m1]
        · rw [m2]
          exact c44_ending_31
      · rw [if_neg hp]
        have h1 : ∀ b ∈ rusSample.arts, b.Inflected → ¬ Spec.PluralOnly b.wdinfo → b.tfoffs = 1 := by decide
        have m2 := h1 a ha hinf hp
        rcases alt with alt | m1
        · exact ⟨_, [], 3, alt, by rw [m2]; exact c44_ending_1, by decide⟩
        · refine ⟨[], [], 3, ?_, by rw [m2]; exact c44_ending_1, by decide⟩
          rw [RusDict.AltFor, if_pos m1]
    obtain ⟨y, d, fl, h1, h2, h3⟩ := hs
    exact dictForms_of rusSample_ok ha hinf h1 h2 h3
  · exact ⟨_, by rw [RusDict.DictForms, if_neg hinf]⟩

/-- "сну" has the dictionary form "сон", and the name "Ивана" is printed with its capital. -/
example : (rusLemmatize (rusSampleState.images rusSample.mtab) [] [241, 237, 243] (some [⟨0, 0, 0, 0⟩, ⟨0, 0, 0, 0⟩])
      (some (List.replicate 8 77)) (some [⟨0, 0, 0, 0⟩, ⟨0, 0, 0, 0⟩]) 0).map (fun r => (r.1, r.2.lemms, r.2.grams))
    = some (1, some [⟨300, 0, 0, 1⟩, ⟨0, 0, 0, 0⟩], some [⟨7, 2, 0x2000, 3⟩, ⟨0, 0, 0, 0⟩]) ∧
    (rusLemmatize (rusSampleState.images rusSample.mtab) [] [241, 237, 243] (some [⟨0, 0, 0, 0⟩, ⟨0, 0, 0, 0⟩])
      (some (List.replicate 8 77)) (some [⟨0, 0, 0, 0⟩, ⟨0, 0, 0, 0⟩]) 0).map (fun r => r.2.forms.buf)
    = some (some [241, 238, 237, 0, 0, 77, 77, 77]) ∧
    (rusLemmatize (rusSampleState.images rusSample.mtab) [] [232, 226, 224, 237, 224] none
      (some (List.replicate 6 77)) none 2).map (fun r => (r.1, r.2.forms.buf)) = some (1, some [200, 226, 224, 237, 0, 0]) := by
  decide +kernel

/-- **C44** refuted for articles without dictionary form: CheckWord takes the word "сн" (an accusative of a noun that has no
nominative), but Lemmatize with a form buffer reads an array that no longer exists. -/
theorem C44_no_dictionary_form :
    rusCheck (c48State.images c48Dict.mtab) [] [241, 237] 2 = some 1 ∧
    rusLemmatize (c48State.images c48Dict.mtab) [] [241, 237] none (some (List.replicate 20 0)) none 2 = none ∧
    ¬ c48Dict.HasDict [241, 237] 2 := by
  refine ⟨by decide +kernel, by decide +kernel, fun hc => ?_⟩
  obtain ⟨H, -, F, -, hF⟩ := C44_lemmatize_partial c48_ok [241, 237] 2 (by decide) (by decide) (by decide) (by
    rw [show ([241, 237] : List Byte).map rusTab.lower = [241, 237] by decide]; exact hc)
  obtain ⟨h1, h2⟩ := hF [] none (some (List.replicate 20 0)) none
  have hnone : rusLemmatize (c48State.images c48Dict.mtab) [] [241, 237] none (some (List.replicate 20 0)) none 2 = none := by decide +kernel
  rw [hnone] at h1 h2
  by_cases hroom : GroupRoomy none (some (List.replicate 20 0)) none (lemmGroups (none : Option (List Lemm)).isSome (H.map fun r => r.step (F r)))
  · obtain ⟨s, h3, -⟩ := h1 hroom
    simp at h3
  · obtain ⟨r, s, h3, -⟩ := h2 (by intro l hl; simp at hl) (fun hf => hroom ⟨hf, by simp, by simp⟩)
    simp at h3

/-- One lexeme under two articles that differ in the part of speech: "там", an adverb and a particle. -/
def tamTwice : List RusArticle := [⟨[242, 224, 236], 54, 0, 0, [], 9⟩, ⟨[242, 224, 236], 52, 0, 0, [], 9⟩]

/-- **C44** refuted for the lexeme's other articles: the record counts one description, that of the particle; the adverb's
is written behind it, and its number is counted in the next record, which is not part of the answer. -/
theorem C44_lost_description :
    ((rusBuild [] [0] tamTwice).bind fun st => rusLemmatize (st.images [0]) [] [242, 224, 236] (some (List.replicate 3 ⟨0, 0, 0, 0⟩)) none
      (some (List.replicate 3 ⟨0, 0, 0, 0⟩)) 0).map (fun r => (r.1, r.2.lemms, r.2.grams))
    = some (1, some [⟨9, 0, 0, 1⟩, ⟨0, 0, 0, 2⟩, ⟨0, 0, 0, 0⟩], some [⟨52, 255, 0, 0⟩, ⟨54, 255, 0, 0⟩, ⟨0, 0, 0, 0⟩]) := by decide +kernel

/-- **C44** the form number Lemmatize reports need not be one BuildForm takes: for the preposition "в" it reports 255, for
which BuildForm has no form. -/
theorem C44_preposition_number :
    (rusLemmatize (rusSampleState.images rusSample.mtab) [] [226] (some [⟨0, 0, 0, 0⟩]) none (some [⟨0, 0, 0, 0⟩]) 0).map (fun r => (r.1, r.2.lemms, r.2.grams))
      = some (1, some [⟨12, 0, 0, 1⟩], some [⟨51, 255, 0x28, 0⟩]) ∧
    rusBuildForm (rusSampleState.images rusSample.mtab) (List.replicate 15 0) (some [77, 77, 77]) 12 255 = some (0, some [77, 77, 77]) := by
  decide +kernel

end Libmorph
