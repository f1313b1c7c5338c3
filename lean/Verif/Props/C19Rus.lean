import Verif.Props.C90
import Verif.Props.C46
import Verif.Props.C12Rus
import Verif.Props.C19
/-
C19 for the Russian analyser, and for Lemmatize of both with lexemes that match several times.
-/
namespace Libmorph
open Spec

variable {A : List Byte} {D : RusDict} {st : RusState}

/-- The words the theorems below cover: empty ones, shorter than 48 bytes with at most 8 parts, longer ones with at most 16. -/
def RusWordOk (w : List Byte) : Prop :=
  w = [] ∨ (w.length < 48 ∧ (wordParts rusTab w).length ≤ 8) ∨ (48 ≤ w.length ∧ (wordParts rusTab w).length ≤ 16)

/-- **C19** BuildForm: whatever the number, the form and the size of the buffer, the outcome is defined (nothing is written outside), the buffer keeps
its size and the only error is that of a buffer too small. -/
theorem C19_rus_buildForm (h : RusOk A D st) (hi : RusIdsOk D st) (junk : List Byte) (id i : Nat)
    (hid : id < 2 ^ 32) (hj : (lexkey id).length + junk.length = 16) (B : List Byte) (hB : B ≠ []) :
    ∃ n b, rusBuildForm (st.images D.mtab) junk (some B) id i = some (n, some b) ∧ b.length = B.length ∧ (n = LEMMBUFF_FAILED ∨ 0 ≤ n) := by
  by_cases hex : ∃ a ∈ D.arts, a.id = id
  · obtain ⟨a, -, -, fs, -, ho⟩ := C46_build_form h hi junk id i hj hex B hB
    obtain ⟨n, b, h1, h2, h3⟩ := ho.defined
    exact ⟨n, b, h1, h2, h3.imp (fun x => x) (fun x => by omega)⟩
  · exact ⟨0, B, C46_build_form_unknown h hi junk id i hid hj (fun a ha hc => hex ⟨a, ha, hc⟩) B hB, rfl, .inr (by omega)⟩

/-- **C19** FindForms: the same, for every word the library handles. -/
theorem C19_rus_findForms (h : RusOk A D st) (w junk : List Byte) (dwsets i : Nat) (hw : RusWordOk w) (B : List Byte) (hB : B ≠ []) :
    ∃ n b, rusFindForms (st.images D.mtab) junk (some B) w i dwsets = some (n, some b) ∧ b.length = B.length ∧
      (n = LEMMBUFF_FAILED ∨ n = WORDBUFF_FAILED ∨ 0 ≤ n) := by
  by_cases hne : w = []
  · subst hne; exact ⟨_, _, (C14_rus_empty _ junk dwsets).2.2.2.2.2 B i hB, rfl, by simp⟩
  rcases hw with rfl | ⟨hlen, h8⟩ | ⟨hlen, h16⟩
  · exact absurd rfl hne
  · obtain ⟨H, -, hF⟩ := C46_find_forms h w dwsets hne hlen h8
    obtain ⟨F, -, ho⟩ := hF i
    obtain ⟨n, b, h1, h2, h3⟩ := (ho junk B hB).defined
    exact ⟨n, b, h1, h2, h3.imp (fun x => x) (fun x => .inr (by omega))⟩
  · exact ⟨_, _, (C14_rus_too_long_partial _ junk w dwsets hlen h16).2.2 B i hB, rfl, by simp⟩

/-! ### Lemmatize -/

/-- Room in the sense of the repeated lexemes: no records or no descriptions are asked for, or there are more records than readings, or no lexeme
matches twice. -/
def RoomForRepeats (L : Option (List Lemm)) (G : Option (List Gram)) (ids : List Nat) : Prop :=
  L = none ∨ G = none ∨ (∃ l, L = some l ∧ ids.length < l.length) ∨ ids.Nodup

theorem joinStep_most (r : Bool) (gs : List LemmGroup) (H : List LemmStep) : (H.foldl (joinStep r) gs).length ≤ gs.length + H.length := by
  induction H generalizing gs with
  | nil => simp
  | cons p H ih =>
    refine Nat.le_trans (ih _) ?_
    have : (joinStep r gs p).length ≤ gs.length + 1 := by
      simp only [joinStep]
      split
      · split
        · simp only [List.length_append, List.length_dropLast, List.length_singleton]; omega
        · simp
      · simp
    simp only [List.length_cons]
    omega

theorem joinStep_ids (r : Bool) (gs : List LemmGroup) (H : List LemmStep) : ∀ g ∈ H.foldl (joinStep r) gs, (∃ x ∈ gs, x.1.id = g.1.id) ∨ ∃ p ∈ H, p.id = g.1.id := by
  induction H generalizing gs with
  | nil => intro g hg; exact .inl ⟨g, hg, rfl⟩
  | cons p H ih =>
    intro g hg
    rcases ih _ g hg with ⟨x, hx, e⟩ | ⟨q, hq, e⟩
    · have : (∃ y ∈ gs, y.1.id = x.1.id) ∨ p.id = x.1.id := by
        simp only [joinStep] at hx
        split at hx
        · rename_i y hy
          have hy := List.mem_of_getLast? hy
          split at hx
          · rcases List.mem_append.1 hx with hx | hx
            · exact .inl ⟨x, (List.dropLast_sublist _).subset hx, rfl⟩
            · rw [List.mem_singleton] at hx; subst hx; exact .inl ⟨y, hy, rfl⟩
          · rcases List.mem_append.1 hx with hx | hx
            · exact .inl ⟨x, hx, rfl⟩
            · rw [List.mem_singleton] at hx; subst hx; exact .inr rfl
        · rw [List.mem_singleton] at hx; subst hx; exact .inr rfl
      rcases this with ⟨y, hy, e2⟩ | e2
      · exact .inl ⟨y, hy, e2.trans e⟩
      · exact .inr ⟨p, by simp, e2.trans e⟩
    · exact .inr ⟨q, by simp [hq], e⟩

theorem lemmEnd_defined (L : Option (List Lemm)) (G : Option (List Gram)) (nb : Option Nat) (H : List LemmStep) (hr : RoomForRepeats L G (H.map LemmStep.id)) :
    lemmEnd (L.map List.length) nb (G.map List.length) [] H ≠ .undefined := by
  intro hu
  obtain ⟨h1, ⟨l, h2, h3⟩, P, p, Q, h4, h5⟩ := C90_undefined hu
  rcases hr with rfl | rfl | ⟨l', rfl, h6⟩ | h6
  · simp at h2
  · simp at h1
  · have := joinStep_most true [] H
    simp only [Option.map_some, Option.some.injEq] at h2
    simp only [List.length_nil, List.length_map] at this h6
    omega
  · simp only [Option.map_eq_some_iff] at h5
    obtain ⟨g, hg, he⟩ := h5
    rcases joinStep_ids true [] P g (List.mem_of_getLast? hg) with ⟨x, hx, -⟩ | ⟨q, hq, e⟩
    · simp at hx
    · rw [h4, List.map_append, List.map_cons, List.nodup_append] at h6
      exact h6.2.2 q.id (List.mem_map.2 ⟨q, hq, rfl⟩) p.id (by simp) (e.trans he)

/-- Defined, within the buffers, with a count or one of the documented errors. -/
def InBuffers (L : Option (List Lemm)) (B : Option (List Byte)) (G : Option (List Gram)) (res : Option (Int × LemmState)) : Prop :=
  ∃ r s, res = some (r, s) ∧ SameSizes L B G s ∧
    (0 ≤ r ∨ r = WORDBUFF_FAILED ∨ (r = LIDSBUFF_FAILED ∧ L.isSome) ∨ (r = LEMMBUFF_FAILED ∧ B.isSome) ∨ (r = GRAMBUFF_FAILED ∧ L.isSome ∧ G.isSome))

theorem answers_inBuffers {L : Option (List Lemm)} {B : Option (List Byte)} {G : Option (List Gram)} {gs : List LemmGroup} {res : Option (Int × LemmState)}
    {e : LemmEnd} (h : AnswersAs L B G gs res e) (hu : e ≠ .undefined) : InBuffers L B G res := by
  cases e with
  | undefined => exact absurd rfl hu
  | done =>
    obtain ⟨s, h1, -, h2⟩ := h
    exact ⟨_, s, h1, h2, .inl (by omega)⟩
  | code r =>
    obtain ⟨s, h1, hb, h2⟩ := h
    refine ⟨r, s, h1, h2, ?_⟩
    rcases hb with ⟨rfl, l, rfl, -⟩ | ⟨rfl, b, rfl, -⟩ | ⟨rfl, l, g, rfl, rfl, -⟩
    · exact .inr (.inr (.inl ⟨rfl, rfl⟩))
    · exact .inr (.inr (.inr (.inl ⟨rfl, rfl⟩)))
    · exact .inr (.inr (.inr (.inr ⟨rfl, rfl, rfl⟩)))

/-- **C19** Russian Lemmatize: with buffers of any sizes nothing is written outside them, as long as no lexeme matches twice, or there are more records than
readings, or records or descriptions are not asked for. -/
theorem C19_rus_lemmatize_partial (h : RusOk A D st) (w : List Byte) (dwsets : Nat) (hw : RusWordOk w) (hD : D.HasDict (w.map rusTab.lower) dwsets) :
    (w = [] ∨ 48 ≤ w.length → ∀ junk L B G, InBuffers L B G (rusLemmatize (st.images D.mtab) junk w L B G dwsets)) ∧
    (w ≠ [] → w.length < 48 → ∃ H, D.Readings (rusAdmits w dwsets) (w.map rusTab.lower) H ∧ ∀ junk L B G, RoomForRepeats L G (H.map fun r => r.art.id) →
      InBuffers L B G (rusLemmatize (st.images D.mtab) junk w L B G dwsets)) := by
  constructor
  · rintro hw' junk L B G
    by_cases hne : w = []
    · subst hne
      exact ⟨_, _, (C14_rus_empty _ junk dwsets).2.2.2.2.1 L B G, ⟨rfl, rfl, rfl⟩, .inl (by omega)⟩
    · rcases hw with rfl | ⟨hlen, -⟩ | ⟨hlen, h16⟩
      · exact absurd rfl hne
      · rcases hw' with rfl | hw'
        · exact absurd rfl hne
        · omega
      · exact ⟨_, _, (C14_rus_too_long_partial _ junk w dwsets hlen h16).2.1 L B G, ⟨rfl, rfl, rfl⟩, .inr (.inl rfl)⟩
  · intro hne hlen
    have h8 : (wordParts rusTab w).length ≤ 8 := by
      rcases hw with rfl | ⟨-, h8⟩ | ⟨h48, -⟩
      · exact absurd rfl hne
      · exact h8
      · omega
    obtain ⟨H, h1, F, -, h2⟩ := C90_russian h w dwsets hne hlen h8
    refine ⟨H, h1, fun junk L B G hr => answers_inBuffers (h2 junk L B G fun _ => hD) (lemmEnd_defined L G _ _ ?_)⟩
    rw [List.map_map]
    exact hr

/-- **C19** English Lemmatize, the same (`C19_lemmatize_partial` says more for words of which no lexeme matches twice). -/
theorem C19_lemmatize_repeats_partial {as : List Article} (h : EngOk A as) (w : List Byte) (dwsets : Nat) (hw : WordOk w)
    (hD : ∀ p ∈ Matches as w dwsets, p.1.dictForms ≠ []) (junk : List Byte) (L : Option (List Lemm)) (B : Option (List Byte)) (G : Option (List Gram))
    (hr : L = none ∨ G = none ∨ (∃ l, L = some l ∧ (Matches as w dwsets).length < l.length) ∨ ((Matches as w dwsets).map fun p => p.1.id).Nodup) :
    InBuffers L B G (lemmatize (engBuild as).images junk w L B G dwsets) := by
  by_cases hne : w = []
  · subst hne
    exact ⟨_, _, (C14_empty _ junk dwsets).2.2.2.2.1 L B G, ⟨rfl, rfl, rfl⟩, .inl (by omega)⟩
  rcases hw with rfl | ⟨hlen, h8⟩ | ⟨hlen, h16⟩
  · exact absurd rfl hne
  · obtain ⟨H, h1, h2⟩ := C90_english h w dwsets hne hlen h8
    refine answers_inBuffers (h2 junk L B G fun _ => hD) (lemmEnd_defined L G _ _ ?_)
    rw [List.map_map]
    have hsub := h1.sub
    rcases hr with hr | hr | ⟨l, hl, hr⟩ | hr
    · exact .inl hr
    · exact .inr (.inl hr)
    · refine .inr (.inr (.inl ⟨l, hl, ?_⟩))
      rw [List.length_map]
      exact Nat.lt_of_le_of_lt hsub.length_le hr
    · refine .inr (.inr (.inr ?_))
      obtain ⟨X, hX, hs⟩ := hsub
      have hn := hr.sublist (hs.map _)
      exact ((hX.map _).nodup_iff).1 hn
  · exact ⟨_, _, (C14_too_long_partial _ junk w dwsets hlen h16).2.1 L B G, ⟨rfl, rfl, rfl⟩, .inr (.inl rfl)⟩

/-- The hypotheses are met: the Russian sample dictionary, the word "сна" and three octets, one record, one description. -/
example (junk : List Byte) : ∃ n b, rusFindForms (rusSampleState.images rusSample.mtab) junk (some [1, 2, 3]) [241, 237, 224] 0 0 = some (n, some b) ∧ b.length = 3 ∧
    (n = LEMMBUFF_FAILED ∨ n = WORDBUFF_FAILED ∨ 0 ≤ n) :=
  C19_rus_findForms rusSample_ok [241, 237, 224] junk 0 0 (.inr (.inl ⟨by decide, by decide⟩)) [1, 2, 3] (by simp)
example : RusWordOk [241, 237, 224] ∧ rusSample.HasDict ([241, 237, 224].map rusTab.lower) 0 :=
  ⟨.inr (.inl ⟨by decide, by decide⟩), rusSample_hasDict _ _⟩
/-- The dictionary of `C19_counterexample`, in which "cut" matches one lexeme twice: with three records nothing is written outside. -/
theorem twoCuts_ok : EngOk [99, 115, 116, 117] twoCuts := by
  refine ⟨by decide, by decide, by decide +kernel, by decide, by decide, by decide, by decide, by decide, by decide +kernel, ?_,
    by decide +kernel, by decide, by decide +kernel, by decide +kernel, by decide +kernel⟩
  intro a ha e
  have h : ∀ a ∈ twoCuts, a.endings.length ≤ 64 := by decide +kernel
  exact Nat.le_trans (List.length_filter_le _ _) (h a ha)
example (junk : List Byte) : InBuffers (some (List.replicate 3 ⟨0, 0, 0, 0⟩)) none (some (List.replicate 64 ⟨0, 0, 0, 0⟩))
    (lemmatize (engBuild twoCuts).images junk [99, 117, 116] (some (List.replicate 3 ⟨0, 0, 0, 0⟩)) none (some (List.replicate 64 ⟨0, 0, 0, 0⟩)) 0) :=
  C19_lemmatize_repeats_partial twoCuts_ok [99, 117, 116] 0 (.inr (.inl ⟨by decide, by decide +kernel⟩)) (by decide +kernel) junk _ _ _
    (.inr (.inr (.inl ⟨_, rfl, by decide +kernel⟩)))

end Libmorph
