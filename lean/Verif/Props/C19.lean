import Verif.Lemmas.Wrapper
import Verif.Lemmas.LidScan
import Verif.Props.C11
/-
C19, C20, C21, C22: output buffers and built forms (English).
-/
namespace Libmorph

/-- The words the library handles: empty, at most eight parts, or too long with at most sixteen parts
(more parts are shifted out of range, `C15_counterexample_shift`). -/
def WordOk (w : List Byte) : Prop :=
  w = [] ∨ (w.length < 48 ∧ (wordParts engTab w).length ≤ 8) ∨ (48 ≤ w.length ∧ (wordParts engTab w).length ≤ 16)

/-! ### C19 -/

/-- **C19** BuildForm: whatever the id, the form number and the size of the buffer, the outcome is defined (no
write outside the buffer), the buffer keeps its size, and the only error is LEMMBUFF_FAILED. -/
theorem C19_buildForm {A : List Byte} {as : List Article} (h : EngOk A as) (hi : IdsOk as) (junk : List Byte) (id i : Nat)
    (hid : id < 2 ^ 32) (hj : (lexkey id).length + junk.length = 16) (B : List Byte) (hB : B ≠ []) :
    ∃ n b, buildForm (engBuild as).images junk (some B) id i = some (n, some b) ∧ b.length = B.length ∧
      (n = LEMMBUFF_FAILED ∨ 0 ≤ n) := by
  by_cases hex : ∃ a ∈ as, a.id = id
  · obtain ⟨a, -, -, ho⟩ := buildForm_eq h hi junk id i hj hex B hB
    obtain ⟨n, b, h1, h2, h3⟩ := ho.defined
    exact ⟨n, b, h1, h2, h3.imp (fun x => x) (fun x => by omega)⟩
  · refine ⟨0, B, ?_, rfl, Or.inr (le_refl _)⟩
    have := lid_absent h hi junk id hid hj (fun a ha hc => hex ⟨a, ha, hc⟩)
    simp [buildForm, this, List.length_eq_zero_iff, hB]

/-- **C19** FindForms: the same, for every word the library handles. -/
theorem C19_findForms {A : List Byte} {as : List Article} (h : EngOk A as) (w junk : List Byte) (dwsets i : Nat)
    (hw : WordOk w) (B : List Byte) (hB : B ≠ []) :
    ∃ n b, findForms (engBuild as).images junk (some B) w i dwsets = some (n, some b) ∧ b.length = B.length ∧
      (n = LEMMBUFF_FAILED ∨ n = WORDBUFF_FAILED ∨ 0 ≤ n) := by
  rcases hw with rfl | ⟨hlen, h8⟩ | ⟨hlen, h16⟩
  · exact ⟨_, _, (C14_empty _ junk dwsets).2.2.2.2.2 B i hB, rfl, by simp⟩
  · by_cases hne : w = []
    · subst hne; exact ⟨_, _, (C14_empty _ junk dwsets).2.2.2.2.2 B i hB, rfl, by simp⟩
    · obtain ⟨V, hV⟩ := scanOf_exists h (w.map engTab.lower) (by simpa using hlen)
      obtain ⟨n, b, h1, h2, h3⟩ := (findForms_heard h w junk dwsets i hne hlen h8 hV B hB).defined
      exact ⟨n, b, h1, h2, h3.imp (fun x => x) (fun x => Or.inr (by omega))⟩
  · exact ⟨_, _, (C14_too_long_partial _ junk w dwsets hlen h16).2.2 B i hB, rfl, by simp⟩

/-- **C19** Lemmatize: for every combination of supplied and absent buffers of any sizes the outcome is
defined, the buffers keep their sizes; it succeeds exactly when the buffers are large enough, and otherwise
the code names a buffer that is too small.
Missing: the same lexeme matching twice (false, `C19_counterexample`), lexemes without forms numbered
below 16 (see `C11_counterexample`). -/
theorem C19_lemmatize_partial {A : List Byte} {as : List Article} (h : EngOk A as) (w : List Byte) (dwsets : Nat)
    (hw : WordOk w) (hid : ((Matches as w dwsets).map fun p => p.1.id).Nodup)
    (hD : ∀ p ∈ Matches as w dwsets, p.1.dictForms ≠ []) :
    ∃ H, H.Subperm (Matches as w dwsets) ∧ ∀ junk L B G, ∃ r s,
      lemmatize (engBuild as).images junk w L B G dwsets = some (r, s) ∧ SameSizes L B G s ∧
      (w.length < 48 → (0 ≤ r ↔ Roomy L B G H)) ∧ (48 ≤ w.length → r = WORDBUFF_FAILED) ∧
      (r < 0 → r = WORDBUFF_FAILED ∧ 48 ≤ w.length ∨
        r = LIDSBUFF_FAILED ∧ (∃ l, L = some l ∧ l.length < H.length) ∨
        r = LEMMBUFF_FAILED ∧ (∃ b, B = some b ∧ (b.length < (lemmTexts H).length + 1 ∨
            ∃ p ∈ H, 256 < (packed p.1.dictForms).length)) ∨
        r = GRAMBUFF_FAILED ∧ (∃ l g, L = some l ∧ G = some g ∧ g.length < (lemmGramsAll H).length)) := by
  have hempty : ∀ L B G, Roomy L B G [] := fun L B G =>
    ⟨fun _ _ => Nat.zero_le _, fun _ _ h0 => absurd rfl h0, fun _ _ _ hp => absurd hp (by simp), fun _ _ _ _ => by simp [lemmGramsAll]⟩
  by_cases hne : w = []
  · subst hne
    refine ⟨[], List.nil_subperm, fun junk L B G => ⟨_, _, (C14_empty _ junk dwsets).2.2.2.2.1 L B G, ⟨rfl, rfl, rfl⟩, ?_, ?_, ?_⟩⟩
    · intro _; exact ⟨fun _ => hempty L B G, fun _ => le_refl _⟩
    · intro h48; simp at h48
    · intro h0; omega
  · rcases hw with rfl | ⟨hlen, h8⟩ | ⟨hlen, h16⟩
    · exact absurd rfl hne
    · obtain ⟨V, hV⟩ := scanOf_exists h (w.map engTab.lower) (by simpa using hlen)
      have hr := heard_readings hV.visits dwsets
      refine ⟨heard V w dwsets, hr.sub, fun junk L B G => ?_⟩
      obtain ⟨k1, k2⟩ := lemmatize_heard h w junk dwsets hne hlen h8 hV L B G (fun _ => heard_ids hr hid)
        (fun _ p hp => hD p (hr.mem hp))
      by_cases hroom : Roomy L B G (heard V w dwsets)
      · obtain ⟨s, h1, h2⟩ := k1 hroom
        refine ⟨_, s, h1, h2.sizes hroom, fun _ => ⟨fun _ => hroom, fun _ => by omega⟩, fun h48 => by omega, fun h0 => by omega⟩
      · obtain ⟨r, s, h1, h2, h3⟩ := k2 hroom
        have hneg : r < 0 := by
          rcases h2 with ⟨h2, -⟩ | ⟨h2, -⟩ | ⟨h2, -⟩ <;> rw [h2] <;> decide
        exact ⟨r, s, h1, h3, fun _ => ⟨fun hc => by omega, fun hc => absurd hc hroom⟩, fun h48 => by omega, fun _ => Or.inr h2⟩
    · refine ⟨[], List.nil_subperm, fun junk L B G => ?_⟩
      have := (C14_too_long_partial (engBuild as).images junk w dwsets hlen h16).2.1 L B G
      exact ⟨_, _, this, ⟨rfl, rfl, rfl⟩, fun h48 => by omega, fun _ => rfl, fun _ => Or.inl ⟨rfl, hlen⟩⟩

/-- A dictionary with one lexeme filed under two articles that share a form: "cut|0|s V", "cut|0|s N". -/
def twoCuts : List Article := [⟨[99, 117, 116], [124, 48, 124, 115], 2, [], 5⟩, ⟨[99, 117, 116], [124, 48, 124, 115], 1, [], 5⟩]

/-- **C19** refuted for a lexeme that matches twice: with one record (and one is all that is needed) and a
description buffer, the second match writes into the record behind the end of the caller's array. -/
theorem C19_counterexample :
    lemmatize (engBuild twoCuts).images [] [99, 117, 116] (some [⟨0, 0, 0, 0⟩]) none (some (List.replicate 64 ⟨0, 0, 0, 0⟩)) 0
      = none := by decide +kernel

/-- The hypotheses of the theorems are met: "brothers" in the sample dictionary, any buffers. -/
example : WordOk [98, 114, 111, 116, 104, 101, 114, 115] ∧
    ((Matches engSample [98, 114, 111, 116, 104, 101, 114, 115] 0).map fun p => p.1.id).Nodup ∧
    ∀ p ∈ Matches engSample [98, 114, 111, 116, 104, 101, 114, 115] 0, p.1.dictForms ≠ [] :=
  ⟨Or.inr (Or.inl ⟨by decide, by decide +kernel⟩), by decide +kernel, by decide +kernel⟩
example : ∃ n b, buildForm (engBuild engSample).images (List.replicate 14 0) (some [1, 2, 3]) 300 1 = some (n, some b) ∧
    b.length = 3 ∧ (n = LEMMBUFF_FAILED ∨ 0 ≤ n) :=
  C19_buildForm engSample_ok engSample_ids _ 300 1 (by decide) (by decide) _ (by decide)

/-! ### C20 -/

/-- **C20** splitting as the C++ wrapper does recovers the strings, for any strings without zeros and any bytes
after them. -/
theorem C20_split (fs : List (List Byte)) (rest : List Byte) (h : ∀ f ∈ fs, ∀ b ∈ f, b ≠ 0 ∧ b < 256) :
    splitForms fs.length (packed fs ++ rest) = some fs := splitForms_packed fs rest h

/-- **C20** the wrapper of BuildForm, whatever its stack buffer contained: the forms of (an article of) the
lexeme, in print, if they fit in 255 bytes with their terminators, otherwise none. -/
theorem C20_buildForm {A : List Byte} {as : List Article} (h : EngOk A as) (hi : IdsOk as) (junk buffer : List Byte)
    (id i : Nat) (hj : (lexkey id).length + junk.length = 16) (hb : buffer.length = 256) (hex : ∃ a ∈ as, a.id = id) :
    ∃ a ∈ as, a.id = id ∧ wrapBuildForm (engBuild as).images junk buffer id i
      = some (if (packed (a.delivered i)).length ≤ 255 then (a.delivered i).map (printed a.demand) else []) := by
  obtain ⟨a, ha, h1, h2⟩ := buildForm_eq h hi junk id i hj hex buffer (by rintro rfl; simp at hb)
  refine ⟨a, ha, h1, ?_⟩
  have := wrap_outcome h2 (h.deliveredText ha i)
  simp only [wrapBuildForm, bind]
  have hw : ((buildForm (engBuild as).images junk (some buffer) id i).bind fun x => splitForms x.1.toNat (x.2.getD []))
      = _ := this
  refine hw.trans ?_
  rw [printed_packed_length h ha, hb]
  congr 1
  by_cases hc : (packed (a.delivered i)).length ≤ 255
  · rw [if_pos ⟨by omega, by omega⟩, if_pos hc]
  · rw [if_neg (by omega), if_neg hc]

/-- **C20** the wrapper of FindForms: the requested forms of the readings of the word, one after another. -/
theorem C20_findForms {A : List Byte} {as : List Article} (h : EngOk A as) (w : List Byte) (dwsets : Nat)
    (hne : w ≠ []) (hlen : w.length < 48) (hparts : (wordParts engTab w).length ≤ 8) :
    ∃ H, Readings as w dwsets H ∧ ∀ junk buffer i, buffer.length = 256 →
      (packed (deliveredAll (H.map Prod.fst) i)).length ≤ 255 →
      wrapFindForms (engBuild as).images junk buffer w i dwsets = some (deliveredAll (H.map Prod.fst) i) := by
  obtain ⟨V, hV⟩ := scanOf_exists h (w.map engTab.lower) (by simpa using hlen)
  have hr := heard_readings hV.visits dwsets
  refine ⟨_, hr, fun junk buffer i hb hfit => ?_⟩
  have hmem : ∀ p ∈ heard V w dwsets, p.1 ∈ as := fun p hp => (mem_Matches.1 (hr.mem hp)).1
  have h2 := findForms_heard h w junk dwsets i hne hlen hparts hV buffer (by rintro rfl; simp at hb)
  have ht : ∀ f ∈ deliveredAll ((heard V w dwsets).map Prod.fst) i, Text f := by
    intro f hf
    simp only [deliveredAll, List.mem_flatMap] at hf
    obtain ⟨a, ha, hf⟩ := hf
    obtain ⟨p, hp, rfl⟩ := List.mem_map.1 ha
    exact h.deliveredText (hmem p hp) i f hf
  have hsc : ∀ p ∈ heard V w dwsets, (packed (p.1.delivered i)).length ≤ 256 := by
    intro p hp
    rw [← printed_packed_length h (hmem p hp) i]
    refine Nat.le_trans ?_ (Nat.le_succ_of_le hfit)
    generalize heard V w dwsets = H at hp
    clear hfit ht h2 hmem hr
    induction H with
    | nil => simp at hp
    | cons q H ih =>
      rw [List.map_cons, deliveredAll_cons, packed_append, List.length_append]
      rcases List.mem_cons.1 hp with rfl | hp
      · omega
      · have := ih hp; omega
  classical
  have := wrap_outcome h2 ht
  simp only [wrapFindForms, bind]
  refine this.trans ?_
  rw [if_pos ⟨hsc, by omega⟩]

theorem EngOk.lemmaText {A : List Byte} {as : List Article} (h : EngOk A as) {a : Article} (ha : a ∈ as) : Text a.lemma := by
  refine printed_text _ (demand_le a) _ ?_
  cases hd : a.dictForms with
  | nil => intro b hb; simp at hb
  | cons f l => exact h.dictText ha f (by simp [hd])

/-- **C64** the wrapper of Lemmatize, English, whatever its stack buffers contained: when the readings of the
word are distinct lexemes with dictionary forms, it returns exactly one lexeme per reading, with its id, its
dictionary form in print and its descriptions, if these fit 32 records, 64 descriptions, 256 bytes, and throws
otherwise.
Missing: a lexeme that matches twice (`C37_counterexample`; all words: `C90_wrapper_english`). -/
theorem C64_unmerged_partial {A : List Byte} {as : List Article} (h : EngOk A as) (w : List Byte) (dwsets : Nat)
    (hne : w ≠ []) (hlen : w.length < 48) (hparts : (wordParts engTab w).length ≤ 8)
    (hid : ((Matches as w dwsets).map fun p => p.1.id).Nodup)
    (hD : ∀ p ∈ Matches as w dwsets, p.1.dictForms ≠ []) :
    ∃ H, Readings as w dwsets H ∧ ∀ junk lx gr st, lx.length = 32 → gr.length = 64 → st.length = 256 →
      (H.length ≤ 32 ∧ (lemmGramsAll H).length ≤ 64 ∧ (lemmTexts H).length ≤ 255 ∧
          (∀ p ∈ H, (packed p.1.dictForms).length ≤ 256) →
        wrapLemmatize (engBuild as).images junk lx gr st w dwsets
          = some (.ok (H.map fun p => ⟨p.1.id, p.1.lemma, p.1.described p.2⟩))) ∧
      (¬ (H.length ≤ 32 ∧ (lemmGramsAll H).length ≤ 64 ∧ (lemmTexts H).length ≤ 255 ∧
          (∀ p ∈ H, (packed p.1.dictForms).length ≤ 256)) →
        ∃ e, e < 0 ∧ wrapLemmatize (engBuild as).images junk lx gr st w dwsets = some (.error e)) := by
  obtain ⟨V, hV⟩ := scanOf_exists h (w.map engTab.lower) (by simpa using hlen)
  have hr := heard_readings hV.visits dwsets
  refine ⟨_, hr, fun junk lx gr st hl hg hs => ?_⟩
  obtain ⟨k1, k2⟩ := lemmatize_heard h w junk dwsets hne hlen hparts hV (some lx) (some st) (some gr) (fun _ => heard_ids hr hid)
    (fun _ p hp => hD p (hr.mem hp))
  have hmem : ∀ p ∈ heard V w dwsets, p.1 ∈ as := fun p hp => (mem_Matches.1 (hr.mem hp)).1
  generalize heard V w dwsets = H at k1 k2 hmem
  constructor
  · rintro ⟨r1, r2, r3, r4⟩
    obtain ⟨s, s1, s2⟩ := k1 ⟨by simpa [hl] using r1, by intro b hb _; simp at hb; subst hb; omega, fun _ _ => r4,
      by simpa [hg] using r2⟩
    simp only [wrapLemmatize, s1, bind, Option.bind_some]
    rw [if_neg (by omega), s2.lemms, s2.texts, s2.grams]
    simp only [Option.isSome_some, if_true, Option.map_some, Option.getD_some, Int.toNat_natCast]
    rw [if_pos (by simp [lemmRecords_length]), List.take_left' (by rw [lemmRecords_length])]
    have := readLexemes H (fun p hp => h.lemmaText (hmem p hp)) [] (0 :: st.drop ((lemmTexts H).length + 1)) []
      (gr.drop (lemmGramsAll H).length)
    simp only [List.length_nil, List.nil_append] at this
    by_cases h0 : H = []
    · subst h0
      rfl
    · rw [if_neg h0, this]
      rfl
  · intro hbad
    obtain ⟨r, s, h1, h2, -⟩ := k2 (by
      rintro ⟨r1, r2, r3, r4⟩
      apply hbad
      refine ⟨by simpa [hl] using r1 lx rfl, by simpa [hg] using r4 lx rfl gr rfl, ?_, r3 st rfl⟩
      by_cases h0 : H = []
      · subst h0; simp [lemmTexts, packed]
      · have := r2 st rfl h0; omega)
    have hneg : r < 0 := by
      rcases h2 with ⟨h2, -⟩ | ⟨h2, -⟩ | ⟨h2, -⟩ <;> rw [h2] <;> decide
    exact ⟨r, hneg, by simp [wrapLemmatize, h1, hneg]⟩

/-- The hypotheses are met: both "brother" and "brothers-in-law" in the sample. -/
example : wrapBuildForm (engBuild engSample).images (List.replicate 14 0) (List.replicate 256 77) 44344 1
    = some [[98, 114, 111, 116, 104, 101, 114, 115, 45, 105, 110, 45, 108, 97, 119]] := by decide +kernel
example : wrapFindForms (engBuild engSample).images [] (List.replicate 256 77) [80, 97, 114, 105, 115] 1 0
    = some [[80, 97, 114, 105, 115, 39, 115]] := by decide +kernel
example : wrapLemmatize (engBuild engSample).images [] (List.replicate 32 ⟨0, 0, 0, 0⟩) (List.replicate 64 ⟨0, 0, 0, 0⟩)
    (List.replicate 256 77) [98, 114, 111, 116, 104, 101, 114, 115] 0
    = some (.ok [⟨300, [98, 114, 111, 116, 104, 101, 114], [⟨1, 1, 0, 0⟩]⟩]) := by decide +kernel
example : ((Matches engSample [98, 114, 111, 116, 104, 101, 114, 115] 0).map fun p => p.1.id).Nodup ∧
    ∀ p ∈ Matches engSample [98, 114, 111, 116, 104, 101, 114, 115] 0, p.1.dictForms ≠ [] := by decide +kernel

/-! ### C21 -/

/-- **C21** BuildForm: the border is exact.  There are forms `fs` (those of an article of the lexeme) such that
for every buffer, as long as there are forms and they fit the library's own 256 bytes, the call
returns their number exactly when the buffer is one byte longer than the strings with their terminators, and
LEMMBUFF_FAILED exactly when it is not.
Missing: forms of more than 256 bytes together are refused whatever the buffer (`C21_counterexample`). -/
theorem C21_exact_partial {A : List Byte} {as : List Article} (h : EngOk A as) (hi : IdsOk as) (id i : Nat)
    (hex : ∃ a ∈ as, a.id = id) (huniq : ∀ a ∈ as, ∀ b ∈ as, a.id = id → b.id = id → a = b) :
    ∃ a ∈ as, a.id = id ∧ ∀ junk B, (lexkey id).length + junk.length = 16 → B ≠ [] → a.delivered i ≠ [] →
      (packed (a.delivered i)).length ≤ 256 →
      ((∃ b, buildForm (engBuild as).images junk (some B) id i = some (((a.delivered i).length : Int), b)) ↔
        (packed (a.delivered i)).length + 1 ≤ B.length) ∧
      ((∃ b, buildForm (engBuild as).images junk (some B) id i = some (LEMMBUFF_FAILED, b)) ↔
        ¬ (packed (a.delivered i)).length + 1 ≤ B.length) := by
  obtain ⟨a, ha, hid⟩ := hex
  refine ⟨a, ha, hid, fun junk B hj hB hne hsc => ?_⟩
  obtain ⟨a', ha', hid', h1, h2, h3⟩ := buildForm_eq h hi junk id i hj ⟨a, ha, hid⟩ B hB
  have := huniq a ha a' ha' hid hid'
  subst this
  rw [printed_packed_length h ha] at h2 h3
  simp only [List.length_map, ne_eq, List.map_eq_nil_iff] at h2 h3
  by_cases hfit : (packed (a.delivered i)).length + 1 ≤ B.length
  · rw [h2 hne hsc hfit]
    refine ⟨⟨fun _ => hfit, fun _ => ⟨_, rfl⟩⟩, ⟨?_, fun hc => absurd hfit hc⟩⟩
    rintro ⟨b, hb⟩
    simp only [Option.some.injEq, Prod.mk.injEq] at hb
    have := hb.1
    simp only [LEMMBUFF_FAILED] at this; omega
  · obtain ⟨b, hb, -⟩ := h3 (Or.inr ⟨hne, by omega⟩)
    rw [hb]
    refine ⟨⟨?_, fun hc => absurd hc hfit⟩, ⟨fun _ => hfit, fun _ => ⟨_, rfl⟩⟩⟩
    rintro ⟨b', hb'⟩
    simp only [Option.some.injEq, Prod.mk.injEq] at hb'
    have := hb'.1
    omega

/-- An article whose form 0 has ten spellings of thirty letters. -/
def longForms : Article :=
  ⟨List.replicate 28 97, 124 :: ([98, 99, 100, 101, 102, 103, 104, 105, 106, 107].flatMap fun b => [b, b, 47]), 1, [], 5⟩

/-- **C21** refuted beyond 256 bytes: the ten forms take 310 bytes, a buffer of a thousand is refused. -/
theorem C21_counterexample :
    ((longForms.endings.filter fun p => p.2 = 0).map fun p => (longForms.lowStem ++ p.1 ++ longForms.post).length + 1).sum = 310 ∧
    (buildForm (engBuild [longForms]).images (List.replicate 15 0) (some (List.replicate 1000 0)) 5 0).map (·.1) = some (-1) := by
  decide +kernel

/-- The border in the sample: "brothers-in-law" has 15 letters, 17 bytes are needed. -/
example : (buildForm (engBuild engSample).images (List.replicate 14 0) (some (List.replicate 17 1)) 44344 1).map (·.1) = some 1 ∧
    (buildForm (engBuild engSample).images (List.replicate 14 0) (some (List.replicate 16 1)) 44344 1).map (·.1) = some (-1) := by
  decide +kernel

/-! ### C22 -/

/-- **C22** the forms built for an article that is alone with its id: stem + ending + suffix over the endings
listed under the form number (in byte order, as the tables are sorted), in print; for an uninflected
word and the number 255 the word.
Missing: an uninflected word with a suffix is built without its suffix (`C22_counterexample`). -/
theorem C22_forms_partial {A : List Byte} {as : List Article} (h : EngOk A as) (hi : IdsOk as) (a : Article) (ha : a ∈ as)
    (huniq : ∀ b ∈ as, b.id = a.id → b = a) (hpost : a.Inflected ∨ a.post = []) (i : Nat) (junk B : List Byte)
    (hj : (lexkey a.id).length + junk.length = 16) (hB : B ≠ [])
    (hsc : (packed (a.formsFor i)).length ≤ 256) (hfit : (packed (a.formsFor i)).length + 1 ≤ B.length) :
    ∃ b, buildForm (engBuild as).images junk (some B) a.id i = some (((a.formsFor i).length : Int), some b) ∧
      packed ((a.formsFor i).map (printed a.demand)) <+: b := by
  obtain ⟨a', ha', hid', h1, h2, h3⟩ := buildForm_eq h hi junk a.id i hj ⟨a, ha, rfl⟩ B hB
  have := huniq a' ha' hid'
  subst this
  have hlen := printed_packed_length h ha i
  rw [a'.delivered_eq i hpost] at h1 h2 hlen
  by_cases h0 : a'.formsFor i = []
  · refine ⟨B, ?_, ?_⟩
    · rw [h1 (by simp [h0]) hsc]; simp [h0]
    · simp [h0, packed]
  · refine ⟨_, ?_, List.prefix_append _ (0 :: B.drop ((packed ((a'.formsFor i).map (printed a'.demand))).length + 1))⟩
    rw [h2 (by simp [h0]) hsc (by omega)]
    simp

/-- "mother" with the suffix "-in-law", uninflected. -/
def inLaw : Article := ⟨[109, 111, 116, 104, 101, 114], [], 1, [45, 105, 110, 45, 108, 97, 119], 5⟩

/-- **C22** refuted for an uninflected word with a suffix: "mother-in-law" is recognized, but "mother" is built,
which is not. -/
theorem C22_counterexample :
    checkWord (engBuild [inLaw]).images [] ([109, 111, 116, 104, 101, 114] ++ [45, 105, 110, 45, 108, 97, 119]) 0 = some 1 ∧
    wrapBuildForm (engBuild [inLaw]).images (List.replicate 15 0) (List.replicate 256 0) 5 255 = some [[109, 111, 116, 104, 101, 114]] ∧
    checkWord (engBuild [inLaw]).images [] [109, 111, 116, 104, 101, 114] 0 = some 0 := by decide +kernel

/-- "Paris" of the sample. -/
def paris : Article := ⟨[80, 97, 114, 105, 115], [124, 48, 124, 39, 115], 1, [], 7⟩

/-- The hypotheses are met: "Paris's". -/
example : paris ∈ engSample ∧ (∀ b ∈ engSample, b.id = paris.id → b = paris) ∧ paris.Inflected ∧
    (packed (paris.formsFor 1)).length + 1 ≤ 20 ∧ (paris.formsFor 1).map (printed paris.demand) = [[80, 97, 114, 105, 115, 39, 115]] := by
  decide +kernel

end Libmorph
