import Verif.Spec.RusGram
/-
C27: Russian form ids and grammatical descriptions correspond one to one.
-/
namespace Libmorph
open Spec

theorem and_low6 (w : Nat) : w &&& 0x3f = w % 64 := Nat.and_two_pow_sub_one_eq_mod w 6

theorem isVerb_iff {w : Nat} : isVerb w = true ↔ VerbPos w := by
  simp [isVerb, and_low6, VerbPos]

theorem isAdjective_iff {w : Nat} : isAdjective w = true ↔ AdjPos w := by
  simp only [isAdjective, and_low6, AdjPos]
  have : w % 64 < 64 := Nat.mod_lt _ (by decide)
  revert this
  generalize w % 64 = x
  revert x
  decide

theorem verbPos_byte {w : Nat} : VerbPos (w % 256) ↔ VerbPos w := by
  unfold VerbPos; omega

theorem adjPos_byte {w : Nat} : AdjPos (w % 256) ↔ AdjPos w := by
  unfold AdjPos
  have : w % 256 % 64 = w % 64 := by omega
  rw [this]

theorem adj_not_verb {w : Nat} (h : AdjPos w) : ¬ VerbPos w := by
  unfold AdjPos at h; unfold VerbPos
  simp at h; omega

theorem plural_iff {w : Nat} : (w % 256 &&& wfMultiple ≠ 0) ↔ PluralOnly w := by
  have h : w % 256 < 256 := Nat.mod_lt _ (by decide)
  have h2 : PluralOnly w ↔ PluralOnly (w % 256) := by unfold PluralOnly; omega
  rw [h2]
  unfold PluralOnly
  revert h
  generalize w % 256 = x
  revert x
  decide +kernel

theorem map_verb {w : Nat} (h : VerbPos w) (g fl : Nat) : mapWordInfo w g fl = mapVerbInfo ((fl <<< 16) ||| g) := by
  simp [mapWordInfo, isVerb_iff.2 h]

theorem map_adj {w : Nat} (h : AdjPos w) (g fl : Nat) : mapWordInfo w g fl = mapDefsInfo ((fl <<< 16) ||| g) := by
  have : isVerb w = false := by
    cases hv : isVerb w
    · rfl
    · exact absurd (isVerb_iff.1 hv) (adj_not_verb h)
  simp [mapWordInfo, this, isAdjective_iff.2 h]

theorem map_noun {w : Nat} (h : NounPos w) (g fl : Nat) : mapWordInfo w g fl = mapNounInfo ((fl <<< 16) ||| g) := by
  have h1 : isVerb w = false := by
    cases hv : isVerb w
    · rfl
    · exact absurd (isVerb_iff.1 hv) h.1
  have h2 : isAdjective w = false := by
    cases hv : isAdjective w
    · rfl
    · exact absurd (isAdjective_iff.1 hv) h.2
  simp [mapWordInfo, h1, h2]

theorem get_verb {w : Nat} (h : VerbPos w) (id : Nat) : getGramInfo w id = getVerbInfo id := by
  simp [getGramInfo, isVerb_iff.2 (verbPos_byte.2 h)]

theorem get_adj {w : Nat} (h : AdjPos w) (id : Nat) : getGramInfo w id = getDefsInfo id := by
  have : isVerb (w % 256) = false := by
    cases hv : isVerb (w % 256)
    · rfl
    · exact absurd (verbPos_byte.1 (isVerb_iff.1 hv)) (adj_not_verb h)
  simp [getGramInfo, this, isAdjective_iff.2 (adjPos_byte.2 h)]

theorem get_noun {w : Nat} (h : NounPos w) {id : Nat} (hid : PluralOnly w → 10 ≤ id) :
    getGramInfo w id = getNounInfo id := by
  have h1 : isVerb (w % 256) = false := by
    cases hv : isVerb (w % 256)
    · rfl
    · exact absurd (verbPos_byte.1 (isVerb_iff.1 hv)) h.1
  have h2 : isAdjective (w % 256) = false := by
    cases hv : isAdjective (w % 256)
    · rfl
    · exact absurd (adjPos_byte.1 (isAdjective_iff.1 hv)) h.2
  by_cases hp : PluralOnly w
  · have := hid hp
    simp [getGramInfo, h1, h2]
    intro _ h3
    omega
  · have : w % 256 &&& wfMultiple = 0 := by
      by_cases h4 : w % 256 &&& wfMultiple = 0
      · exact h4
      · exact absurd (plural_iff.1 h4) hp
    simp [getGramInfo, h1, h2, this]

theorem get_noun_refused {w : Nat} (h : NounPos w) {id : Nat} (hp : PluralOnly w) (hid : id < 10) :
    getGramInfo w id = noInfo := by
  have h1 : isVerb (w % 256) = false := by
    cases hv : isVerb (w % 256)
    · rfl
    · exact absurd (verbPos_byte.1 (isVerb_iff.1 hv)) h.1
  have h2 : isAdjective (w % 256) = false := by
    cases hv : isAdjective (w % 256)
    · rfl
    · exact absurd (adjPos_byte.1 (isAdjective_iff.1 hv)) h.2
  have := plural_iff.2 hp
  simp [getGramInfo, h1, h2, hid, this]

/-! Only the bits of `0x2ffff` of the combined word matter. -/

theorem low_mask (x m : Nat) (h : 0x2ffff &&& m = m) : (x &&& 0x2ffff) &&& m = x &&& m := by
  rw [Nat.and_assoc, h]

theorem mapCase_mask (x : Nat) : mapCaseInfo (x &&& 0x2ffff) = mapCaseInfo x := by
  unfold mapCaseInfo; simp only [low_mask x gfFormMask (by decide), low_mask x (afNotAlive <<< 16) (by decide)]
theorem mapGender_mask (x : Nat) : mapGenderOf (x &&& 0x2ffff) = mapGenderOf x := by
  unfold mapGenderOf; simp only [low_mask x gfMultiple (by decide), low_mask x gfGendMask (by decide)]
theorem mapGend_mask (x : Nat) : mapGendInfo (x &&& 0x2ffff) = mapGendInfo x := by
  unfold mapGendInfo; simp only [mapCase_mask, mapGender_mask, low_mask x gfShortOne (by decide)]
theorem mapDefs_mask (x : Nat) : mapDefsInfo (x &&& 0x2ffff) = mapDefsInfo x := by
  unfold mapDefsInfo
  simp only [mapGend_mask, low_mask x gfAdverb (by decide), low_mask x gfCompared (by decide), low_mask x gfRetForms (by decide)]
theorem mapNoun_mask (x : Nat) : mapNounInfo (x &&& 0x2ffff) = mapNounInfo x := by
  unfold mapNounInfo; simp only [mapCase_mask, low_mask x gfMultiple (by decide)]
theorem mapVerb_mask (x : Nat) : mapVerbInfo (x &&& 0x2ffff) = mapVerbInfo x := by
  unfold mapVerbInfo mapPersonal mapAllParts mapActvPart mapVerbTant
  simp only [mapGend_mask, mapGender_mask, low_mask x gfMultiple (by decide), low_mask x gfRetForms (by decide),
    low_mask x gfVerbTime (by decide), low_mask x gfVerbForm (by decide), low_mask x gfVerbFace (by decide)]

theorem flag_mask {fl : Nat} (h : fl < 256) (g : Nat) :
    ((fl <<< 16) ||| g) &&& 0x2ffff = (((fl &&& 3) <<< 16) ||| g) &&& 0x2ffff := by
  rw [Nat.and_or_distrib_right, Nat.and_or_distrib_right]
  congr 1
  revert fl
  decide +kernel

theorem inColumn_mask (c : Nat) {fl : Nat} (h : fl < 256) : InColumn c fl ↔ InColumn c (fl &&& 3) := by
  have h1 : fl &&& 3 &&& 2 = fl &&& 2 := by rw [Nat.and_assoc]; rfl
  have h2 : fl &&& 3 &&& 1 = fl &&& 1 := by rw [Nat.and_assoc]; rfl
  have h3 : fl &&& 3 &&& 3 = fl &&& 3 := by rw [Nat.and_assoc]; rfl
  unfold InColumn
  rw [h1, h2, h3]

/-- It is enough to look at the two animacy bits. -/
theorem flags_reduce {m : Nat → Nat} (hm : ∀ x, m (x &&& 0x2ffff) = m x) {c g id : Nat}
    (h : ∀ fl < 4, InColumn c fl → m ((fl <<< 16) ||| g) = id) :
    ∀ fl < 256, InColumn c fl → m ((fl <<< 16) ||| g) = id := by
  intro fl hfl hc
  have h4 : fl &&& 3 < 4 := Nat.lt_of_le_of_lt Nat.and_le_right (by decide)
  rw [← hm, flag_mask hfl, hm]
  exact h _ h4 ((inColumn_mask c hfl).1 hc)

/-- **C27**, verbs: the id of a form leads to its description, and the description of a table element,
with whatever animacy flags that fit, leads back to the id. -/
theorem C27_verb (w : Nat) (hw : VerbPos w) (f : VerbForm) :
    getGramInfo w f.id = f.desc ∧
    ∀ fl < 256, InColumn f.col fl → mapWordInfo w f.desc.gramm fl = f.id := by
  rw [get_verb hw]
  simp only [map_verb hw]
  suffices h : getVerbInfo f.id = f.desc ∧ ∀ fl < 4, InColumn f.col fl → mapVerbInfo ((fl <<< 16) ||| f.desc.gramm) = f.id from
    ⟨h.1, flags_reduce mapVerb_mask h.2⟩
  clear hw
  cases f with
  | infinitive r => revert r; decide +kernel
  | imperative r p => revert r p; decide +kernel
  | future n r p => revert n r p; decide +kernel
  | present n r p => revert n r p; decide +kernel
  | past g r => revert g r; decide +kernel
  | active t r g c => revert t r g c; decide +kernel
  | passive t g c => revert t g c; decide +kernel
  | gerund t r => revert t r; decide +kernel

/-- **C27**, adjectives. -/
theorem C27_adjective (w : Nat) (hw : AdjPos w) (f : AdjForm) :
    getGramInfo w f.id = f.desc ∧
    ∀ fl < 256, InColumn f.col fl → mapWordInfo w f.desc.gramm fl = f.id := by
  rw [get_adj hw]
  simp only [map_adj hw]
  suffices h : getDefsInfo f.id = f.desc ∧ ∀ fl < 4, InColumn f.col fl → mapDefsInfo ((fl <<< 16) ||| f.desc.gramm) = f.id from
    ⟨h.1, flags_reduce mapDefs_mask h.2⟩
  clear hw
  cases f with
  | decl r g c => revert r g c; decide +kernel
  | comparative => decide +kernel
  | adverb => decide +kernel

/-- **C27**, nouns and everything else that is declined: plural-only words have the plural forms only. -/
theorem C27_noun (w : Nat) (hw : NounPos w) (f : NounForm) (hp : PluralOnly w → ∃ c, f = .plural c) :
    getGramInfo w f.id = f.desc ∧
    ∀ fl < 256, InColumn f.col fl → mapWordInfo w f.desc.gramm fl = f.id := by
  rw [get_noun hw (by intro h; obtain ⟨c, rfl⟩ := hp h; simp [NounForm.id])]
  simp only [map_noun hw]
  suffices h : getNounInfo f.id = f.desc ∧ ∀ fl < 4, InColumn f.col fl → mapNounInfo ((fl <<< 16) ||| f.desc.gramm) = f.id from
    ⟨h.1, flags_reduce mapNoun_mask h.2⟩
  clear hp hw
  cases f with
  | singular c => revert c; decide +kernel
  | plural c => revert c; decide +kernel

/-- All the verb forms. -/
def verbForms : List VerbForm :=
  [.infinitive false, .infinitive true]
  ++ ([false, true].flatMap fun r => [false, true].map fun p => .imperative r p)
  ++ ((List.finRange 3).flatMap fun n => [false, true].flatMap fun r => [false, true].map fun p => .future n r p)
  ++ ((List.finRange 3).flatMap fun n => [false, true].flatMap fun r => [false, true].map fun p => .present n r p)
  ++ ([false, true].flatMap fun r => (List.finRange 4).flatMap fun g => (List.finRange 8).map fun c => .active false r g c)
  ++ ((List.finRange 4).flatMap fun g => (List.finRange 8).map fun c => .passive false g c)
  ++ [.gerund false false, .gerund false true]
  ++ ([false, true].flatMap fun r => (List.finRange 4).map fun g => .past g r)
  ++ ([false, true].flatMap fun r => (List.finRange 4).flatMap fun g => (List.finRange 8).map fun c => .active true r g c)
  ++ ((List.finRange 4).flatMap fun g => (List.finRange 8).map fun c => .passive true g c)
  ++ [.gerund true false, .gerund true true]

theorem verbForms_at (f : VerbForm) : verbForms[f.id]? = some f := by
  cases f with
  | infinitive r => revert r; decide +kernel
  | imperative r p => revert r p; decide +kernel
  | future n r p => revert n r p; decide +kernel
  | present n r p => revert n r p; decide +kernel
  | past g r => revert g r; decide +kernel
  | active t r g c => revert t r g c; decide +kernel
  | passive t g c => revert t g c; decide +kernel
  | gerund t r => revert t r; decide +kernel

theorem verbForms_length : verbForms.length = 234 := by decide +kernel

theorem verbForms_id : ∀ i : Fin 234, (verbForms[i.1]?).map VerbForm.id = some i.1 := by decide +kernel

/-- **C27**, verbs, the numbering is exact: every id below 234 is the id of exactly one form; the other
ids are refused. -/
theorem C27_verb_ids (w : Nat) (hw : VerbPos w) (id : Nat) :
    (id < 234 → ∃ f : VerbForm, f.id = id ∧ ∀ f' : VerbForm, f'.id = id → f' = f)
    ∧ (234 ≤ id → (∀ f : VerbForm, f.id ≠ id) ∧ getGramInfo w id = noInfo) := by
  refine ⟨fun h => ?_, fun h => ⟨fun f hf => ?_, ?_⟩⟩
  · have h1 := verbForms_id ⟨id, h⟩
    cases hv : verbForms[id]? with
    | none => rw [hv] at h1; exact absurd h1 (by simp)
    | some f =>
      rw [hv] at h1
      refine ⟨f, by simpa using h1, fun f' hf' => ?_⟩
      have := verbForms_at f'
      rw [hf', hv] at this
      exact (Option.some.inj this).symm
  · have := verbForms_at f
    rw [hf, List.getElem?_eq_none (by rw [verbForms_length]; exact h)] at this
    exact absurd this (by simp)
  · rw [get_verb hw]
    unfold getVerbInfo
    repeat rw [if_neg (by omega)]

/-- **C27**, nouns, the numbering is exact except for id 9. -/
theorem C27_noun_ids_partial (w : Nat) (hw : NounPos w) (id : Nat) :
    ((id < 9 ∨ (10 ≤ id ∧ id < 18)) → ∃ f : NounForm, f.id = id ∧ ∀ f' : NounForm, f'.id = id → f' = f)
    ∧ (18 ≤ id ∨ (PluralOnly w ∧ id < 10) → getGramInfo w id = noInfo) := by
  refine ⟨?_, ?_⟩
  · rintro (h | h)
    · refine ⟨.singular ⟨id, h⟩, rfl, ?_⟩
      rintro (c | c) hc <;> simp only [NounForm.id] at hc
      · simp [← hc]
      · omega
    · refine ⟨.plural ⟨id - 10, by omega⟩, by simp only [NounForm.id]; omega, ?_⟩
      rintro (c | c) hc <;> simp only [NounForm.id] at hc
      · omega
      · congr 1; apply Fin.ext; simp only; omega
  · rintro (h | h)
    · rw [get_noun hw (by omega)]
      unfold getNounInfo
      rw [if_neg (by omega)]
    · exact get_noun_refused hw h.1 h.2

/-- **C27**, adjectives, the numbering below 66 is exact. -/
theorem C27_adjective_ids_partial (id : Nat) (h : id < 66) :
    ∃ f : AdjForm, f.id = id ∧ ∀ f' : AdjForm, f'.id = id → f' = f := by
  have key : ∀ f' : AdjForm, f'.id = 64 → f' = .comparative := by
    rintro (⟨r, g, c⟩ | _ | _) hf <;> simp only [AdjForm.id] at hf <;> try rfl
    · have := r.toNat_lt; omega
    · omega
  have key2 : ∀ f' : AdjForm, f'.id = 65 → f' = .adverb := by
    rintro (⟨r, g, c⟩ | _ | _) hf <;> simp only [AdjForm.id] at hf <;> try rfl
    · have := r.toNat_lt; omega
    · omega
  by_cases h4 : id = 64
  · subst h4; exact ⟨.comparative, rfl, key⟩
  by_cases h5 : id = 65
  · subst h5; exact ⟨.adverb, rfl, key2⟩
  have h6 : id < 64 := by omega
  refine ⟨.decl (decide (32 ≤ id)) ⟨id % 32 / 8, by omega⟩ ⟨id % 8, by omega⟩, ?_, ?_⟩
  · simp only [AdjForm.id]
    by_cases h7 : 32 ≤ id <;> simp [h7] <;> omega
  · rintro (⟨r, g, c⟩ | _ | _) hf <;> simp only [AdjForm.id] at hf
    · have hr := r.toNat_lt
      have hg : g.1 = id % 32 / 8 := by omega
      have hc : c.1 = id % 8 := by omega
      have hrr : r = decide (32 ≤ id) := by
        cases r
        · simp at hf; simp; omega
        · simp at hf; simp; omega
      subst hrr
      congr 1
      · exact Fin.ext hg
      · exact Fin.ext hc
    · omega
    · omega

/-- **C27**, what the user needs: the id printed for a table element leads back to a description that
selects this very element (equal descriptions, overlapping animacy). -/
theorem C27_printed_id_selects (w fl : Nat) (hfl : fl < 256) (d : FlexInfo)
    (h : (VerbPos w ∧ ∃ f : VerbForm, d.gramm = f.desc.gramm ∧ InColumn f.col fl)
      ∨ (AdjPos w ∧ ∃ f : AdjForm, d.gramm = f.desc.gramm ∧ InColumn f.col fl)
      ∨ (NounPos w ∧ ∃ f : NounForm, d.gramm = f.desc.gramm ∧ InColumn f.col fl ∧ (PluralOnly w → ∃ c, f = .plural c))) :
    (getGramInfo w (mapWordInfo w d.gramm fl)).gramm = d.gramm ∧
    (getGramInfo w (mapWordInfo w d.gramm fl)).flags &&& fl ≠ 0 := by
  have colf : ∀ c, InColumn c fl → colFlags c &&& fl ≠ 0 := by
    intro c hc
    unfold InColumn at hc
    unfold colFlags
    split at hc
    · rw [if_pos ‹_›, Nat.and_comm]; exact hc
    · rw [if_neg ‹_›]
      split at hc
      · rw [if_pos ‹_›, Nat.and_comm]; exact hc.2
      · rw [if_neg ‹_›, Nat.and_comm]; exact hc
  rcases h with ⟨hw, f, hd, hc⟩ | ⟨hw, f, hd, hc⟩ | ⟨hw, f, hd, hc, hp⟩
  · rw [hd, (C27_verb w hw f).2 fl hfl hc, (C27_verb w hw f).1]
    refine ⟨rfl, ?_⟩
    have := colf _ hc
    cases f <;> exact this
  · rw [hd, (C27_adjective w hw f).2 fl hfl hc, (C27_adjective w hw f).1]
    refine ⟨rfl, ?_⟩
    have := colf _ hc
    cases f <;> exact this
  · rw [hd, (C27_noun w hw f hp).2 fl hfl hc, (C27_noun w hw f hp).1]
    refine ⟨rfl, ?_⟩
    have := colf _ hc
    cases f <;> exact this

/-- A common noun (part of speech 7), id 12: dative plural, and back. -/
example : NounPos 7 ∧ getGramInfo 7 12 = ⟨0x2800, 3⟩ ∧ mapWordInfo 7 0x2800 3 = 12 := by
  refine ⟨⟨by unfold VerbPos; decide, by unfold AdjPos; decide⟩, by decide, by decide⟩

/-- The claim is false for noun id 9: it is accepted and describes what no noun has. -/
theorem C27_counterexample_noun : getGramInfo 7 9 = ⟨0x8000, 3⟩ ∧ mapWordInfo 7 0x8000 3 = 0 := by decide

/-- The claim is false for adjective ids from 66 on: they are taken for others, e.g. 66 for 34. -/
theorem C27_counterexample_adjective :
    getGramInfo 25 66 = getGramInfo 25 34 ∧ mapWordInfo 25 (getGramInfo 25 66).gramm (getGramInfo 25 66).flags = 34 := by
  decide

/-- Exactly which ids above 65 an adjective confuses: all of them, with the reflexive forms. -/
theorem C27_adjective_aliases (w : Nat) (hw : AdjPos w) (id : Nat) (h : 66 ≤ id) :
    getGramInfo w id = getGramInfo w (32 + id % 32) := by
  rw [get_adj hw, get_adj hw]
  unfold getDefsInfo
  have : (32 + id % 32) % 32 = id % 32 := by omega
  have h1 : ¬ 32 + id % 32 = 65 := by omega
  have h2 : ¬ 32 + id % 32 = 64 := by omega
  simp only [this, h1, h2, if_neg (show ¬ id = 65 by omega), if_neg (show ¬ id = 64 by omega),
    if_pos (show id ≥ 32 by omega), if_pos (show 32 + id % 32 ≥ 32 by omega), if_false]

/-- The table of alternation types has an entry for each of the 64 parts of speech. -/
example : mixTypes.length = 64 := by decide

end Libmorph
