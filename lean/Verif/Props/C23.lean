import Verif.Props.C19
import Verif.Lemmas.ClassTable
/-
C23, C24, C25, C26, C34, C37, C41, C42.
-/
namespace Libmorph

/-! ### C23 -/

theorem table_ids {l : List (List Byte × Nat)} {t : FTable} (ht : TableOf l t) (hends : ∀ p ∈ l, p.2 < 256) (e : List Byte) :
    (t.items.filter fun x => x.szflex = e).map Flex.idform = ((l.filter fun p => p.1 = e).map Prod.snd).mergeSort := by
  have hp : ((t.items.filter fun x => x.szflex = e).map Flex.idform).Perm ((l.filter fun p => p.1 = e).map Prod.snd) := by
    refine ((ht.perm.filter _).map _).trans ?_
    rw [List.filter_map, List.map_map]
    apply List.Perm.of_eq
    have : ((fun x : Flex => decide (x.szflex = e)) ∘ fun p : List Byte × Nat => (⟨p.1, p.2 % 256⟩ : Flex))
        = fun p => decide (p.1 = e) := rfl
    rw [this]
    apply List.map_congr_left
    intro p hp
    have := hends p (List.mem_of_mem_filter hp)
    simp only [Function.comp]; omega
  have hsort : ((t.items.filter fun x => x.szflex = e).map Flex.idform).Pairwise (· ≤ ·) := by
    rw [List.pairwise_map]
    have := ht.sorted.filter (fun x => decide (x.szflex = e))
    refine this.imp_of_mem ?_
    intro x y hx hy hle
    simp only [List.mem_filter, decide_eq_true_eq] at hx hy
    simp only [Flex.le, Flex.lt, hx.2, hy.2, ne_eq, not_true_eq_false, if_false, decide_eq_false_iff_not] at hle
    omega
  have hs2 : (((l.filter fun p => p.1 = e).map Prod.snd).mergeSort).Pairwise (· ≤ ·) := by
    have := List.pairwise_mergeSort (le := fun (x y : Nat) => decide (x ≤ y))
      (by simp; omega) (by simp; omega) ((l.filter fun p => p.1 = e).map Prod.snd)
    simpa using this
  exact (hp.trans (List.mergeSort_perm _ _).symm).eq_of_pairwise (fun x y _ _ h1 h2 => Nat.le_antisymm h1 h2) hsort hs2

/-- **C23** the table compiled from an ending string, wherever it stands in the image, is scanned exactly: for
every ending, whatever follows it in memory, the form numbers listed under this ending are reported,
ascending; nothing when there are none.  Limits of the format: 255 endings, 255 bytes each, numbers
below 256, 64 equal endings (`C23_limits`). -/
theorem C23_exact (s : List Byte) (hcount : (flexionsOf s).length < 256)
    (hends : ∀ p ∈ flexionsOf s, p.1.length < 256 ∧ p.2 < 256) (e : List Byte)
    (heq : ((flexionsOf s).filter fun p => p.1 = e).length ≤ 64) (wdinfo : Nat) (after rest : List Byte) :
    scanTables ((parseTable s).ser ++ rest) wdinfo ⟨e ++ after, e.length⟩
      = some ((((flexionsOf s).filter fun p => p.1 = e).map Prod.snd).mergeSort.map fun i => ⟨wdinfo &&& 0x7f, i, 0, 0⟩) := by
  have ht := parseTable_tableOf s
  have hg : gramsFor wdinfo (parseTable s).items e
      = (((flexionsOf s).filter fun p => p.1 = e).map Prod.snd).mergeSort.map fun i => ⟨wdinfo &&& 0x7f, i, 0, 0⟩ := by
    rw [← table_ids ht (fun p hp => (hends p hp).2) e, List.map_map]; rfl
  rw [scanTables_eq wdinfo e after rest (parseTable s) ht.sorted ?_ ?_ ?_, hg]
  · intro x hx
    obtain ⟨p, hp, rfl⟩ := List.mem_map.1 (ht.perm.subset hx)
    exact (hends p hp).1
  · rw [ht.perm.length_eq, List.length_map]; exact hcount
  · rw [hg]; simpa using heq

/-- **C23** the limits are real: 65 equal endings overrun the library's array of 64 descriptions; 256 endings
are written with the count 0, and none is found. -/
theorem C23_limits :
    scanTables (parseTable ((List.replicate 65 [124, 97]).flatten)).ser 1 ⟨[97, 0], 1⟩ = none ∧
    scanTables (parseTable ((List.replicate 256 [124, 97]).flatten)).ser 1 ⟨[97, 0], 1⟩ = some [] := by decide +kernel

/-- The hypotheses are met, the report is not empty: "|0|s|'s|s'". -/
example : (flexionsOf [124, 48, 124, 115, 124, 39, 115, 124, 115, 39]).length = 4 ∧
    scanTables (parseTable [124, 48, 124, 115, 124, 39, 115, 124, 115, 39]).ser 1 ⟨[115, 39, 0], 2⟩ = some [⟨1, 3, 0, 0⟩] := by
  decide +kernel

/-! ### C25, C26 -/

/-- **C25** BuildForm without a buffer or with an empty one returns ARGUMENT_FAILED: any images at all; so does
FindForms, when the word is one the library can handle. -/
theorem C25_arguments (im : Images) (junk : List Byte) (id i : Nat) :
    buildForm im junk none id i = some (ARGUMENT_FAILED, none) ∧
    buildForm im junk (some []) id i = some (ARGUMENT_FAILED, some []) ∧
    ∀ w dwsets, WordOk w → findForms im junk none w i dwsets = some (ARGUMENT_FAILED, none) ∧
      findForms im junk (some []) w i dwsets = some (ARGUMENT_FAILED, some []) := by
  refine ⟨rfl, rfl, fun w dwsets hw => ?_⟩
  have : ∃ pr, prepare w dwsets = some pr := by
    rcases hw with rfl | ⟨hlen, h8⟩ | ⟨hlen, h16⟩
    · exact ⟨_, by simp only [prepare, toCanonic, List.length_nil, if_true, bind, Option.bind_some]; rfl⟩
    · by_cases hne : w = []
      · subst hne; exact ⟨_, by simp only [prepare, toCanonic, List.length_nil, if_true, bind, Option.bind_some]; rfl⟩
      · obtain ⟨s, h1, -⟩ := capGet_summary engTab engTab_ok formLength w hne hlen (by decide) h8
        simp only [prepare, toCanonic, if_neg (show ¬ w.length = 0 from fun h0 => hne (List.length_eq_zero_iff.1 h0)), h1,
          bind, Option.bind_some, pure]
        split
        · exact ⟨_, rfl⟩
        · split
          · exact ⟨_, rfl⟩
          · exact ⟨_, rfl⟩
    · have := C15_too_long engTab engTab_ok formLength w hlen h16
      exact ⟨.error WORDBUFF_FAILED, by
        simp only [prepare, toCanonic, if_neg (show ¬ w.length = 0 by omega), this, bind, Option.bind_some, pure]⟩
  obtain ⟨pr, hp⟩ := this
  simp [findForms, hp]

/-- **C25** an id that no article has: BuildForm returns 0 and leaves the buffer as it was, GetWdInfo returns 0
and stores nothing, the wrappers return no forms and 0. -/
theorem C25_unknown_id {A : List Byte} {as : List Article} (h : EngOk A as) (hi : IdsOk as) (junk : List Byte) (id : Nat)
    (hid : id < 2 ^ 32) (hj : (lexkey id).length + junk.length = 16) (hno : ∀ a ∈ as, a.id ≠ id) :
    (∀ B i, B ≠ [] → buildForm (engBuild as).images junk (some B) id i = some (0, some B)) ∧
    getWdInfo (engBuild as).images junk id = some (0, none) ∧
    (∀ B i, B ≠ [] → wrapBuildForm (engBuild as).images junk B id i = some []) ∧
    wrapGetWdInfo (engBuild as).images junk id = some 0 := by
  have hl := lid_absent h hi junk id hid hj hno
  have hb : ∀ B i, B ≠ [] → buildForm (engBuild as).images junk (some B) id i = some (0, some B) := by
    intro B i hB
    simp [buildForm, hl, List.length_eq_zero_iff, hB]
  have hg : getWdInfo (engBuild as).images junk id = some (0, none) := by simp [getWdInfo, hl]
  refine ⟨hb, hg, ?_, by simp [wrapGetWdInfo, hg]⟩
  intro B i hB
  simp [wrapBuildForm, hb B i hB, splitForms]

/-- The hypotheses are met: id 0x012C00 (it contains zero bytes) in the sample. -/
example : buildForm (engBuild engSample).images (List.replicate 13 0) (some [5]) 0x012C00 0 = some (0, some [5]) :=
  (C25_unknown_id engSample_ok engSample_ids _ 0x012C00 (by decide) (by decide) (by decide)).1 _ _ (by decide)

/-- **C26** GetWdInfo on a compiled id returns 1 and the part of speech of an article with that id; when all
the articles of the id agree on it, this is the part of speech of the lexeme. -/
theorem C26_part_of_speech {A : List Byte} {as : List Article} (h : EngOk A as) (hi : IdsOk as) (a : Article) (ha : a ∈ as)
    (hsame : ∀ b ∈ as, b.id = a.id → b.pos = a.pos) (junk : List Byte) (hj : (lexkey a.id).length + junk.length = 16) :
    getWdInfo (engBuild as).images junk a.id = some (1, some a.pos) ∧
    wrapGetWdInfo (engBuild as).images junk a.id = some a.pos := by
  obtain ⟨b, hb, hid, hg⟩ := getWdInfo_eq h hi junk a.id hj ⟨a, ha, rfl⟩
  rw [hsame b hb hid] at hg
  exact ⟨hg, by simp [wrapGetWdInfo, hg]⟩

example : getWdInfo (engBuild engSample).images (List.replicate 14 0) 17729 = some (1, some 3) :=
  (C26_part_of_speech engSample_ok engSample_ids
    ⟨[111, 117, 116, 45, 111, 102, 45, 116, 104, 101, 45, 119, 97, 121], [], 3, [], 17729⟩ (by decide +kernel) (by decide +kernel)
    (List.replicate 14 0) (by decide)).1

/-! ### C41 -/

/-- **C41** the English analyser is sound: a word is found only if an article has it as a form and
demands no more capitals than it has (or capitals are ignored). -/
theorem C41_sound {A : List Byte} {as : List Article} (h : EngOk A as) (w junk : List Byte) (dwsets : Nat)
    (hw : WordOk w) (hf : checkWord (engBuild as).images junk w dwsets = some 1) :
    ∃ a ∈ as, a.HasForm (w.map engTab.lower) ∧ (dwsets &&& 2 ≠ 0 ∨ CapsFit engTab w a.demand) := by
  have hne : w ≠ [] := by
    rintro rfl
    rw [(C14_empty (engBuild as).images junk dwsets).2.2.2.1] at hf
    simp at hf
  rcases hw with rfl | ⟨hlen, h8⟩ | ⟨hlen, h16⟩
  · exact absurd rfl hne
  · obtain ⟨V, hV⟩ := scanOf_exists h (w.map engTab.lower) (by simpa using hlen)
    rw [checkWord_heard w junk dwsets hne hlen h8 hV] at hf
    have hm : Matches as w dwsets ≠ [] := by
      intro h0
      have := (heard_readings hV.visits dwsets).sub
      rw [h0, List.subperm_nil] at this
      rw [if_pos this] at hf
      simp at hf
    obtain ⟨a, h1, h2, h3⟩ := Matches_ne_nil.1 hm
    exact ⟨a, h1, h2, by simpa [admits] using h3⟩
  · rw [(C14_too_long_partial (engBuild as).images junk w dwsets hlen h16).1] at hf
    simp [WORDBUFF_FAILED] at hf

/-- **C41** and complete: a word of up to eight parts and 47 bytes is answered 1 if an article has it as a form
and demands no more capitals, and 0 otherwise, provided that no form of it is at risk (`SuffixSafe`).
Missing: words at risk (`C41_counterexample`), more than eight parts (`C13_counterexample`). -/
theorem C41_found_partial {A : List Byte} {as : List Article} (h : EngOk A as) (w junk : List Byte) (dwsets : Nat)
    (hne : w ≠ []) (hlen : w.length < 48) (hparts : (wordParts engTab w).length ≤ 8)
    (hs : SuffixSafe as (w.map engTab.lower)) :
    ((∃ a ∈ as, a.HasForm (w.map engTab.lower) ∧ (dwsets &&& 2 ≠ 0 ∨ CapsFit engTab w a.demand)) →
      checkWord (engBuild as).images junk w dwsets = some 1) ∧
    ((¬ ∃ a ∈ as, a.HasForm (w.map engTab.lower) ∧ (dwsets &&& 2 ≠ 0 ∨ CapsFit engTab w a.demand)) →
      checkWord (engBuild as).images junk w dwsets = some 0) := by
  have hiff : Matches as w dwsets ≠ [] ↔ ∃ a ∈ as, a.HasForm (w.map engTab.lower) ∧ (dwsets &&& 2 ≠ 0 ∨ CapsFit engTab w a.demand) := by
    rw [Matches_ne_nil]; simp [admits]
  rw [checkWord_eq h w junk dwsets hne hlen hparts hs]
  constructor
  · intro hex; rw [if_neg (hiff.2 hex)]
  · intro hex
    rw [if_pos]
    by_contra hc
    exact hex (hiff.1 hc)

/-- "brother|0|'s N" and the uninflected "brother" with the suffix "-in-law". -/
def lostSuffix : List Article :=
  [⟨[98, 114, 111, 116, 104, 101, 114], [124, 48, 124, 39, 115], 1, [], 5⟩,
   ⟨[98, 114, 111, 116, 104, 101, 114], [], 1, [45, 105, 110, 45, 108, 97, 119], 6⟩]

/-- **C41** refuted for a word at risk: "brother-in-law" is a form of the second article but is not found; without
the first article it is. -/
theorem C41_counterexample :
    checkWord (engBuild lostSuffix).images [] [98, 114, 111, 116, 104, 101, 114, 45, 105, 110, 45, 108, 97, 119] 0 = some 0 ∧
    checkWord (engBuild lostSuffix.tail).images [] [98, 114, 111, 116, 104, 101, 114, 45, 105, 110, 45, 108, 97, 119] 0 = some 1 := by
  decide +kernel

/-- The hypotheses are met: "Paris's" has a form, "paris" has not; the sample is safe for both. -/
example : checkWord (engBuild engSample).images [] [80, 97, 114, 105, 115, 39, 115] 0 = some 1 :=
  (C41_found_partial engSample_ok _ [] 0 (by decide) (by decide) (by decide +kernel) (by unfold SuffixSafe; decide +kernel)).1
    ⟨paris, by decide +kernel, by
      rw [Article.HasForm, if_pos (by decide)]
      exact ⟨[39, 115], 1, by decide +kernel, by unfold Article.Form; decide +kernel⟩, Or.inr (by decide +kernel)⟩

/-- **C41** Lemmatize reports exactly the articles the word is a form of: when they are distinct lexemes with
dictionary forms and nothing is at risk, there is an order of the matching articles such that every call with
large enough buffers returns their number and reports each of them.
Missing: as above, and lexemes that match twice. -/
theorem C41_lemmas_partial {A : List Byte} {as : List Article} (h : EngOk A as) (w : List Byte) (dwsets : Nat)
    (hne : w ≠ []) (hlen : w.length < 48) (hparts : (wordParts engTab w).length ≤ 8)
    (hs : SuffixSafe as (w.map engTab.lower)) (hid : ((Matches as w dwsets).map fun p => p.1.id).Nodup)
    (hD : ∀ p ∈ Matches as w dwsets, p.1.dictForms ≠ []) :
    ∃ H, H.Perm (Matches as w dwsets) ∧ H.Pairwise (fun p q => q.1.lowStem.length ≤ p.1.lowStem.length) ∧
      ∀ junk L B G, Roomy L B G H →
        ∃ s, lemmatize (engBuild as).images junk w L B G dwsets = some ((H.length : Int), s) ∧ Reported L B G H s := by
  obtain ⟨V, hV⟩ := scanOf_exists h (w.map engTab.lower) (by simpa using hlen)
  have hr := heard_readings hV.visits dwsets
  exact ⟨_, hr.full hs, hr.order, fun junk L B G hroom =>
    (lemmatize_heard h w junk dwsets hne hlen hparts hV L B G (fun _ => heard_ids hr hid) (fun _ p hp => hD p (hr.mem hp))).1 hroom⟩

/-- **C41** what the matches are, in plain words: an article with one of its endings. -/
theorem C41_matches (as : List Article) (w : List Byte) (dwsets : Nat) (a : Article) (e : List Byte) :
    (a, e) ∈ Matches as w dwsets ↔ a ∈ as ∧ w.map engTab.lower = a.lowStem ++ e ++ a.post ∧
      (if a.Inflected then ∃ i, (e, i) ∈ a.endings else e = []) ∧ (dwsets &&& 2 ≠ 0 ∨ CapsFit engTab w a.demand) := by
  rw [mem_Matches]
  have h1 : a.takes e = true ↔ if a.Inflected then ∃ i, (e, i) ∈ a.endings else e = [] := by
    simp only [Article.takes]
    split
    · rw [decide_eq_true_iff]
      constructor
      · intro h0
        obtain ⟨i, hi⟩ := List.exists_mem_of_ne_nil _ h0
        exact ⟨i, mem_idsOf.1 hi⟩
      · rintro ⟨i, hi⟩
        exact List.ne_nil_of_mem (mem_idsOf.2 hi)
    · simp
  rw [h1]
  simp [Article.Form, admits]

/-! ### C42 -/

/-- **C42** FindForms: the requested forms of every reading of the word, in the order of the readings; the exact
buffer border; nothing is written when there are none. -/
theorem C42_find_forms {A : List Byte} {as : List Article} (h : EngOk A as) (w : List Byte) (dwsets : Nat)
    (hne : w ≠ []) (hlen : w.length < 48) (hparts : (wordParts engTab w).length ≤ 8) :
    ∃ H, Readings as w dwsets H ∧ ∀ junk i B, B ≠ [] →
      FormOutcome (findForms (engBuild as).images junk (some B) w i dwsets) (deliveredAll (H.map Prod.fst) i)
        (∀ p ∈ H, (packed (p.1.delivered i)).length ≤ 256) B := by
  obtain ⟨V, hV⟩ := scanOf_exists h (w.map engTab.lower) (by simpa using hlen)
  exact ⟨_, heard_readings hV.visits dwsets, fun junk i B hB => findForms_heard h w junk dwsets i hne hlen hparts hV B hB⟩

example : wrapFindForms (engBuild engSample).images [] (List.replicate 256 77) [98, 114, 111, 116, 104, 101, 114] 1 0
    = some [[98, 114, 111, 116, 104, 101, 114, 115]] := by decide +kernel

/-! ### C24 -/

theorem eng_lower_idem : ∀ b, b < 256 → engTab.lower (engTab.lower b) = engTab.lower b := by decide +kernel

theorem lower_text {l : List Byte} (h : ∀ b ∈ l, b < 256) : (l.map engTab.lower).map engTab.lower = l.map engTab.lower := by
  rw [List.map_map]
  apply List.map_congr_left
  intro b hb
  exact eng_lower_idem b (h b hb)

/-- A form in small letters, printed, lower-cases to itself. -/
theorem printed_lower (d : Nat) (hd : d ≤ 2) (f : List Byte) (hf : Text f) (hv : ∀ c ∈ f, engTab.ctype c ≠ ctInvalid) :
    (printed d f).map engTab.lower = f.map engTab.lower := by
  obtain ⟨w', h1, -, h3⟩ := C16_same_letters engTab engTab_ok engTab_upOk f [] d hf hv
  have h2 := (capSet_printed f [] d hd hf).1
  rw [h1] at h2
  have : w' = printed d f := by simpa using h2
  rw [← this]; exact h3

theorem demands_length (n m : Nat) : (demands n m).length = n := by
  unfold demands
  split <;> simp

theorem printed_parts (d : Nat) (hd : d ≤ 2) (f : List Byte) (hf : Text f) :
    (wordParts engTab (printed d f)).length = (wordParts engTab f).length := by
  obtain ⟨w', h1, -, h3⟩ := C16_parts engTab engTab_ok engTab_upOk f [] d hd hf
  have h2 := (capSet_printed f [] d hd hf).1
  rw [h1] at h2
  have : w' = printed d f := by simpa using h2
  rw [← this, h3, List.length_zipWith, demands_length]
  simp

theorem EngOk.endLower {A : List Byte} {as : List Article} (h : EngOk A as) {a : Article} (ha : a ∈ as)
    {p : List Byte × Nat} (hp : p ∈ a.endings) : p.1.map engTab.lower = p.1 := by
  have ht := h.text a ha
  simp only [Article.endings] at hp
  split at hp
  · have hm : ∀ b ∈ p.1, b ∈ a.flex.map engTab.lower := by
      intro b hb
      simp only [flexionsOf] at hp
      obtain ⟨q, hq, hbq⟩ := (flexionsFrom_mem hp) b hb
      have := splitBy_mem hq b hbq
      split at this
      · exact List.mem_of_mem_drop this
      · exact this
    conv => rhs; rw [← List.map_id p.1]
    apply List.map_congr_left
    intro b hb
    obtain ⟨c, hc, rfl⟩ := List.mem_map.1 (hm b hb)
    exact eng_lower_idem c (ht c (by simp [hc])).2
  · simp at hp

/-- What is built for an article and a number is a form of the article with this number. -/
theorem built_match {A : List Byte} {as : List Article} (h : EngOk A as) {a : Article} (ha : a ∈ as) (i : Nat) {f : List Byte}
    (hf : f ∈ a.formsFor i) (hpost : a.post.map engTab.lower = a.post) (hstem : ∀ b ∈ a.stem, b < 256) :
    f.map engTab.lower = f ∧ ∃ e, a.Form f e ∧ a.takes e = true ∧ ∃ g ∈ a.described e, g.idForm = i := by
  have hlow : a.lowStem.map engTab.lower = a.lowStem := lower_text hstem
  simp only [Article.formsFor] at hf
  split at hf
  · rename_i hinf
    split at hf
    · simp at hf
    · simp only [Article.formsWith, List.mem_map] at hf
      obtain ⟨e, he, rfl⟩ := hf
      have he := mem_endingsFor.1 he
      refine ⟨by simp [hlow, h.endLower ha he, hpost], e, rfl, ?_, ?_⟩
      · simp only [Article.takes, if_pos hinf, decide_eq_true_eq]
        exact List.ne_nil_of_mem (mem_idsOf.2 he)
      · simp only [Article.described, if_pos hinf]
        exact ⟨_, List.mem_map.2 ⟨i, mem_idsOf.2 he, rfl⟩, rfl⟩
  · rename_i hinf
    split at hf
    · rename_i h255
      simp only [List.mem_singleton] at hf
      subst hf
      refine ⟨by simp [hlow, hpost], [], by simp [Article.Form], by simp [Article.takes, hinf], ?_⟩
      simp only [Article.described, if_neg hinf]
      exact ⟨_, List.mem_singleton.2 rfl, h255.symm⟩
    · simp at hf

/-- **C24** what BuildForm builds is recognized with capitals ignored.  `f` is one of the forms of the
article for the number `i` (see C22), `printed` its printed spelling.
Missing: forms of 48 bytes and more, of more than eight parts, with bytes that are no letters, suffixes in
capitals, forms at risk (`C41_counterexample`), uninflected words with a suffix (`C22_counterexample`);
`C24_counterexample` shows a suffix in capitals. -/
theorem C24_recognized_partial {A : List Byte} {as : List Article} (h : EngOk A as) (a : Article) (ha : a ∈ as) (i : Nat)
    (f : List Byte) (hf : f ∈ a.formsFor i) (hne : f ≠ []) (hlen : f.length < 48) (hparts : (wordParts engTab f).length ≤ 8)
    (hletters : ∀ c ∈ f, engTab.ctype c ≠ ctInvalid) (hstem : ∀ b ∈ a.stem, b < 256)
    (hpost : a.post.map engTab.lower = a.post) (hs : SuffixSafe as f) (dwsets : Nat) (hd : dwsets &&& 2 ≠ 0) :
    (∀ junk, checkWord (engBuild as).images junk (printed a.demand f) dwsets = some 1) ∧
    ∃ e, (a, e) ∈ Matches as (printed a.demand f) dwsets ∧ ∃ g ∈ a.described e, g.idForm = i := by
  obtain ⟨hlow, e, he1, he2, he3⟩ := built_match h ha i hf hpost hstem
  have htext : Text f := by
    rw [he1]
    intro b hb
    rcases List.mem_append.1 hb with hb | hb
    · rcases List.mem_append.1 hb with hb | hb
      · exact h.stemText ha b hb
      · simp only [Article.takes] at he2
        split at he2
        · obtain ⟨j, hj⟩ := List.exists_mem_of_ne_nil _ (of_decide_eq_true he2)
          exact h.endText ha (mem_idsOf.1 hj) b hb
        · have := of_decide_eq_true he2
          subst this; simp at hb
    · exact h.postText ha b hb
  have hpl : (printed a.demand f).length = f.length := printed_length _ (demand_le a) f htext
  have hw : (printed a.demand f).map engTab.lower = f := by
    rw [printed_lower _ (demand_le a) f htext hletters, hlow]
  have hm : (a, e) ∈ Matches as (printed a.demand f) dwsets := by
    rw [mem_Matches, hw]
    exact ⟨ha, he1, he2, by simp [admits, hd]⟩
  refine ⟨fun junk => ?_, e, hm, he3⟩
  rw [checkWord_eq h _ junk dwsets (by intro h0; rw [h0] at hpl; exact hne (List.length_eq_zero_iff.1 hpl.symm)) (by omega)
    (by rw [printed_parts _ (demand_le a) f htext]; exact hparts) (by rw [hw]; exact hs)]
  rw [if_neg (List.ne_nil_of_mem hm)]

/-- **C24** and Lemmatize (the C++ wrapper) reports it with the same lexeme id and the same form number, if it
does not throw for lack of room; when the readings are distinct lexemes with dictionary forms. -/
theorem C24_lemmatized_partial {A : List Byte} {as : List Article} (h : EngOk A as) (a : Article) (ha : a ∈ as) (i : Nat)
    (f : List Byte) (hf : f ∈ a.formsFor i) (hne : f ≠ []) (hlen : f.length < 48) (hparts : (wordParts engTab f).length ≤ 8)
    (hletters : ∀ c ∈ f, engTab.ctype c ≠ ctInvalid) (hstem : ∀ b ∈ a.stem, b < 256)
    (hpost : a.post.map engTab.lower = a.post) (hs : SuffixSafe as f) (dwsets : Nat) (hd : dwsets &&& 2 ≠ 0)
    (hid : ((Matches as (printed a.demand f) dwsets).map fun p => p.1.id).Nodup)
    (hD : ∀ p ∈ Matches as (printed a.demand f) dwsets, p.1.dictForms ≠ [])
    (junk : List Byte) (lx : List Lemm) (gr : List Gram) (st : List Byte) (hlx : lx.length = 32) (hgr : gr.length = 64)
    (hst : st.length = 256) :
    (∃ e, e < 0 ∧ wrapLemmatize (engBuild as).images junk lx gr st (printed a.demand f) dwsets = some (.error e)) ∨
    ∃ xs, wrapLemmatize (engBuild as).images junk lx gr st (printed a.demand f) dwsets = some (.ok xs) ∧
      ∃ x ∈ xs, x.nlexid = a.id ∧ ∃ g ∈ x.grams, g.idForm = i := by
  obtain ⟨hlow, e0, he1, he2, -⟩ := built_match h ha i hf hpost hstem
  obtain ⟨-, e, hm, g, hg, hgi⟩ := C24_recognized_partial h a ha i f hf hne hlen hparts hletters hstem hpost hs dwsets hd
  have htext : Text f := by
    rw [he1]
    intro b hb
    rcases List.mem_append.1 hb with hb | hb
    · rcases List.mem_append.1 hb with hb | hb
      · exact h.stemText ha b hb
      · simp only [Article.takes] at he2
        split at he2
        · obtain ⟨j, hj⟩ := List.exists_mem_of_ne_nil _ (of_decide_eq_true he2)
          exact h.endText ha (mem_idsOf.1 hj) b hb
        · have := of_decide_eq_true he2
          subst this; simp at hb
    · exact h.postText ha b hb
  have hpl : (printed a.demand f).length = f.length := printed_length _ (demand_le a) f htext
  have hw : (printed a.demand f).map engTab.lower = f := by
    rw [printed_lower _ (demand_le a) f htext hletters, hlow]
  obtain ⟨H, hr, hwrap⟩ := C64_unmerged_partial h (printed a.demand f) dwsets
    (by intro h0; rw [h0] at hpl; exact hne (List.length_eq_zero_iff.1 hpl.symm)) (by omega)
    (by rw [printed_parts _ (demand_le a) f htext]; exact hparts) hid hD
  have hmem : (a, e) ∈ H := (hr.full (by rw [hw]; exact hs)).mem_iff.2 hm
  obtain ⟨k1, k2⟩ := hwrap junk lx gr st hlx hgr hst
  by_cases hroom : (H.length ≤ 32 ∧ (lemmGramsAll H).length ≤ 64 ∧ (lemmTexts H).length ≤ 255 ∧
          (∀ p ∈ H, (packed p.1.dictForms).length ≤ 256))
  · right
    exact ⟨_, k1 hroom, _, List.mem_map.2 ⟨(a, e), hmem, rfl⟩, rfl, g, hg, hgi⟩
  · left; exact k2 hroom

/-- "mother|0|s" with the suffix "-in-Law": the compiler keeps the capital of the suffix. -/
def capSuffix : Article := ⟨[109, 111, 116, 104, 101, 114], [124, 48, 124, 115], 1, [45, 105, 110, 45, 76, 97, 119], 5⟩

/-- **C24** refuted for a suffix with a capital: the form built is not recognized, capitals ignored or not. -/
theorem C24_counterexample :
    wrapBuildForm (engBuild [capSuffix]).images (List.replicate 15 0) (List.replicate 256 0) 5 1
      = some [[109, 111, 116, 104, 101, 114, 115, 45, 105, 110, 45, 76, 97, 119]] ∧
    checkWord (engBuild [capSuffix]).images [] [109, 111, 116, 104, 101, 114, 115, 45, 105, 110, 45, 76, 97, 119] 2 = some 0 ∧
    checkWord (engBuild [capSuffix]).images [] [109, 111, 116, 104, 101, 114, 115, 45, 105, 110, 45, 76, 97, 119] 0 = some 0 := by
  decide +kernel

/-- The hypotheses are met: "brothers-in-law". -/
example : (∀ junk, checkWord (engBuild engSample).images junk
    (printed 0 [98, 114, 111, 116, 104, 101, 114, 115, 45, 105, 110, 45, 108, 97, 119]) 2 = some 1) :=
  (C24_recognized_partial engSample_ok
    ⟨[98, 114, 111, 116, 104, 101, 114], [124, 48, 124, 115, 124, 39, 115, 124, 115, 39], 1, [45, 105, 110, 45, 108, 97, 119], 44344⟩
    (by decide +kernel) 1 [98, 114, 111, 116, 104, 101, 114, 115, 45, 105, 110, 45, 108, 97, 119] (by decide +kernel) (by decide) (by decide)
    (by decide +kernel) (by decide +kernel) (by decide +kernel) (by decide +kernel) (by unfold SuffixSafe; decide +kernel) 2 (by decide)).1

/-! ### C34 -/

/-- The English class table after a sequence of additions, with the offsets returned. -/
def ClassTab.addAll : List ClassInfo → ClassTab → ClassTab × List Nat
  | [], t => (t, [])
  | c :: cs, t => ((addAll cs (t.add c).1).1, (t.add c).2 :: (addAll cs (t.add c).1).2)

theorem classTab_addAll (cs : List ClassInfo) (t : ClassTab) (h : ClassInv t) :
    ClassInv (t.addAll cs).1 ∧ (t.addAll cs).2.length = cs.length ∧ (∀ p ∈ cs.zip (t.addAll cs).2, p ∈ (t.addAll cs).1.tab) ∧
      ∀ p ∈ t.tab, p ∈ (t.addAll cs).1.tab := by
  induction cs generalizing t with
  | nil => exact ⟨h, rfl, by simp, fun p hp => hp⟩
  | cons c cs ih =>
    obtain ⟨k1, k2, l, k3⟩ := classInv_add h c
    obtain ⟨m1, m2, m3, m4⟩ := ih _ k1
    refine ⟨m1, by simp [ClassTab.addAll, m2], ?_, fun p hp => m4 p (by rw [k3]; simp [hp])⟩
    intro p hp
    simp only [ClassTab.addAll, List.zip_cons_cons, List.mem_cons] at hp
    rcases hp with rfl | hp
    · exact m4 _ k2
    · exact m3 p hp

/-- **C34** the English class table: after any sequence of additions with at most 8192 different classes, every
class added stands in the image at the offset that was returned for it, and two additions got the same offset
exactly when the classes were equal. -/
theorem C34_english (cs : List ClassInfo) (hn : (ClassTab.addAll cs {}).1.tab.length ≤ 8192) :
    (ClassTab.addAll cs {}).2.length = cs.length ∧
    (∀ p ∈ cs.zip (ClassTab.addAll cs {}).2, ∃ rest, (ClassTab.addAll cs {}).1.image.drop p.2 = p.1.ser ++ rest) ∧
    (∀ p ∈ cs.zip (ClassTab.addAll cs {}).2, ∀ q ∈ cs.zip (ClassTab.addAll cs {}).2, p.2 = q.2 ↔ p.1 = q.1) := by
  obtain ⟨h1, h2, h3, -⟩ := classTab_addAll cs {} classInv_init
  refine ⟨h2, fun p hp => (class_record_at h1 hn (h3 p hp)).2, ?_⟩
  intro p hp q hq
  obtain ⟨i, hi, ei⟩ := List.getElem_of_mem (h3 p hp)
  obtain ⟨j, hj, ej⟩ := List.getElem_of_mem (h3 q hq)
  have oi := h1.at_ i hi
  have oj := h1.at_ j hj
  rw [ei] at oi
  rw [ej] at oj
  constructor
  · intro he
    have : i = j := by omega
    subst this
    rw [← ei, ← ej]
  · intro he
    have hinj := (List.nodup_iff_injective_get.1 h1.keys)
    have hij : (⟨i, by simpa using hi⟩ : Fin ((ClassTab.addAll cs {}).1.tab.map Prod.fst).length) = ⟨j, by simpa using hj⟩ := by
      apply hinj
      simp only [List.get_eq_getElem, List.getElem_map, ei, ej, he]
    simp only [Fin.mk.injEq] at hij
    omega

/-- **C34** the generic class table (used by the Russian compiler): as long as no addition throws, every class
added stands in the image at the offset returned for it; the offsets of two additions are equal exactly when the
classes are.  Classes write as many bytes as they announce, at least one. -/
theorem C34_generic {α : Type} [DecidableEq α] (ser : α → List Byte) (bufLen : α → Nat) (hlen : ∀ c, (ser c).length = bufLen c)
    (hpos : ∀ c, 0 < bufLen c) (cs : List α) (t : ClassTable α) (os : List Nat)
    (h : ClassTable.addAll bufLen cs {} = some (t, os)) :
    os.length = cs.length ∧ (t.image ser).length = t.length ∧
    (∀ p ∈ cs.zip os, p.2 < 65536 ∧ ∃ rest, (t.image ser).drop p.2 = ser p.1 ++ rest) ∧
    (∀ p ∈ cs.zip os, ∀ q ∈ cs.zip os, p.2 = q.2 ↔ p.1 = q.1) := by
  obtain ⟨h1, h2, h3, -⟩ := ClassTable.inv_addAll hlen (ClassTable.inv_init ser) h
  refine ⟨h2, h1.len.symm, ?_, ?_⟩
  · intro p hp
    obtain ⟨a, b, e1, e2⟩ := h1.at_ p (h3 p hp)
    have hb := h1.below p (h3 p hp)
    have := hpos p.1
    have := h1.small
    rw [hlen] at hb
    refine ⟨by omega, b, ?_⟩
    rw [e1, ← e2, List.append_assoc, List.drop_left]
  · intro p hp q hq
    obtain ⟨i, hi, ei⟩ := List.getElem_of_mem (h3 p hp)
    obtain ⟨j, hj, ej⟩ := List.getElem_of_mem (h3 q hq)
    have hord := List.pairwise_iff_getElem.1 h1.order
    constructor
    · intro he
      rcases Nat.lt_trichotomy i j with hlt | heq | hgt
      · have := hord i j hi hj hlt
        rw [ei, ej, hlen] at this
        have := hpos p.1
        omega
      · subst heq; rw [← ei, ← ej]
      · have := hord j i hj hi hgt
        rw [ei, ej, hlen] at this
        have := hpos q.1
        omega
    · intro he
      have hinj := (List.nodup_iff_injective_get.1 h1.keys)
      have hij : (⟨i, by simpa using hi⟩ : Fin (t.clsset.map Prod.fst).length) = ⟨j, by simpa using hj⟩ := by
        apply hinj
        simp only [List.get_eq_getElem, List.getElem_map, ei, ej, he]
      simp only [Fin.mk.injEq] at hij
      subst hij
      rw [← ei, ← ej]

/-- Three additions, two of them equal. -/
example : (ClassTab.addAll [⟨1, 4⟩, ⟨2, 4⟩, ⟨1, 4⟩] {}).2 = [0, 4, 0] := by decide
example : (ClassTable.addAll List.length [[1, 2], [3], [1, 2]] {}).map (·.2) = some [0, 2, 0] := by decide

/-! ### C37 -/

/-- One lexeme under two articles: "cut|0|s V" and "cut|-|0 N", so that "cut" is form 0 of the one and form 1 of the other. -/
def cutTwice : List Article :=
  [⟨[99, 117, 116], [124, 48, 124, 115], 2, [], 5⟩, ⟨[99, 117, 116], [124, 45, 124, 48], 1, [], 5⟩]

/-- **C37** refuted: the lexeme is reported once, but with the description of one article only; the other
description is written to the buffer and not counted. -/
theorem C37_counterexample :
    wrapLemmatize (engBuild cutTwice).images [] (List.replicate 32 ⟨0, 0, 0, 0⟩) (List.replicate 64 ⟨0, 0, 0, 0⟩)
      (List.replicate 256 77) [99, 117, 116] 0 = some (.ok [⟨5, [99, 117, 116], [⟨2, 0, 0, 0⟩]⟩]) ∧
    (lemmatize (engBuild cutTwice).images [] [99, 117, 116] (some (List.replicate 32 ⟨0, 0, 0, 0⟩)) none
      (some (List.replicate 3 ⟨0, 0, 0, 0⟩)) 0).map (fun r => (r.1, r.2.grams)) =
        some (1, some [⟨2, 0, 0, 0⟩, ⟨1, 1, 0, 0⟩, ⟨0, 0, 0, 0⟩]) := by decide +kernel

end Libmorph
