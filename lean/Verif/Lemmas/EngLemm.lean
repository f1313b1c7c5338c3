import Verif.Lemmas.EngApi
import Verif.Spec.Lemm
import Verif.Lemmas.Lemm
/-
Lemmatize of the English interface.
-/
namespace Libmorph

theorem find_built {a : Article} (l : List Nat) :
    ((l.map a.built).find? (fun x => !x.isEmpty)).getD [] = [] ↔ ∀ i ∈ l, a.built i = [] := by
  induction l with
  | nil => simp
  | cons i l ih =>
    rw [List.map_cons, List.find?_cons]
    by_cases hi : a.built i = []
    · simp only [hi, List.isEmpty_nil, Bool.not_true]
      rw [ih]; simp [hi]
    · have : (!(a.built i).isEmpty) = true := by simpa using hi
      simp [this, hi]

theorem dictFormsLoop_eq {A : List Byte} {as : List Article} (h : EngOk A as) {a : Article} (ha : a ∈ as) (n i : Nat) :
    (((((List.range' i n).map a.built).find? (fun x => !x.isEmpty)).getD [] = [] →
      dictFormsLoop (engBuild as).images.flexTree 256 a.lowStem a.post ((engBuild as).infoFor a) n i [] = some (0, []))) ∧
    ((((List.range' i n).map a.built).find? (fun x => !x.isEmpty)).getD [] ≠ [] →
      ((packed ((((List.range' i n).map a.built).find? (fun x => !x.isEmpty)).getD [])).length ≤ 256 →
        dictFormsLoop (engBuild as).images.flexTree 256 a.lowStem a.post ((engBuild as).infoFor a) n i []
          = some ((((((List.range' i n).map a.built).find? (fun x => !x.isEmpty)).getD []).length : Int),
              packed ((((List.range' i n).map a.built).find? (fun x => !x.isEmpty)).getD []))) ∧
      (256 < (packed ((((List.range' i n).map a.built).find? (fun x => !x.isEmpty)).getD [])).length →
        ∃ o, dictFormsLoop (engBuild as).images.flexTree 256 a.lowStem a.post ((engBuild as).infoFor a) n i []
          = some (-1, o))) := by
  induction n generalizing i with
  | zero => simp [dictFormsLoop]
  | succ n ih =>
    obtain ⟨g1, g2⟩ := getWordForms_article h ha i
    simp only [List.range'_succ, List.map_cons, List.find?_cons, dictFormsLoop]
    by_cases hb : a.built i = []
    · rw [hb] at g1
      simp only [hb, List.isEmpty_nil, Bool.not_true]
      rw [g1 (by simp [packed])]
      simp only [bind, Option.bind_some, List.length_nil, Nat.cast_zero, ne_eq, not_true_eq_false, if_false, packed_nil]
      exact ih (i + 1)
    · have hb' : (!(a.built i).isEmpty) = true := by simpa using hb
      have hpos : 0 < (a.built i).length := List.length_pos_iff.2 hb
      simp only [hb', Option.getD_some]
      refine ⟨fun h0 => absurd h0 hb, fun _ => ⟨fun hsz => ?_, fun hsz => ?_⟩⟩
      · rw [g1 hsz]
        simp only [bind, Option.bind_some]
        rw [if_pos (by omega)]; rfl
      · obtain ⟨o, ho⟩ := g2 hsz
        rw [ho]
        simp only [bind, Option.bind_some]
        rw [if_pos (by omega)]
        exact ⟨o, rfl⟩

theorem dictForms_built (a : Article) :
    a.dictForms = (((List.range' 0 16).map a.built).find? (fun x => !x.isEmpty)).getD [] := by
  rw [← List.range_eq_range']
  by_cases hinf : a.Inflected
  · simp only [Article.dictForms, if_pos hinf]
    congr 2
    apply List.map_congr_left
    intro i _
    simp [Article.built, hinf]
  · simp only [Article.dictForms, if_neg hinf]
    rw [show (16 : Nat) = 15 + 1 from rfl, List.range_succ_eq_map, List.map_cons, List.find?_cons]
    simp [Article.built, hinf]

theorem getDictForms_article {A : List Byte} {as : List Article} (h : EngOk A as) {a : Article} (ha : a ∈ as) :
    (a.dictForms = [] →
      getDictForms (engBuild as).images.flexTree 256 a.lowStem a.post ((engBuild as).infoFor a) = some (0, [])) ∧
    (a.dictForms ≠ [] →
      ((packed a.dictForms).length ≤ 256 →
        getDictForms (engBuild as).images.flexTree 256 a.lowStem a.post ((engBuild as).infoFor a)
          = some ((a.dictForms.length : Int), packed a.dictForms)) ∧
      (256 < (packed a.dictForms).length →
        ∃ o, getDictForms (engBuild as).images.flexTree 256 a.lowStem a.post ((engBuild as).infoFor a) = some (-1, o))) := by
  rw [dictForms_built]
  exact dictFormsLoop_eq h ha 16 0

theorem EngOk.dictText {A : List Byte} {as : List Article} (h : EngOk A as) {a : Article} (ha : a ∈ as) :
    ∀ f ∈ a.dictForms, Text f := by
  rw [dictForms_built]
  intro f hf
  cases hfd : ((List.range' 0 16).map a.built).find? (fun x => !x.isEmpty) with
  | none => rw [hfd] at hf; simp at hf
  | some l =>
    rw [hfd] at hf
    obtain ⟨i, -, rfl⟩ := List.mem_map.1 (List.mem_of_find?_eq_some hfd)
    exact h.builtText ha i f hf

/-- The dictionary form of a new lemma. -/
theorem lemmForm_eq {A : List Byte} {as : List Article} (h : EngOk A as) {a : Article} (ha : a ∈ as)
    (s : LemmState) (B x : List Byte) (hs : s.forms.Holds B x) :
    (a.dictForms = [] →
      lemmForm (engBuild as).images.flexTree a.lowStem a.post ((engBuild as).infoFor a) false s = some (.error 0, s)) ∧
    (a.dictForms ≠ [] →
      ((packed a.dictForms).length ≤ 256 → (x ++ (a.lemma ++ [0])).length + 1 ≤ B.length →
        ∃ c, lemmForm (engBuild as).images.flexTree a.lowStem a.post ((engBuild as).infoFor a) false s
            = some (.ok (), { s with forms := c }) ∧ c.Holds B (x ++ (a.lemma ++ [0]))) ∧
      ((256 < (packed a.dictForms).length ∨ B.length < (x ++ (a.lemma ++ [0])).length + 1) →
        ∃ c, lemmForm (engBuild as).images.flexTree a.lowStem a.post ((engBuild as).infoFor a) false s
            = some (.error LEMMBUFF_FAILED, { s with forms := c }) ∧ ∃ b, c.buf = some b ∧ b.length = B.length)) := by
  obtain ⟨g1, g2⟩ := getDictForms_article h ha
  have hcap : (((engBuild as).infoFor a).wdinfo >>> 7) &&& 3 = a.demand := minCap_value a (h.pos a ha) _
  have hb : ∃ b, s.forms.buf = some b ∧ b.length = B.length := by
    obtain ⟨y, h1, h2, -⟩ := hs.mem
    exact ⟨_, h1, by have := hs.room; simp; omega⟩
  have hsome : (s.forms.buf.isSome && !false) = true := by
    obtain ⟨b, hb, -⟩ := hb
    simp [hb]
  refine ⟨fun h0 => ?_, fun hne => ?_⟩
  · simp [lemmForm, hsome, g1 h0]
    intro h1; rw [h1] at hsome; simp at hsome
  · obtain ⟨g3, g4⟩ := g2 hne
    obtain ⟨f, fs, hfs⟩ : ∃ f fs, a.dictForms = f :: fs := by
      cases hd : a.dictForms with
      | nil => exact absurd hd hne
      | cons f fs => exact ⟨f, fs, rfl⟩
    have hf : Text f := h.dictText ha f (by simp [hfs])
    obtain ⟨cs1, cs2⟩ := capSet_printed f (packed fs) a.demand (demand_le a) hf
    have hlem : a.lemma = printed a.demand f := by simp [Article.lemma, hfs]
    have ht : (printed a.demand f ++ 0 :: packed fs).take f.length = printed a.demand f := by
      rw [← cs2, List.take_left]
    have hcase : (packed a.dictForms).length ≤ 256 →
        lemmForm (engBuild as).images.flexTree a.lowStem a.post ((engBuild as).infoFor a) false s
          = (s.forms.appendz a.lemma).bind fun r =>
              if r.1 then some (.ok (), { s with forms := r.2 }) else some (.error LEMMBUFF_FAILED, { s with forms := r.2 }) := by
      intro hsz
      have hpos : ¬ ((a.dictForms.length : Int) ≤ 0) := by
        have := List.length_pos_iff.2 hne; omega
      simp only [lemmForm, hsome, if_true, g3 hsz, bind, Option.bind_some, if_neg hpos, hcap]
      rw [hfs, packed_cons, strLen_text f _ hf]
      simp only [Option.bind_some, cs1, ht, hlem]
      rfl
    refine ⟨fun hsz hfit => ?_, fun hbad => ?_⟩
    · obtain ⟨c, c1, c2⟩ := (Coder.appendz_eq hs a.lemma).1 (by
        simp only [List.length_append, List.length_singleton] at hfit; omega)
      rw [hcase hsz, c1]
      exact ⟨c, by simp, c2⟩
    · by_cases hsz : (packed a.dictForms).length ≤ 256
      · obtain ⟨c, c1, c2⟩ := (Coder.appendz_eq hs a.lemma).2 (by
          simp only [List.length_append, List.length_singleton] at hbad; omega)
        rw [hcase hsz, c1]
        exact ⟨c, by simp, c2⟩
      · obtain ⟨o, ho⟩ := g4 (by omega)
        refine ⟨s.forms, ?_, hb⟩
        simp only [lemmForm, hsome, if_true, ho, bind, Option.bind_some]
        rw [if_pos (by omega)]
        rfl

theorem setGram_eq {A : List Byte} {as : List Article} (h : EngOk A as) {a : Article} (ha : a ∈ as) (e : List Byte) :
    setGram ((engBuild as).infoFor a) = (Article.step (a, e)).put := by
  funext g
  have ht := h.tfoffs ha
  simp only [Article.step]
  by_cases hinf : a.Inflected
  · simp only [setGram, if_pos (ht.2 hinf), if_pos hinf]
  · rw [if_neg hinf]
    have : ((engBuild as).infoFor a).tfoffs = 0 := by
      by_contra hc; exact hinf (ht.1 hc)
    have hw := wdinfo_value a (h.pos a ha)
    have := h.pos a ha
    have := demand_le a
    have hm : a.wdinfo % 0x2000 = a.pos + 128 * a.demand := by rw [hw]; omega
    simp only [setGram]
    rw [if_neg (by simpa using ‹_›)]
    simp [show ((engBuild as).infoFor a).wdinfo = a.wdinfo from rfl, hm]

theorem step_counted (p : Article × List Byte) (l : List LemmStep) : LemmGroup.counted (Article.step p, l) = p.1.described p.2 := by
  simp only [LemmGroup.counted, Article.step, Article.described]
  by_cases hinf : p.1.Inflected
  · simp [if_pos hinf]
  · simp [if_neg hinf]

theorem grams_length (a : Article) (e : List Byte) : (a.grams e).length = (a.described e).length := by
  simp only [Article.grams, Article.described]; split <;> simp

theorem lemmRecords_length (f g : Bool) (x y : Nat) (H : List (Article × List Byte)) :
    (lemmRecords f g x y H).length = H.length := by
  induction H generalizing x y with
  | nil => rfl
  | cons p H ih => simp [lemmRecords, ih]

/-- Which buffer a negative code blames. -/
def Blames (L : Option (List Lemm)) (B : Option (List Byte)) (G : Option (List Gram)) (H : List (Article × List Byte))
    (r : Int) : Prop :=
  (r = LIDSBUFF_FAILED ∧ ∃ l, L = some l ∧ l.length < H.length) ∨
  (r = LEMMBUFF_FAILED ∧ ∃ b, B = some b ∧ (b.length < (lemmTexts H).length + 1 ∨
    ∃ p ∈ H, 256 < (packed p.1.dictForms).length)) ∨
  (r = GRAMBUFF_FAILED ∧ ∃ l g, L = some l ∧ G = some g ∧ g.length < (lemmGramsAll H).length)

theorem described_small {A : List Byte} {as : List Article} (h : EngOk A as) {a : Article} (ha : a ∈ as) (e : List Byte) :
    (a.described e).length < 2 ^ 32 := by
  simp only [Article.described]
  split
  · rw [List.length_map, Article.idsOf, List.length_mergeSort, List.length_map]
    have := h.equal a ha e
    omega
  · simp

/-- The part that prints the dictionary form. -/
theorem engPrints {A : List Byte} {as : List Article} (h : EngOk A as) {B : Option (List Byte)} {p : Article × List Byte}
    (hp : p.1 ∈ as) (hD : B.isSome → p.1.dictForms ≠ []) :
    Prints B (Article.step p) (lemmForm (engBuild as).images.flexTree p.1.lowStem p.1.post ((engBuild as).infoFor p.1)) := by
  refine ⟨?_, ?_, ?_, ?_⟩
  · intro s; simp [lemmForm]
  · intro s hs; simp [lemmForm, hs]
  · intro s b x hB hs h1 h2
    exact ((lemmForm_eq h hp s b x hs).2 (hD (by rw [hB]; rfl))).1 h1 h2
  · intro s b x hB hs h1
    obtain ⟨c, h2, b', h3, h4⟩ := ((lemmForm_eq h hp s b x hs).2 (hD (by rw [hB]; rfl))).2 h1
    exact ⟨c, h2, by simp [h3, h4]⟩

theorem step_small {A : List Byte} {as : List Article} (h : EngOk A as) {p : Article × List Byte} (hp : p.1 ∈ as) :
    (Article.step p).grs.length < 2 ^ 32 := by
  have h1 := described_small h hp p.2
  rw [← grams_length] at h1
  exact h1

/-- Lemmatize on a word the interface takes, readings of one lexeme in a row joined. -/
theorem lemmatize_groups {A : List Byte} {as : List Article} (h : EngOk A as) (w junk : List Byte) (dwsets : Nat)
    (hne : w ≠ []) (hlen : w.length < 48) (hparts : (wordParts engTab w).length ≤ 8)
    {V : List (Article × List Byte)} (hV : ScanOf as (w.map engTab.lower) V)
    (L : Option (List Lemm)) (B : Option (List Byte)) (G : Option (List Gram))
    (hD : B.isSome → ∀ p ∈ heard V w dwsets, p.1.dictForms ≠ [])
    (hsafe : JoinSafe L G ((heard V w dwsets).map Article.step)) :
    (∃ s, lemmatize (engBuild as).images junk w L B G dwsets
        = some (((lemmGroups L.isSome ((heard V w dwsets).map Article.step)).length : Int), s) ∧
      GroupHolds L B G (lemmGroups L.isSome ((heard V w dwsets).map Article.step)) s) ∨
    (¬ GroupRoomy L B G (lemmGroups L.isSome ((heard V w dwsets).map Article.step)) ∧
      ∃ r s, lemmatize (engBuild as).images junk w L B G dwsets = some (r, s) ∧
        GroupBlames L B G (lemmGroups L.isSome ((heard V w dwsets).map Article.step)) r ∧ SameSizes L B G s) := by
  have hp := heard_readings hV.visits dwsets
  have hr := word_scan w junk dwsets hne hlen hparts hV
  generalize heard V w dwsets = H at hp hr hD hsafe ⊢
  have hmem : ∀ p ∈ H, p ∈ Matches as w dwsets := fun p hpH => hp.mem hpH
  rcases hr with ⟨h1, rfl⟩ | ⟨s, h1, h2⟩
  · left
    exact ⟨⟨L, 0, ⟨B, 0⟩, G, 0, 0⟩, by simp [lemmatize, h1, lemmGroups], by simpa [lemmGroups] using GroupHolds.init⟩
  · have k := groupRun (L := L) (B := B) (G := G) Article.step
      (fun p => lemmForm (engBuild as).images.flexTree p.1.lowStem p.1.post ((engBuild as).infoFor p.1))
      (fun p s => lemmCall (engBuild as).images.flexTree p.1.id ((engBuild as).infoFor p.1)
          (stemOf (w.map engTab.lower) junk ⟨p.2 ++ p.1.post ++ 0 :: junk, p.2.length⟩) p.1.post (p.1.grams p.2) s) H
      (fun p hpH s => by
        simp only [stemOf_match (hmem p hpH), lemmCall, setGram_eq h (mem_Matches.1 (hmem p hpH)).1 p.2]
        rfl)
      (fun p hpH => engPrints h (mem_Matches.1 (hmem p hpH)).1 (fun hB => hD hB p hpH))
      (fun p hpH => step_small h (mem_Matches.1 (hmem p hpH)).1)
      (done := []) GroupHolds.init (by simpa using hsafe)
    simp only [List.nil_append] at k
    rcases k with ⟨s', k1, k2⟩ | ⟨k0, r, s', k1, k2, k3⟩
    · left
      refine ⟨s', ?_, k2⟩
      simp only [lemmatize, h1, bind, Option.bind_some, h2]
      simp only [k1, Option.bind_some, k2.nbuilt, pure]
    · right
      refine ⟨k0, r, s', ?_, k2, k3⟩
      have hneg : r < 0 := by
        rcases k2 with ⟨h, -⟩ | ⟨h, -⟩ | ⟨h, -⟩ <;> rw [h] <;> decide
      simp only [lemmatize, h1, bind, Option.bind_some, h2]
      simp only [k1, Option.bind_some, if_pos hneg, pure]

/-! ### When every reading has its own record -/

/-- Every reading on its own. -/
def alone (H : List (Article × List Byte)) : List LemmGroup := H.map fun p => (Article.step p, [])

theorem alone_texts (H : List (Article × List Byte)) : groupTexts (alone H) = lemmTexts H := by
  simp [groupTexts, alone, lemmTexts, Function.comp_def, Article.step]

theorem alone_written (p : Article × List Byte) : LemmGroup.written (Article.step p, []) = p.1.described p.2 := by
  simp [LemmGroup.written, step_counted]

theorem alone_grams (H : List (Article × List Byte)) : groupGrams (alone H) = lemmGramsAll H := by
  simp [groupGrams, alone, lemmGramsAll, List.flatMap_map, Function.comp_def, alone_written]

theorem alone_records (f g : Bool) (x y : Nat) (H : List (Article × List Byte)) :
    groupRecords f g x y (alone H) = lemmRecords f g x y H := by
  induction H generalizing x y with
  | nil => rfl
  | cons p H ih =>
    have hc : (Article.step p).grs.length = (p.1.described p.2).length := by
      rw [← step_counted p []]; simp [LemmGroup.counted]
    rw [show alone (p :: H) = (Article.step p, []) :: alone H from rfl, groupRecords, lemmRecords, ih, alone_written, hc]
    rfl

theorem alone_joined (H : List (Article × List Byte)) : ¬ Joined (alone H) := by
  rintro ⟨g, hg, hne⟩
  simp only [alone, List.mem_map] at hg
  obtain ⟨p, -, rfl⟩ := hg
  exact hne rfl

theorem alone_roomy {L : Option (List Lemm)} {B : Option (List Byte)} {G : Option (List Gram)} {H : List (Article × List Byte)} :
    GroupRoomy L B G (alone H) ↔ Roomy L B G H := by
  have hl : (alone H).length = H.length := by simp [alone]
  have hne : alone H ≠ [] ↔ H ≠ [] := by simp [alone]
  constructor
  · intro h
    refine ⟨?_, ?_, ?_, ?_⟩
    · intro l hl'; rw [← hl]; exact h.lemms l hl'
    · intro b hb h0; rw [← alone_texts]; exact h.texts b hb (hne.2 h0)
    · intro b hb p hp; exact h.scratch b hb (Article.step p, []) (List.mem_map.2 ⟨p, hp, rfl⟩)
    · intro l hl' g hg; rw [← alone_grams]; exact h.grams l hl' g hg
  · intro h
    refine ⟨⟨?_, ?_, ?_, ?_⟩, fun hj => absurd hj (alone_joined H), fun hj => absurd hj (alone_joined H)⟩
    · intro l hl'; rw [hl]; exact h.lemms l hl'
    · intro b hb h0; rw [alone_texts]; exact h.texts b hb (hne.1 h0)
    · intro b hb g hg
      obtain ⟨p, hp, rfl⟩ := List.mem_map.1 hg
      exact h.scratch b hb p hp
    · intro l hl' g hg; rw [alone_grams]; exact h.grams l hl' g hg

theorem alone_blames {L : Option (List Lemm)} {B : Option (List Byte)} {G : Option (List Gram)} {H : List (Article × List Byte)}
    {r : Int} (h : GroupBlames L B G (alone H) r) : Blames L B G H r := by
  rcases h with ⟨h1, l, h2, h3⟩ | ⟨h1, b, h2, h3⟩ | ⟨h1, l, g, h2, h3, h4⟩
  · left; exact ⟨h1, l, h2, by simpa [alone] using h3⟩
  · right; left
    refine ⟨h1, b, h2, ?_⟩
    rw [alone_texts] at h3
    rcases h3 with h3 | ⟨g, hg, h3⟩
    · exact Or.inl h3
    · obtain ⟨p, hp, rfl⟩ := List.mem_map.1 hg
      exact Or.inr ⟨p, hp, h3⟩
  · right; right
    refine ⟨h1, l, g, h2, h3, ?_⟩
    rw [alone_grams] at h4
    rcases h4 with h4 | ⟨-, h4⟩
    · exact h4
    · exact absurd h4 (alone_joined H)

theorem alone_reported {L : Option (List Lemm)} {B : Option (List Byte)} {G : Option (List Gram)} {H : List (Article × List Byte)}
    {s : LemmState} (h : GroupReported L B G (alone H) s) : Reported L B G H s := by
  have hne : alone H = [] ↔ H = [] := by simp [alone]
  refine ⟨?_, ?_, ?_⟩
  · have h1 := h.lemms
    cases L with
    | none => exact h1
    | some l =>
      obtain ⟨tl, h1, -, -, h4⟩ := h1
      rw [h1, h4 (alone_joined H), alone_records]
      simp [alone]
  · rw [h.texts, alone_texts]
    simp only [hne]
  · rw [h.grams, alone_grams]

/-- Lemmatize on a word the interface takes, when no lexeme is read twice. -/
theorem lemmatize_heard {A : List Byte} {as : List Article} (h : EngOk A as) (w junk : List Byte) (dwsets : Nat)
    (hne : w ≠ []) (hlen : w.length < 48) (hparts : (wordParts engTab w).length ≤ 8)
    {V : List (Article × List Byte)} (hV : ScanOf as (w.map engTab.lower) V)
    (L : Option (List Lemm)) (B : Option (List Byte)) (G : Option (List Gram))
    (hid : L.isSome → ((heard V w dwsets).map fun p => p.1.id).Nodup)
    (hD : B.isSome → ∀ p ∈ heard V w dwsets, p.1.dictForms ≠ []) :
      (Roomy L B G (heard V w dwsets) → ∃ s, lemmatize (engBuild as).images junk w L B G dwsets
          = some (((heard V w dwsets).length : Int), s) ∧ Reported L B G (heard V w dwsets) s) ∧
      (¬ Roomy L B G (heard V w dwsets) → ∃ r s, lemmatize (engBuild as).images junk w L B G dwsets = some (r, s) ∧
        Blames L B G (heard V w dwsets) r ∧ SameSizes L B G s) := by
  have hnd : L.isSome = true → (((heard V w dwsets).map Article.step).map LemmStep.id).Nodup := by
    intro hL
    have := hid hL
    simpa [Function.comp_def, Article.step] using this
  have hgr : lemmGroups L.isSome ((heard V w dwsets).map Article.step) = alone (heard V w dwsets) := by
    rw [lemmGroups_apart]
    · simp [alone, Function.comp_def]
    · intro hL
      exact List.Pairwise.isChain (hnd hL)
  have hsafe : JoinSafe L G ((heard V w dwsets).map Article.step) := by
    intro l hl y hy P p Q hH hlast
    exfalso
    have hn := hnd (by rw [hl]; rfl)
    rw [hH] at hn
    have hP : lemmGroups true P = P.map fun p => (p, []) := by
      rw [lemmGroups_apart]
      intro _
      rw [List.map_append, List.nodup_append] at hn
      exact List.Pairwise.isChain hn.1
    rw [hP, List.getLast?_map, Option.map_map] at hlast
    obtain ⟨q, hq, hqid⟩ := Option.map_eq_some_iff.1 hlast
    rw [List.map_append, List.nodup_append] at hn
    exact hn.2.2 q.id (List.mem_map.2 ⟨q, List.mem_of_getLast? hq, rfl⟩) p.id (by simp) hqid
  have k := lemmatize_groups h w junk dwsets hne hlen hparts hV L B G hD hsafe
  rw [hgr, alone_roomy] at k
  rcases k with ⟨s, k1, k2⟩ | ⟨k0, r, s, k1, k2, k3⟩
  · have hroom : Roomy L B G (heard V w dwsets) := by
      rw [← alone_roomy]
      exact ⟨k2.fits, fun hj => absurd hj (alone_joined _), fun hj => absurd hj (alone_joined _)⟩
    refine ⟨fun _ => ⟨s, by simpa [alone] using k1, alone_reported k2.reported⟩, fun hn => absurd hroom hn⟩
  · exact ⟨fun hr => absurd hr k0, fun _ => ⟨r, s, k1, alone_blames k2, k3⟩⟩

end Libmorph
