import Verif.Lemmas.RusState
import Verif.Props.C28
/-
What the run time loads for an article.
-/
namespace Libmorph

theorem RusStem.stored_and (c : RusStem) (m : Nat) (h1 : m &&& 0x2000 = 0) (h2 : m &&& 0x4000 = 0) :
    c.stored &&& m = c.wdinfo &&& m := by
  simp only [RusStem.stored, Nat.and_or_distrib_right]
  have h1' : 0x2000 &&& m = 0 := by rw [Nat.and_comm]; exact h1
  have h2' : 0x4000 &&& m = 0 := by rw [Nat.and_comm]; exact h2
  split <;> split <;> simp [h1', h2']

theorem and_small (w k : Nat) (h : w < 0x2000) : w &&& (0x2000 <<< k) = 0 := by
  apply Nat.eq_of_testBit_eq
  intro i
  rw [Nat.testBit_and, Nat.zero_testBit, Nat.shiftLeft_eq, show 0x2000 * 2 ^ k = 2 ^ (13 + k) by
    rw [Nat.pow_add], Nat.testBit_two_pow]
  by_cases hi : 13 + k = i
  · subst hi
    rw [Nat.testBit_lt_two_pow (Nat.lt_of_lt_of_le h (by
      rw [show (0x2000 : Nat) = 2 ^ 13 by rfl]; exact Nat.pow_le_pow_right (by omega) (by omega)))]
    rfl
  · simp [hi]

theorem RusStem.stored_flexes (c : RusStem) (h : c.wdinfo < 0x2000) : (c.stored &&& 0x2000 ≠ 0) ↔ c.tfoffs ≠ 0 := by
  have := and_small c.wdinfo 0 h
  simp only [RusStem.stored, Nat.and_or_distrib_right]
  rw [show (0x2000 : Nat) <<< 0 = 0x2000 by rfl] at this
  rw [this]
  by_cases h1 : c.tfoffs ≠ 0 <;> by_cases h2 : c.mtoffs ≠ 0 <;> simp [h1, h2]

theorem RusStem.stored_mixtab (c : RusStem) (h : c.wdinfo < 0x2000) : (c.stored &&& 0x4000 ≠ 0) ↔ c.mtoffs ≠ 0 := by
  have := and_small c.wdinfo 1 h
  simp only [RusStem.stored, Nat.and_or_distrib_right]
  rw [show (0x2000 : Nat) <<< 1 = 0x4000 by rfl] at this
  rw [this]
  by_cases h1 : c.tfoffs ≠ 0 <;> by_cases h2 : c.mtoffs ≠ 0 <;> simp [h1, h2]

theorem RusStem.stored_lt (c : RusStem) (h : c.wdinfo < 0x2000) : c.stored < 2 ^ 16 := by
  simp only [RusStem.stored]
  refine Nat.or_lt_two_pow (Nat.or_lt_two_pow (by omega) ?_) ?_ <;> split <;> decide

theorem loadRus_ser (c : RusStem) (hw : c.wdinfo < 0x2000) (ht : c.tfoffs < 65536) (hm : c.mtoffs < 65536)
    (hp : c.wdinfo % 64 = 51 → c.tfoffs ≠ 0) (img : List Byte) (o : Nat) (rest : List Byte) (h : img.drop o = c.ser ++ rest) :
    loadRus img o = some ⟨c.stored, c.tfoffs, c.mtoffs⟩ := by
  simp only [loadRus, h, RusStem.ser, List.append_assoc, bind, Option.bind, getword16_putword16 (c.stored_lt hw)]
  have h51 : c.stored &&& 0x3f = c.wdinfo % 64 := by rw [c.stored_and 0x3f (by decide) (by decide), pos_eq]
  have hf := c.stored_flexes hw
  have hx := c.stored_mixtab hw
  by_cases h1 : c.tfoffs = 0
  · have hf' : ¬ (c.stored &&& 0x2000 ≠ 0 ∨ c.stored &&& 0x3f = 51) := by
      rw [hf, h51]
      rintro (h | h)
      · exact h h1
      · exact hp h h1
    rw [if_neg hf']
    simp only [h1, ne_eq, not_true_eq_false, if_false, List.nil_append]
    by_cases h2 : c.mtoffs = 0
    · have hx' : ¬ (c.stored &&& 0x4000 ≠ 0) := by rw [hx]; simp [h2]
      rw [if_neg hx']; simp [h2]
    · rw [if_pos (hx.2 h2)]
      simp only [h2, not_false_eq_true, if_true, getword16_putword16 (show c.mtoffs < 2 ^ 16 by omega)]
      rfl
  · have hf' : c.stored &&& 0x2000 ≠ 0 ∨ c.stored &&& 0x3f = 51 := Or.inl (hf.2 h1)
    rw [if_pos hf']
    simp only [h1, ne_eq, not_false_eq_true, if_true, getword16_putword16 (show c.tfoffs < 2 ^ 16 by omega)]
    by_cases h2 : c.mtoffs = 0
    · have hx' : ¬ (c.stored &&& 0x4000 ≠ 0) := by rw [hx]; simp [h2]
      rw [if_neg hx']; simp [h2]
    · rw [if_pos (hx.2 h2)]
      simp only [h2, not_false_eq_true, if_true, getword16_putword16 (show c.mtoffs < 2 ^ 16 by omega)]
      rfl

variable {A : List Byte} {D : RusDict} {st : RusState}

theorem rus_tab_zero (h : RusOk A D st) {a : RusArticle} (ha : a ∈ D.arts) : st.tabFor a = 0 ↔ a.tfoffs = 0 := by
  by_cases hi : a.Inflected
  · exact ⟨fun h0 => absurd h0 (rus_table_at h ha hi).1, fun h0 => absurd h0 hi.1⟩
  · have hm : ¬ a.Mapped := by rwa [mapped_iff h ha]
    simp [RusState.tabFor, hm]

theorem rus_load (h : RusOk A D st) {a : RusArticle} (ha : a ∈ D.arts) :
    loadRus (st.images D.mtab).classmap (st.entryFor D a).oclass = some (st.infoFor a) := by
  obtain ⟨_, rest, hr⟩ := rus_class_at h ha
  have ht : st.tabFor a < 65536 := by
    by_cases hi : a.Inflected
    · exact (rus_table_at h ha hi).2.1
    · have hm : ¬ a.Mapped := by rwa [mapped_iff h ha]
      rw [RusState.tabFor, if_neg hm]
      exact (h.refs a ha).1
  refine loadRus_ser (st.classFor a) (h.words a ha) ht (h.refs a ha).2 ?_ _ _ rest hr
  intro hp
  have := h.prepos a ha hp
  simp only [RusState.classFor]
  rw [ne_eq, rus_tab_zero h ha]
  exact this.2.1

/-- The parts of the loaded word. -/
theorem rus_info_and (st : RusState) (a : RusArticle) (m : Nat) (h1 : m &&& 0x2000 = 0) (h2 : m &&& 0x4000 = 0) :
    (st.infoFor a).wdinfo &&& m = a.wdinfo &&& m := (st.classFor a).stored_and m h1 h2

theorem rus_info_pos (st : RusState) (a : RusArticle) : (st.infoFor a).wdinfo &&& 0x3f = a.pos := by
  rw [rus_info_and st a 0x3f (by decide) (by decide), pos_eq]; rfl

theorem rus_info_minCap (st : RusState) (a : RusArticle) : (st.infoFor a).minCap = a.demand := by
  simp only [RusStem.minCap, rus_info_pos, pspMinCap, RusArticle.demand]

theorem rus_info_flex (h : RusOk A D st) {a : RusArticle} (ha : a ∈ D.arts) :
    (st.infoFor a).flexTable st.plain
      = if a.Inflected then some (st.plain.drop (st.tabFor a <<< 4)) else none := by
  simp only [RusStem.flexTable, rus_info_pos, RusArticle.Inflected]
  have : ((st.infoFor a).tfoffs ≠ 0) ↔ (a.tfoffs ≠ 0) := not_congr (rus_tab_zero h ha)
  simp only [this]
  rfl

theorem swapLevel_stored (st : RusState) (a : RusArticle) (gr fl : Nat) :
    Spec.altLevel (st.infoFor a).wdinfo gr fl = Spec.altLevel a.wdinfo gr fl := by
  rw [← swapLevel_eq, ← swapLevel_eq]
  have h1 := rus_info_and st a 0x3f (by decide) (by decide)
  simp only [swapLevel, h1]
  split <;> try rfl
  simp only [verbMixPower, rus_info_and st a 0x1800 (by decide) (by decide)]

theorem flexFilter_stored (st : RusState) (a : RusArticle) (g : FlexInfo) :
    flexFilter (st.infoFor a).wdinfo g = true ↔ (a.PluralOnly → g.gramm &&& 0x800 ≠ 0) := by
  simp only [flexFilter, rus_info_and st a wfMultiple (by decide) (by decide), RusArticle.PluralOnly, wfMultiple, gfMultiple]
  by_cases h : a.wdinfo &&& 0x40 ≠ 0 <;> simp [h]

/-- The stem information a collector receives. -/
def RusState.heardInfo (st : RusState) (a : RusArticle) : RusStem :=
  if a.Inflected then st.infoFor a else ⟨(st.infoFor a).wdinfo, 0, 0⟩

/-- `hs`: the readings of an article's part of a word (what stands between stem and suffix). -/
structure PartReadings (D : RusDict) (a : RusArticle) (part : List Byte) (hs : List RusReading) : Prop where
  good : ∀ r ∈ hs, r.art = a ∧ r.alt ++ r.ending = part ∧ (∀ g, g ∈ r.grams ↔ D.Reads a r.alt r.ending g) ∧
    r.grams.Nodup ∧ r.grams ≠ []
  once : (hs.map RusReading.alt).Nodup
  all : ∀ x e g, x ++ e = part → D.Reads a x e g → ∃ r ∈ hs, r.alt = x

theorem bytesLt_ne {a b : List Byte} (h : bytesLt a b = true) : a ≠ b := by
  rintro rfl
  induction a with
  | nil => simp [bytesLt] at h
  | cons x a ih => simp [bytesLt] at h; exact ih h

theorem rusMatch_article (h : RusOk A D st) {a : RusArticle} (ha : a ∈ D.arts) (part : List Byte) (hpart : part.length < 64) :
    ∃ hs : List RusReading, PartReadings D a part hs ∧
      ∀ (scheme dwsets : Nat) {σ ρ : Type} (target : RusTarget σ ρ) (junk suffix : List Byte) (id : Nat) (s : σ),
        rusMatch (st.images D.mtab) scheme dwsets target id (st.entryFor D a).oclass ⟨part ++ junk, part.length⟩ suffix s
          = if (decide (dwsets &&& 2 ≠ 0) || isGood scheme a.demand) = true then
              runList (fun r => target id (st.heardInfo a) ⟨part ++ junk, part.length⟩ suffix (r.grams.map rawGram)) hs s
            else some (none, s) := by
  have hcap : ∀ scheme dwsets : Nat, ((decide (dwsets &&& sfIgnoreCapitals = 0) && !isGood scheme (st.infoFor a).minCap) = true)
      ↔ ¬ ((decide (dwsets &&& 2 ≠ 0) || isGood scheme a.demand) = true) := by
    intro scheme dwsets
    rw [rus_info_minCap]
    simp only [sfIgnoreCapitals]
    by_cases h1 : dwsets &&& 2 = 0 <;> simp [h1]
  have hfx := rus_info_flex h ha
  by_cases hinf : a.Inflected
  · obtain ⟨B, hB⟩ := h.tables a ha hinf
    obtain ⟨ht0, ht1, img, rest, himg, hsz, hdrop⟩ := rus_table_at h ha hinf
    rw [if_pos hinf, hdrop] at hfx
    have hreads : ∀ x e g, D.Reads a x e g ↔ D.Inflects a x e g := by
      intro x e g; simp only [RusDict.Reads, if_pos hinf]
    by_cases hmt : a.mtoffs = 0
    · -- no alternation
      obtain ⟨gs, g3, g1, g2⟩ := C29_lookup_exact D.ftab B a.tfoffs hB img himg (by omega) (flexFilter (st.infoFor a).wdinfo) part hpart
      have hswap : (st.infoFor a).swapTable (st.images D.mtab).mxTables = none := by
        simp [RusStem.swapTable, RusState.infoFor, hmt]
      have hmem : ∀ g, g ∈ gs ↔ D.Reads a [] part g := by
        intro g
        rw [g2, hreads, RusDict.Inflects, if_pos hmt, flexFilter_stored]
        simp
      refine ⟨if gs = [] then [] else [⟨a, [], part, gs⟩], ⟨?_, ?_, ?_⟩, ?_⟩
      · intro r hr
        split at hr
        · simp at hr
        · rename_i hne
          simp only [List.mem_singleton] at hr
          subst hr
          exact ⟨rfl, rfl, hmem, g1, hne⟩
      · split <;> simp
      · intro x e g hxe hg
        rw [hreads] at hg
        have hx : x = [] := by simpa [RusDict.Inflects, hmt] using hg.2.2
        subst hx
        simp only [List.nil_append] at hxe
        subst hxe
        have : g ∈ gs := by rw [hmem, hreads]; exact hg
        rw [if_neg (List.ne_nil_of_mem this)]
        exact ⟨_, List.mem_singleton_self _, rfl⟩
      · intro scheme dwsets σ ρ target junk suffix id s
        simp only [rusMatch, rus_load h ha, bind, Option.bind]
        by_cases hc : (decide (dwsets &&& 2 ≠ 0) || isGood scheme a.demand) = true
        · rw [if_neg (by rw [hcap]; exact not_not.2 hc), if_pos hc]
          rw [show (st.images D.mtab).flexTree = st.plain from rfl, hfx]
          simp only [hswap, g3, bind, Option.bind]
          by_cases hgs : gs = []
          · simp [hgs, runList]
          · rw [if_pos (by simpa using hgs), if_neg hgs]
            simp only [runList, RusState.heardInfo, if_pos hinf]
            cases target id (st.infoFor a) ⟨part ++ junk, part.length⟩ suffix (gs.map rawGram) s with
            | none => rfl
            | some q => obtain ⟨r, s'⟩ := q; cases r <;> rfl
        · rw [if_pos ((hcap _ _).2 hc), if_neg hc]; rfl
    · -- alternation
      obtain ⟨m1, m2, mrest, m3⟩ := h.mixes a ha hmt
      obtain ⟨alts, al1, al2, al3, al4⟩ := C28_alternants_exact (D.alts a.mtoffs) m1 part
      have hlook : ∀ p : List Byte × Nat, ∃ gs : List FlexInfo,
          (∀ junk tl, scanFlex (altFilter (st.infoFor a).wdinfo p.2) (img ++ tl)
            ⟨part.drop p.1.length ++ junk, (part.drop p.1.length).length⟩ = some gs) ∧ gs.Nodup ∧
          ∀ g : FlexInfo, g ∈ gs ↔ Spec.Ending D.ftab a.tfoffs (part.drop p.1.length) g.gramm g.flags ∧
            altFilter (st.infoFor a).wdinfo p.2 g = true := fun p =>
        C29_lookup_exact D.ftab B a.tfoffs hB img himg (by omega) _ _ (by rw [List.length_drop]; omega)
      choose gsf gs1 gs2 gs3 using hlook
      have hswap : (st.infoFor a).swapTable (st.images D.mtab).mxTables = some (mixSer (Spec.mixOf (D.alts a.mtoffs)) ++ mrest) := by
        have hmt' : (st.infoFor a).mtoffs ≠ 0 := hmt
        rw [RusStem.swapTable, if_pos hmt', ← m3]; rfl
      have hmem : ∀ p ∈ alts, ∀ g, g ∈ gsf p ↔ D.Reads a p.1 (part.drop p.1.length) g := by
        intro p hp g
        rw [gs3, hreads, RusDict.Inflects, if_neg hmt,
          C28_filter (D.alts a.mtoffs) p.1 p.2 (st.infoFor a).wdinfo g (al4 p hp), swapLevel_stored,
          rus_info_and st a wfMultiple (by decide) (by decide)]
        simp only [RusArticle.PluralOnly, wfMultiple, gfMultiple]
        exact ⟨fun ⟨x, y, z⟩ => ⟨x, z, y⟩, fun ⟨x, z, y⟩ => ⟨x, y, z⟩⟩
      have hpre : ∀ p ∈ alts, p.1 ++ part.drop p.1.length = part := by
        intro p hp
        obtain ⟨t, ht⟩ := ((al3 p.1).1 (List.mem_map_of_mem hp)).2
        rw [← ht, List.drop_left]
      set pick : List Byte × Nat → Option RusReading := fun p =>
        if gsf p = [] then none else some ⟨a, p.1, part.drop p.1.length, gsf p⟩ with hpick
      have hpickm : ∀ r, r ∈ alts.filterMap pick ↔ ∃ p ∈ alts, gsf p ≠ [] ∧ r = ⟨a, p.1, part.drop p.1.length, gsf p⟩ := by
        intro r
        rw [List.mem_filterMap]
        constructor
        · rintro ⟨p, hp, hpk⟩
          simp only [hpick] at hpk
          split at hpk
          · simp at hpk
          · rename_i hne
            exact ⟨p, hp, hne, by simpa using hpk.symm⟩
        · rintro ⟨p, hp, hne, rfl⟩
          exact ⟨p, hp, by simp [hpick, hne]⟩
      refine ⟨alts.filterMap pick, ⟨?_, ?_, ?_⟩, ?_⟩
      · intro r hr
        obtain ⟨p, hp, hne, rfl⟩ := (hpickm r).1 hr
        exact ⟨rfl, hpre p hp, hmem p hp, gs2 p, hne⟩
      · rw [List.Nodup, List.pairwise_map]
        rw [List.pairwise_filterMap]
        refine al2.imp ?_
        intro p q hpq x hx y hy
        simp only [hpick, Option.ite_none_left_eq_some, Option.some.injEq] at hx hy
        rw [← hx.2, ← hy.2]
        exact bytesLt_ne hpq
      · intro x e g hxe hg
        have hg' := (hreads x e g).1 hg
        simp only [RusDict.Inflects, if_neg hmt] at hg'
        have hx : ∃ k, (x, k) ∈ D.alts a.mtoffs := by
          rcases hg'.2.2 with h1 | h1
          · exact ⟨_, h1⟩
          · exact ⟨_, h1.1⟩
        have := (al3 x).2 ⟨hx, ⟨e, hxe⟩⟩
        obtain ⟨p, hp, rfl⟩ := List.mem_map.1 this
        have he : part.drop p.1.length = e := by rw [← hxe, List.drop_left]
        have hgm : g ∈ gsf p := by rw [hmem p hp, he]; exact hg
        exact ⟨_, (hpickm _).2 ⟨p, hp, List.ne_nil_of_mem hgm, rfl⟩, rfl⟩
      · intro scheme dwsets σ ρ target junk suffix id s
        simp only [rusMatch, rus_load h ha, bind, Option.bind]
        by_cases hc : (decide (dwsets &&& 2 ≠ 0) || isGood scheme a.demand) = true
        · rw [if_neg (by rw [hcap]; exact not_not.2 hc), if_pos hc]
          rw [show (st.images D.mtab).flexTree = st.plain from rfl, hfx]
          simp only [hswap]
          rw [al1, runHits_runList, runList_map]
          refine runList_filterMap _ _ _ ?_
          intro p hp s
          simp only [gs1, hpick]
          by_cases hgs : gsf p = []
          · simp [hgs]
          · rw [if_pos (by simpa using hgs), if_neg hgs]
            simp only [RusState.heardInfo, if_pos hinf]
        · rw [if_pos ((hcap _ _).2 hc), if_neg hc]; rfl
  · rw [if_neg hinf] at hfx
    have hreads : ∀ x e g, D.Reads a x e g ↔ x = [] ∧ e = [] ∧ g = ⟨a.tfoffs, 0⟩ := by
      intro x e g; simp only [RusDict.Reads, if_neg hinf]
    have htf : (st.infoFor a).tfoffs = a.tfoffs := by
      have hm : ¬ a.Mapped := by rwa [mapped_iff h ha]
      simp only [RusState.infoFor, RusState.tabFor, if_neg hm]
    refine ⟨if part = [] then [⟨a, [], [], [⟨a.tfoffs, 0⟩]⟩] else [], ⟨?_, ?_, ?_⟩, ?_⟩
    · intro r hr
      split at hr
      · rename_i hp
        simp only [List.mem_singleton] at hr
        subst hr
        refine ⟨rfl, by simp [hp], fun g => ?_, by simp, by simp⟩
        rw [hreads]; simp
      · simp at hr
    · split <;> simp
    · intro x e g hxe hg
      rw [hreads] at hg
      obtain ⟨rfl, rfl, rfl⟩ := hg
      rw [if_pos (by simpa using hxe.symm)]
      exact ⟨_, List.mem_singleton_self _, rfl⟩
    · intro scheme dwsets σ ρ target junk suffix id s
      simp only [rusMatch, rus_load h ha, bind, Option.bind]
      by_cases hc : (decide (dwsets &&& 2 ≠ 0) || isGood scheme a.demand) = true
      · rw [if_neg (by rw [hcap]; exact not_not.2 hc), if_pos hc]
        rw [show (st.images D.mtab).flexTree = st.plain from rfl, hfx]
        simp only
        by_cases hp : part = []
        · subst hp
          simp only [List.length_nil, if_true, runList, RusState.heardInfo, if_neg hinf, htf, List.map_cons, List.map_nil, rawGram]
          cases target id ⟨(st.infoFor a).wdinfo, 0, 0⟩ ⟨[] ++ junk, 0⟩ suffix [⟨0, 0, a.tfoffs, 0⟩] s with
          | none => rfl
          | some q => obtain ⟨r, s'⟩ := q; cases r <;> rfl
        · rw [if_neg (by simpa using hp), if_neg hp]; rfl
      · rw [if_pos ((hcap _ _).2 hc), if_neg hc]; rfl

end Libmorph
