import Verif.Lemmas.Pipeline
import Verif.Props.C45
/-
Articles of the source and articles with references: forms and limits, for C68.
-/
namespace Libmorph
open Spec

theorem ending_iff {Z : RusSrc} {T : RusTabs} (hz : TablesFit Z) (hc : Compiled Z T) {name : List Byte} {r : Nat} (h : mapFind T.findex name = some r)
    (e : List Byte) (g fl : Nat) : Ending T.ftab r e g fl ↔ SrcEnding Z.flex name e g fl :=
  C56_endings hc.flex (tablesFit_ok hz) ((idx_fun hc.flex _ _).2 h) e g fl

/-- An inflected article has the readings the source gives it. -/
theorem reads_iff {Z : RusSrc} {T : RusTabs} (hz : TablesFit Z) (hc : Compiled Z T) {A : SrcArticle} {a : RusArticle} (h : Realizes Z T A a)
    {name : List Byte} (h1 : A.table = some name) (h2 : mapFind T.findex name = some a.tfoffs) (h3 : a.Inflected) (mtab : List Byte) (all : List RusArticle)
    (x e : List Byte) (g : FlexInfo) : ((pipeSource Z T).dict mtab all).Reads a x e g ↔ SrcInflects Z.flex A name x e g.gramm g.flags := by
  rw [RusDict.Reads, if_pos h3, RusDict.Inflects, SrcInflects]
  have e1 : Ending ((pipeSource Z T).dict mtab all).ftab a.tfoffs e g.gramm g.flags ↔ SrcEnding Z.flex name e g.gramm g.flags :=
    ending_iff hz hc h2 e g.gramm g.flags
  rw [e1, RusArticle.PluralOnly, h.info]
  refine and_congr_right fun _ => and_congr_right fun _ => ?_
  rcases h.alt with ⟨a1, a2⟩ | ⟨l, a1, a2, a3, a4, a5⟩
  · rw [if_pos a2, a1]; simp
  · rw [if_neg a3, a2]
    have : Serves (((pipeSource Z T).dict mtab all).alts a.mtoffs) x (altLevel A.info g.gramm g.flags - 1) ↔
        StepServes l.steps x (altLevel A.info g.gramm g.flags - 1) := pipeAlts_serves hz a1 a5 x _
    rw [this]
    simp

/-- An article has the forms the source gives it. -/
theorem hasForm_iff {Z : RusSrc} {T : RusTabs} (hz : TablesFit Z) (hc : Compiled Z T) {A : SrcArticle} {a : RusArticle} (h : Realizes Z T A a)
    (mtab : List Byte) (all : List RusArticle) (w : List Byte) : ((pipeSource Z T).dict mtab all).HasForm a w ↔ SrcHasForm Z.flex A w := by
  rcases h.table with ⟨h1, h2, h3, h4⟩ | ⟨name, h1, h2, h3, h4⟩
  · constructor
    · rintro ⟨x, e, g, hr, rfl⟩
      rw [RusDict.Reads, if_neg h3] at hr
      obtain ⟨rfl, rfl, _⟩ := hr
      exact Or.inl ⟨h1, by rw [h.stem, h.post]; simp⟩
    · rintro (⟨_, rfl⟩ | ⟨name, x, e, g, fl, k1, _⟩)
      · refine ⟨[], [], ⟨a.tfoffs, 0⟩, ?_, by rw [h.stem, h.post]; simp⟩
        rw [RusDict.Reads, if_neg h3]
        exact ⟨rfl, rfl, rfl⟩
      · rw [h1] at k1; simp at k1
  · have key : ∀ x e g, ((pipeSource Z T).dict mtab all).Reads a x e g ↔ SrcInflects Z.flex A name x e g.gramm g.flags := by
      exact reads_iff hz hc h h1 h2 h3 mtab all
    constructor
    · rintro ⟨x, e, g, hr, rfl⟩
      exact Or.inr ⟨name, x, e, g.gramm, g.flags, h1, (key x e g).1 hr, by rw [h.stem, h.post]⟩
    · rintro (⟨k1, _⟩ | ⟨name', x, e, g, fl, k1, k2, rfl⟩)
      · rw [h1] at k1; simp at k1
      · rw [h1] at k1; cases k1
        exact ⟨x, e, ⟨g, fl⟩, (key x e ⟨g, fl⟩).2 k2, by rw [h.stem, h.post]⟩

theorem Realizes.demand {Z : RusSrc} {T : RusTabs} {A : SrcArticle} {a : RusArticle} (h : Realizes Z T A a) : a.demand = A.demand := by
  rw [RusArticle.demand, SrcArticle.demand, RusArticle.pos, SrcArticle.pos, h.info]

/-- The letters of a compact table are those of its lines. -/
theorem counted_of {Z : RusSrc} {T : RusTabs} (hz : TablesFit Z) (hc : Compiled Z T) {name : List Byte} {c : Nat} (h : SrcCounted Z.flex name c) :
    ∀ {r : Nat}, mapFind T.findex name = some r → Counted T.ftab r c := by
  induction h with
  | letter hd hl ht =>
    intro r hr
    obtain ⟨lines', t, k⟩ := tableAt hc.flex (tablesFit_ok hz) ((idx_fun hc.flex _ _).2 hr)
    cases defined_unique hd k.defined
    obtain ⟨p, hp, rfl⟩ := (k.mem_lines _).1 hl
    exact .letter ((k.inTable _).2 ⟨p, hp, rfl⟩) ht
  | blank hd hl ht hf =>
    intro r hr
    obtain ⟨lines', t, k⟩ := tableAt hc.flex (tablesFit_ok hz) ((idx_fun hc.flex _ _).2 hr)
    cases defined_unique hd k.defined
    obtain ⟨p, hp, rfl⟩ := (k.mem_lines _).1 hl
    exact .blank ((k.inTable _).2 ⟨p, hp, rfl⟩) ht hf
  | onward hd hl ht hf _ ih =>
    intro r hr
    obtain ⟨lines', t, k⟩ := tableAt hc.flex (tablesFit_ok hz) ((idx_fun hc.flex _ _).2 hr)
    cases defined_unique hd k.defined
    obtain ⟨p, hp, rfl⟩ := (k.mem_lines _).1 hl
    have hcont : Continues p.1 := continues_must hf
    obtain ⟨k1, k2, k3⟩ := (k.onward p hp).1 hcont
    refine .onward ((k.inTable _).2 ⟨p, hp, rfl⟩) ht hf ?_
    rw [k2]
    exact ih ((idx_fun hc.flex _ _).1 k3)

theorem few_of {Z : RusSrc} {T : RusTabs} (hz : TablesFit Z) (hc : Compiled Z T) {name : List Byte} {r : Nat} (h : mapFind T.findex name = some r) :
    ∀ u, Onward T.ftab r u → ∀ n p, getbyte (T.ftab.drop (u <<< 1)) = some (n, p) → n < 128 := by
  have reach : ∀ u, Onward T.ftab r u → ∃ name, (name, u) ∈ T.findex := by
    intro u hu
    induction hu with
    | here => exact ⟨name, (idx_fun hc.flex _ _).2 h⟩
    | next _ hin he hm ih =>
      obtain ⟨nm, hn⟩ := ih
      obtain ⟨lines, t, ht⟩ := tableAt hc.flex (tablesFit_ok hz) hn
      obtain ⟨p, hp, rfl, hl⟩ := ht.inTable_of hin
      obtain ⟨k1, k2, k3⟩ := (ht.onward p hp).1 (continues_must hm)
      exact ⟨p.1.next, by rw [k2]; exact k3⟩
  intro u hu n p hnp
  obtain ⟨nm, hn⟩ := reach u hu
  obtain ⟨lines, t, ht⟩ := tableAt hc.flex (tablesFit_ok hz) hn
  obtain ⟨q, hq⟩ := ht.count
  rw [hq] at hnp
  cases hnp
  exact ht.small hz

theorem pipeAlts_mem {Z : RusSrc} (hz : TablesFit Z) {mtab : List Byte} {o : Nat} {l : IchLine} (hl : l ∈ Z.mix) (hs : StandsAt mtab o l)
    {p : List Byte × Nat} (hp : p ∈ pipeAlts Z mtab o) : p.1 ∈ l.steps := by
  obtain ⟨l', hl', hs', e⟩ := pipeAlts_spec hl hs
  rw [e] at hp
  obtain ⟨x, k⟩ := p
  rw [List.mem_zipIdx_iff_getElem?] at hp
  exact stands_mem hz hl' hl hs' hs x (List.mem_of_getElem? hp)

theorem mem_pipeAlts {Z : RusSrc} (hz : TablesFit Z) {mtab : List Byte} {o : Nat} {l : IchLine} (hl : l ∈ Z.mix) (hs : StandsAt mtab o l)
    {x : List Byte} (hx : x ∈ l.steps) : ∃ p ∈ pipeAlts Z mtab o, p.1 = x := by
  obtain ⟨l', hl', hs', e⟩ := pipeAlts_spec hl hs
  have := stands_mem hz hl hl' hs hs' x hx
  rw [← List.zipIdx_map_fst 0 l'.steps, ← e] at this
  obtain ⟨p, hp, e⟩ := List.mem_map.1 this
  exact ⟨p, hp, e⟩

/-- The first letter of an ending counts, unless lines without letters are endings and go on, both. -/
theorem ending_counted {src : List (List Byte × List FxItem)}
    (hne : ∀ p ∈ src, ∀ l ∈ p.2, l.tail = [] → l.flags &&& 0x80 = 0 → ¬ Continues l) {name e : List Byte} {g fl : Nat}
    (h : SrcEnding src name e g fl) : ∀ b, e.head? = some b → SrcCounted src name b := by
  induction h with
  | @here name lines l hd hl hf =>
    intro b hb
    cases ht : l.tail with
    | nil => rw [ht] at hb; cases hb
    | cons c s =>
      rw [ht] at hb; cases hb
      exact .letter hd hl ht
  | @next name lines l w g fl hd hl hc _ ih =>
    intro b hb
    cases ht : l.tail with
    | nil =>
      rw [ht, List.nil_append] at hb
      have hd' := hd
      obtain ⟨pre, header, post, rfl, _, _⟩ := hd'
      by_cases hf : l.flags &&& 0x80 = 0
      · exact absurd hc (hne (header, lines) (by simp) l hl ht hf)
      · exact .onward hd hl ht hf (ih b hb)
    | cons c s =>
      rw [ht] at hb; cases hb
      exact .letter hd hl ht

/-- The bounds are right for tables whose lines without letters are endings or go on, not both, and alternations of which all alternants are empty
or none is. -/
theorem covers_of_sane {src : List (List Byte × List FxItem)}
    (hne : ∀ p ∈ src, ∀ l ∈ p.2, l.tail = [] → l.flags &&& 0x80 = 0 → ¬ Continues l) {A : SrcArticle}
    (halt : ∀ l, A.alt = some l → (∀ s ∈ l.steps, s = []) ∨ ∀ s ∈ l.steps, s ≠ []) {name x e : List Byte} {g fl : Nat}
    (h : SrcInflects src A name x e g fl) (b : Byte) (hb : (x ++ e).head? = some b) :
    (∃ c, SrcLow src name A.alt c ∧ c ≤ b) ∧ ∃ c, SrcHigh src name A.alt c ∧ b ≤ c := by
  obtain ⟨he, -, ⟨h1, rfl⟩ | ⟨l, h1, hx⟩⟩ := h
  · have := ending_counted hne he b hb
    rw [h1]
    exact ⟨⟨b, Or.inr ⟨fun l hl => (by cases hl), this⟩, Nat.le_refl _⟩, b, Or.inr ⟨fun l hl => (by cases hl), this⟩, Nat.le_refl _⟩
  · have hx : x ∈ l.steps := by
      rcases hx with h | ⟨_, _, h⟩
      · exact List.mem_of_getElem? h
      · exact List.mem_of_mem_head? h
    rw [h1]
    rcases halt l h1 with k | k
    · have hx0 := k x hx
      subst hx0
      have := ending_counted hne he b hb
      refine ⟨⟨b, Or.inr ⟨fun l' hl => ?_, this⟩, Nat.le_refl _⟩, b, Or.inr ⟨fun l' hl => ?_, this⟩, Nat.le_refl _⟩
      · cases hl; exact hx
      · cases hl; exact k
    · cases x with
      | nil => exact absurd rfl (k _ hx)
      | cons c s =>
        cases hb
        exact ⟨⟨b, Or.inl ⟨l, rfl, fun h => k _ h rfl, _, hx, rfl⟩, Nat.le_refl _⟩, b, Or.inl ⟨l, rfl, _, hx, rfl⟩, Nat.le_refl _⟩

/-- The limits of the images. -/
structure SizesOk (st : RusState) (mtab : List Byte) (n : Nat) : Prop where
  count : n < 2 ^ 32
  classes : st.classes.length ≤ 0x8000
  plain : st.plain.length < 2 ^ 20
  size : (st.images mtab).stemtree.length < 2 ^ 32

theorem rusOk_of {Z : RusSrc} {T : RusTabs} (hz : TablesFit Z) (hc : Compiled Z T) {alphabet : List Byte} (hl : alphabet.length < 128)
    (hb : ∀ b ∈ alphabet, 0 < b ∧ b < 256) {all : List RusArticle} (hall : ∀ a ∈ all, ∃ A, Realizes Z T A a ∧ ArticleFits alphabet Z A)
    {st : RusState} (hbuild : rusBuild T.ftab T.mtab all = some st) (hs : SizesOk st T.mtab all.length) :
    RusOk alphabet ((pipeSource Z T).dict T.mtab all) st := by
  have mixes : ∀ a ∈ all, a.mtoffs ≠ 0 → MixOk (pipeAlts Z T.mtab a.mtoffs) ∧ (∀ p ∈ pipeAlts Z T.mtab a.mtoffs, ∀ b ∈ p.1, 0 < b ∧ b < 256) ∧
      ∃ rest, T.mtab.drop a.mtoffs = mixSer (mixOf (pipeAlts Z T.mtab a.mtoffs)) ++ rest := by
    intro a ha h0
    obtain ⟨A, hr, hf⟩ := hall a ha
    rcases hr.alt with ⟨_, a2⟩ | ⟨l, a1, a2, a3, a4, a5⟩
    · exact absurd a2 h0
    · have k := altFit_of hz hc a1 a5
      exact ⟨k.ok, fun p hp => ((hz.steps l a1).2.2 p.1 (pipeAlts_mem hz a1 a5 hp)).2, k.at_⟩
  have pos_of : ∀ a A, Realizes Z T A a → a.pos = A.pos := fun a A hr => by rw [RusArticle.pos, SrcArticle.pos, hr.info]
  refine { built := hbuild, alpha := hl, letters := hb, stems := ?_, short := ?_, ids := ?_, posts := ?_, text := ?_, words := ?_, prepos := ?_, plainw := ?_,
           refs := ?_, tables := ?_, long := ?_, mixes := mixes, covers := ?_, count := hs.count, classes := hs.classes, plain := hs.plain, size := hs.size }
  · intro a ha
    obtain ⟨A, hr, hf⟩ := hall a ha
    rw [hr.stem]; exact hf.stem
  · intro a ha
    obtain ⟨A, hr, hf⟩ := hall a ha
    rw [hr.stem]; exact hf.short
  · intro a ha
    obtain ⟨A, hr, hf⟩ := hall a ha
    rw [hr.id]; exact hf.id
  · intro a ha
    obtain ⟨A, hr, hf⟩ := hall a ha
    rw [hr.post]; exact hf.post.1
  · intro a ha
    obtain ⟨A, hr, hf⟩ := hall a ha
    rw [hr.post]; exact hf.post.2
  · intro a ha
    obtain ⟨A, hr, hf⟩ := hall a ha
    exact hr.small.1
  · intro a ha hp
    obtain ⟨A, hr, hf⟩ := hall a ha
    obtain ⟨k1, k2⟩ := hf.prepos (by rw [← pos_of a A hr]; exact hp)
    rcases hr.table with ⟨h1, h2, h3, h4⟩ | ⟨name, h1, h2, h3, h4⟩
    · refine ⟨by rw [hr.info]; exact k1, by rw [h2]; exact k2, ?_⟩
      rcases hr.alt with ⟨_, a2⟩ | ⟨l, _, a2, _⟩
      · exact a2
      · rw [h4] at a2; simp at a2
    · omega
  · intro a ha h0
    obtain ⟨A, hr, hf⟩ := hall a ha
    rcases hr.table with ⟨h1, h2, h3, h4⟩ | ⟨name, h1, h2, h3, h4⟩
    · rcases hr.alt with ⟨_, a2⟩ | ⟨l, _, a2, _⟩
      · exact a2
      · rw [h4] at a2; simp at a2
    · exact absurd h0 h3.1
  · intro a ha
    obtain ⟨A, hr, hf⟩ := hall a ha
    refine ⟨hr.small.2, ?_⟩
    rcases hr.alt with ⟨_, a2⟩ | ⟨l, _, _, _, a4, _⟩
    · omega
    · exact a4
  · intro a ha hi
    obtain ⟨A, hr, hf⟩ := hall a ha
    rcases hr.table with ⟨h1, h2, h3, h4⟩ | ⟨name, h1, h2, h3, h4⟩
    · exact absurd hi h3
    · obtain ⟨B, b1, b2⟩ := hf.letters name h1
      refine ⟨B.filter fun b => decide (0 < b ∧ b < 256), image_bytes hz hc, Nat.lt_of_le_of_lt (List.length_filter_le _ _) b1, ?_, ?_, ?_⟩
      · intro b hb
        simpa using (List.mem_filter.1 hb).2
      · intro w g fl he b hb
        have he' := (ending_iff hz hc h2 w g fl).1 he
        exact List.mem_filter.2 ⟨b2 w g fl he' b hb, by simpa using srcEnding_letters hz he' b hb⟩
      · intro w l hn hd
        exact hf.few name h1 w l hn fun d hd' => (ending_iff hz hc h2 _ _ _).1 (hd d hd')
  · intro a ha hi e g fl he
    obtain ⟨A, hr, hf⟩ := hall a ha
    rcases hr.table with ⟨h1, h2, h3, h4⟩ | ⟨name, h1, h2, h3, h4⟩
    · exact absurd hi h3
    · exact hf.endings name h1 e g fl ((ending_iff hz hc h2 e g fl).1 he)
  · intro a ha
    obtain ⟨A, hr, hf⟩ := hall a ha
    rcases hr.table with ⟨h1, h2, h3, h4⟩ | ⟨name, h1, h2, h3, h4⟩
    · intro lo hi _ x e g hread b hb'
      rw [RusDict.Reads, if_neg h3] at hread
      obtain ⟨rfl, rfl, _⟩ := hread
      simp at hb'
    · refine covered_of _ a h3 h4 (few_of hz hc h2) (fun h0 => ?_) ?_
      · obtain ⟨m1, m2, m3⟩ := mixes a ha h0
        exact ⟨m1, m2, m3⟩
      · intro x e g hread b hb'
        obtain ⟨⟨c, c1, c2⟩, c', c3, c4⟩ := hf.covers name h1 x e g.gramm g.flags ((reads_iff hz hc hr h1 h2 h3 T.mtab all x e g).1 hread) b hb'
        refine ⟨⟨c, ?_, c2⟩, c', ?_, c4⟩
        · rcases hr.alt with ⟨a1, a2⟩ | ⟨l, a1, a2, a3, a4, a5⟩
          · rcases c1 with ⟨l, k, _⟩ | ⟨_, k⟩
            · rw [a1] at k; cases k
            · exact Or.inr ⟨Or.inl a2, counted_of hz hc k h2⟩
          · rcases c1 with ⟨l', k, k1, s, k2, k3⟩ | ⟨k, k1⟩
            · rw [a2] at k; cases k
              refine Or.inl ⟨a3, fun p hp e0 => k1 ?_, ?_⟩
              · rw [← e0]; exact pipeAlts_mem hz a1 a5 hp
              · obtain ⟨p, hp, rfl⟩ := mem_pipeAlts hz a1 a5 k2
                exact ⟨p, hp, k3⟩
            · obtain ⟨p, hp, e0⟩ := mem_pipeAlts hz a1 a5 (k l a2)
              exact Or.inr ⟨Or.inr ⟨p, hp, e0⟩, counted_of hz hc k1 h2⟩
        · rcases hr.alt with ⟨a1, a2⟩ | ⟨l, a1, a2, a3, a4, a5⟩
          · rcases c3 with ⟨l, k, _⟩ | ⟨_, k⟩
            · rw [a1] at k; cases k
            · exact Or.inr ⟨Or.inl a2, counted_of hz hc k h2⟩
          · rcases c3 with ⟨l', k, s, k2, k3⟩ | ⟨k, k1⟩
            · rw [a2] at k; cases k
              obtain ⟨p, hp, rfl⟩ := mem_pipeAlts hz a1 a5 k2
              exact Or.inl ⟨a3, p, hp, k3⟩
            · exact Or.inr ⟨Or.inr fun p hp => k l a2 _ (pipeAlts_mem hz a1 a5 hp), counted_of hz hc k1 h2⟩

end Libmorph
