import Verif.Lemmas.PipelineForms
import Verif.Props.C58
import Verif.Props.C59
import Verif.Lemmas.Wide
/-
C68: from the texts of the tables and of the dictionary to CheckWord.  C69: to Lemmatize.
-/
namespace Libmorph
open Spec

/-- The tables are compiled from what their texts say. -/
theorem compiled_of {conv : List Byte → List Byte} {fs : List Byte → Option (List Byte)} (hr : Readable conv fs) {d d' : Nat} {path path' : List Byte}
    {T : RusTabs} (h1 : tfcMain conv fs d path = some (T.ftab, T.findex)) (h2 : ichMain conv fs d' path' = some (T.mtab, T.mindex)) {Z : RusSrc}
    (z1 : TfcSource conv fs path Z.flex) (z2 : IchSource conv fs path' Z.mix) : Compiled Z T := by
  constructor
  · rw [tfcMain, Option.bind_eq_some_iff] at h1
    obtain ⟨src, h3, h4⟩ := h1
    cases C58_unique hr z1 (tfcRead_says hr h3)
    exact h4
  · rw [ichMain_eq, Option.bind_eq_some_iff] at h2
    obtain ⟨src, h3, h4⟩ := h2
    cases C59_unique hr z2 ((C59_source hr path' src).1 ⟨d', h3⟩)
    exact h4

theorem says_few {S : RusSource} {number : List Byte → Nat} {line : List Byte} {arts : List RusArticle} {unk : List (List Byte)}
    (h : RusLineSays S number line arts unk) : arts.length ≤ 2 := by
  obtain ⟨s, _, h⟩ := h
  rcases h with ⟨_, rfl, _⟩ | ⟨_, _, rfl, _⟩ | ⟨_, t, l, _, _, hl, h⟩
  · simp
  · simp
  · have : l.length ≤ 2 := by
      obtain ⟨norm, dies, type, ind, comm, _, hl⟩ := hl
      rcases hl with ⟨a, rfl, _⟩ | ⟨_, ⟨rfl, _⟩ | ⟨x, y, l1, l2, _, rfl, k1, k2⟩⟩
      · simp
      · simp
      · have e1 : l1.length ≤ 1 := by rcases k1 with ⟨rfl, _⟩ | ⟨a, rfl, _⟩ <;> simp
        have e2 : l2.length ≤ 1 := by rcases k2 with ⟨rfl, _⟩ | ⟨a, rfl, _⟩ <;> simp
        rw [List.length_append]; omega
    rcases h with ⟨_, rfl, _⟩ | ⟨_, rfl, _⟩
    · simp
    · simpa using this

theorem says_count {S : RusSource} {number : List Byte → Nat} {lines : List (List Byte)} {os : List (List RusArticle × List (List Byte))}
    (h : List.Forall₂ (fun l o => RusLineSays S number l o.1 o.2) lines os) : ((os.map (·.1)).flatten).length ≤ 2 * lines.length := by
  induction h with
  | nil => simp
  | cons h1 _ ih =>
    have := says_few h1
    simp only [List.map_cons, List.flatten_cons, List.length_append, List.length_cons]
    omega

/-- The sources and the images: the texts of the tables say `Z` and were compiled to `T`; the files of the dictionary were compiled, with
these tables, to `st`; all within the limits of the format. -/
structure Pipeline (conv : List Byte → List Byte) (fs : List Byte → Option (List Byte)) (endings alternations : List Byte) (Z : RusSrc) (T : RusTabs)
    (files : List (List (List Byte))) (st : RusState) (unk : List (List Byte)) : Prop where
  readable : Readable conv fs
  flex : ∃ depth, tfcMain conv fs depth endings = some (T.ftab, T.findex)
  mix : ∃ depth, ichMain conv fs depth alternations = some (T.mtab, T.mindex)
  flexText : TfcSource conv fs endings Z.flex
  mixText : IchSource conv fs alternations Z.mix
  fits : TablesFit Z
  lines : ∀ lines ∈ files, ∀ l ∈ lines, 10 ∉ l ∧ 0 ∉ l ∧ l.length < 1022 ∧ LineFits l
  compiled : rusCompile T id (files.map fileOf) = some (st, unk)
  articles : ∃ alphabet : List Byte, alphabet.length < 128 ∧ (∀ b ∈ alphabet, 0 < b ∧ b < 256) ∧
    ∀ line ∈ files.flatten, ∀ arts unk, SrcLineSays Z lidNumber line arts unk → ∀ A ∈ arts, ArticleFits alphabet Z A
  count : files.flatten.length < 2 ^ 31
  classes : st.classes.length ≤ 0x8000
  plain : st.plain.length < 2 ^ 20
  size : (st.images T.mtab).stemtree.length < 2 ^ 32

section
variable {conv : List Byte → List Byte} {fs : List Byte → Option (List Byte)} {endings alternations : List Byte} {Z : RusSrc} {T : RusTabs}
  {files : List (List (List Byte))} {st : RusState} {unk : List (List Byte)}

theorem Pipeline.tables (h : Pipeline conv fs endings alternations Z T files st unk) : Compiled Z T := by
  obtain ⟨d, h1⟩ := h.flex
  obtain ⟨d', h2⟩ := h.mix
  exact compiled_of h.readable h1 h2 h.flexText h.mixText

/-- The pipeline in terms of references. -/
theorem Pipeline.images (h : Pipeline conv fs endings alternations Z T files st unk) :
    ∃ alphabet os, List.Forall₂ (fun l (o : List RusArticle × List (List Byte)) => RusLineSays (pipeSource Z T) lidNumber l o.1 o.2) files.flatten os ∧
      unk = (os.map (·.2)).flatten ∧ RusOk alphabet ((pipeSource Z T).dict T.mtab (os.map (·.1)).flatten) st := by
  have hc := h.tables
  obtain ⟨alphabet, a1, a2, a3⟩ := h.articles
  obtain ⟨os, k1, k2, k3⟩ := (C60_files (pipe_fit h.fits hc) files h.lines st unk).1 h.compiled
  refine ⟨alphabet, os, k1, k3, rusOk_of h.fits hc a1 a2 (fun a ha => ?_) k2 ⟨?_, h.classes, h.plain, h.size⟩⟩
  · obtain ⟨l, hl, hal⟩ := List.mem_flatten.1 ha
    obtain ⟨o, ho, rfl⟩ := List.mem_map.1 hl
    obtain ⟨line, hline, hsay⟩ := (forall₂_mem k1).1 _ ho
    obtain ⟨L, s1, s2⟩ := says_to h.fits hc hsay
    obtain ⟨A, hA, hr⟩ := forall₂_mem_right s2 hal
    exact ⟨A, hr, a3 line hline L o.2 s1 A hA⟩
  · have := says_count k1
    have := h.count
    omega

/-- **C68** CheckWord with the compiled dictionary accepts a word only if the sources say so: some line of the dictionary has an article of which
the word, in small letters, is a form, and whose demand of capitals is met. -/
theorem C68_sound (h : Pipeline conv fs endings alternations Z T files st unk) (w junk : List Byte) (dwsets : Nat) (hne : w ≠ []) (hlen : w.length < 48)
    (hparts : (wordParts rusTab w).length ≤ 8) (hw : rusCheck (st.images T.mtab) junk w dwsets = some 1) :
    ∃ line ∈ files.flatten, ∃ arts unk, SrcLineSays Z lidNumber line arts unk ∧ ∃ A ∈ arts, SrcHasForm Z.flex A (w.map rusTab.lower) ∧
      rusAdmits w dwsets A.demand = true := by
  have hc := h.tables
  obtain ⟨alphabet, os, k1, k2, k3⟩ := h.images
  obtain ⟨line, hline, arts, unk', hsay, a, ha, h1, h2⟩ :=
    ((C60_words (pipe_fit h.fits hc) files h.lines os k1 st k3).2 w junk dwsets hne hlen hparts).1 hw
  obtain ⟨L, s1, s2⟩ := says_to h.fits hc hsay
  obtain ⟨A, hA, hr⟩ := forall₂_mem_right s2 ha
  exact ⟨line, hline, L, unk', s1, A, hA, (hasForm_iff h.fits hc hr _ _ _).1 h1, by rw [← hr.demand]; exact h2⟩

/-- **C68** ... and accepts every form of every article in every spelling it admits; but for words that are the stem and the suffix of an
article with a suffix (see C23, C43). -/
theorem C68_complete_partial (h : Pipeline conv fs endings alternations Z T files st unk) (w junk : List Byte) (dwsets : Nat) (hne : w ≠ []) (hlen : w.length < 48)
    (hparts : (wordParts rusTab w).length ≤ 8)
    (hpost : ∀ line ∈ files.flatten, ∀ arts unk, SrcLineSays Z lidNumber line arts unk → ∀ A ∈ arts, A.post ≠ [] → w.map rusTab.lower ≠ A.stem ++ A.post)
    (hw : ∃ line ∈ files.flatten, ∃ arts unk, SrcLineSays Z lidNumber line arts unk ∧ ∃ A ∈ arts, SrcHasForm Z.flex A (w.map rusTab.lower) ∧
      rusAdmits w dwsets A.demand = true) : rusCheck (st.images T.mtab) junk w dwsets = some 1 := by
  have hc := h.tables
  obtain ⟨alphabet, os, k1, k2, k3⟩ := h.images
  refine ((C60_words (pipe_fit h.fits hc) files h.lines os k1 st k3).2 w junk dwsets hne hlen hparts).2 ?_ ?_
  · intro a ha e b hb
    exfalso
    obtain ⟨l, hl, hal⟩ := List.mem_flatten.1 ha
    obtain ⟨o, ho, rfl⟩ := List.mem_map.1 hl
    obtain ⟨line, hline, hsay⟩ := (forall₂_mem k1).1 _ ho
    obtain ⟨L, s1, s2⟩ := says_to h.fits hc hsay
    obtain ⟨A, hA, hr⟩ := forall₂_mem_right s2 hal
    refine hpost line hline L o.2 s1 A hA ?_ (by rw [e, hr.stem, hr.post])
    intro e0
    rw [hr.post, e0] at hb; simp at hb
  · obtain ⟨line, hline, L, unk', s1, A, hA, h1, h2⟩ := hw
    obtain ⟨arts, s2, s3⟩ := says_of h.fits hc s1
    obtain ⟨a, ha, hr⟩ := forall₂_mem_left s3 hA
    exact ⟨line, hline, arts, unk', s2, a, ha, (hasForm_iff h.fits hc hr _ _ _).2 h1, by rw [hr.demand]; exact h2⟩

/-- **C68** The file of unknown words has the comments and the lines that make no article, in order. -/
theorem C68_unknown (h : Pipeline conv fs endings alternations Z T files st unk) :
    ∃ us : List (List (List Byte)), List.Forall₂ (fun line u => ∃ arts, SrcLineSays Z lidNumber line arts u) files.flatten us ∧ unk = us.flatten := by
  have hc := h.tables
  obtain ⟨alphabet, os, k1, k2, k3⟩ := h.images
  refine ⟨os.map (·.2), ?_, k2⟩
  rw [List.forall₂_map_right_iff]
  refine k1.imp fun line o hs => ?_
  obtain ⟨L, s1, _⟩ := says_to h.fits hc hs
  exact ⟨L, s1⟩

/-! ### C69 -/

theorem masc_iff {A : SrcArticle} {a : RusArticle} (hr : Realizes Z T A a) : MascPlural a ↔ SrcMascPlural A := by
  rw [MascPlural, SrcMascPlural, RusArticle.PluralOnly, RusArticle.pos, SrcArticle.pos, hr.info]
  refine and_congr_right fun _ => and_congr_right fun _ => ?_
  rcases hr.alt with ⟨h1, h2⟩ | ⟨l, _, h1, h2, _⟩
  · simp [h1, h2]
  · simp [h1, h2]

/-- **C69** The headword of a line is a form of every article of the line, by what the sources say. -/
theorem C69_headword (h : Pipeline conv fs endings alternations Z T files st unk) {line : List Byte} {arts : List SrcArticle} {u : List (List Byte)}
    (hs : SrcLineSays Z lidNumber line arts u) (hr : LineRegular line) {w : List Byte} (hw : Headword line w) {A : SrcArticle} (hA : A ∈ arts)
    (hm : ¬ SrcMascPlural A) : SrcHasForm Z.flex A w := by
  have hc := h.tables
  obtain ⟨l, s1, s2⟩ := says_of h.fits hc hs
  obtain ⟨a, ha, hre⟩ := forall₂_mem_left s2 hA
  have := C61_headword (pipe_fit h.fits hc) s1 hr hw ha (by rw [masc_iff hre]; exact hm) T.mtab []
  exact (hasForm_iff h.fits hc hre _ _ _).1 this

theorem groupRecords_ids (f g : Bool) : ∀ (gs : List LemmGroup) (x y : Nat), (groupRecords f g x y gs).map (·.nlexid) = gs.map fun p => p.1.id
  | [], _, _ => rfl
  | p :: gs, x, y => by rw [groupRecords, List.map_cons, List.map_cons, groupRecords_ids f g gs]

theorem joinStep_mono (r : Bool) (gs : List LemmGroup) (p : LemmStep) : ∀ g ∈ gs, ∃ g' ∈ joinStep r gs p, g'.1 = g.1 := by
  intro g hg
  rw [joinStep]
  cases hl : gs.getLast? with
  | none =>
    rw [List.getLast?_eq_none_iff] at hl
    subst hl; simp at hg
  | some q =>
    obtain ⟨ys, rfl⟩ := List.getLast?_eq_some_iff.1 hl
    simp only
    split
    · rw [List.dropLast_concat]
      rcases List.mem_append.1 hg with h | h
      · exact ⟨g, by simp [h], rfl⟩
      · rw [List.mem_singleton] at h
        subst h
        exact ⟨_, List.mem_append_right _ (List.mem_singleton_self _), rfl⟩
    · exact ⟨g, by simp at hg ⊢; tauto, rfl⟩

theorem joinStep_has (r : Bool) (gs : List LemmGroup) (p : LemmStep) : ∃ g ∈ joinStep r gs p, g.1.id = p.id ∧ (r = false → g.1 = p) := by
  rw [joinStep]
  cases hl : gs.getLast? with
  | none => exact ⟨(p, []), by simp, rfl, fun _ => rfl⟩
  | some q =>
    simp only
    split
    · rename_i h
      exact ⟨_, List.mem_append_right _ (List.mem_singleton_self _), h.2, fun e => by rw [e] at h; simp at h⟩
    · exact ⟨(p, []), by simp, rfl, fun _ => rfl⟩

/-- Every reading is in some record. -/
theorem lemmGroups_has (r : Bool) (H : List LemmStep) : ∀ p ∈ H, ∃ g ∈ lemmGroups r H, g.1.id = p.id ∧ (r = false → g.1 = p) := by
  induction H using List.reverseRecOn with
  | nil => simp
  | append_singleton H q ih =>
    intro p hp
    rw [lemmGroups_snoc]
    rcases List.mem_append.1 hp with hp | hp
    · obtain ⟨g, hg, h1, h2⟩ := ih p hp
      obtain ⟨g', hg', e⟩ := joinStep_mono r _ q g hg
      exact ⟨g', hg', by rw [e]; exact h1, by rw [e]; exact h2⟩
    · rw [List.mem_singleton] at hp
      subst hp
      exact joinStep_has r _ p

end

end Libmorph
