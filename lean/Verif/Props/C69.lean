import Verif.Lemmas.PipelineDict
import Verif.Props.C68
/-
C69: from the texts of the tables and of the dictionary to Lemmatize, word by word.
-/
namespace Libmorph
open Spec

section
variable {conv : List Byte → List Byte} {fs : List Byte → Option (List Byte)} {endings alternations : List Byte} {Z : RusSrc} {T : RusTabs}
  {files : List (List (List Byte))} {st : RusState} {unk : List (List Byte)}

/-- The article `A` of some line has the word, in small letters, as a form. -/
def Knows (Z : RusSrc) (files : List (List (List Byte))) (w : List Byte) (A : SrcArticle) : Prop :=
  ∃ line ∈ files.flatten, ∃ arts u, SrcLineSays Z lidNumber line arts u ∧ A ∈ arts ∧ SrcHasForm Z.flex A (w.map rusTab.lower)

/-- The record `p` that Lemmatize is to report for the word `w`: the number of an article that has the word as a form in an admitted spelling, and its
dictionary form - the alphabetically first, when it has several - with the capitals the article demands. -/
def ReportsLemma (Z : RusSrc) (files : List (List (List Byte))) (w : List Byte) (dwsets : Nat) (p : Nat × List Byte) : Prop :=
  ∃ A l, Knows Z files w A ∧ rusAdmits w dwsets A.demand = true ∧ SrcLemma Z.flex A l ∧ p = (A.id, rusPrinted A.demand l)

/-- **C69** Lemmatize of a word with the compiled dictionary, when every article that has the word as a form has a dictionary form, and its
dictionary forms take at most 256 bytes: it reports the numbers and dictionary forms of articles that have the word as a form in an admitted
spelling, and misses none (but for words that are the stem and the suffix of an article with a suffix): without records every one, with
records consecutive ones of one number share a record. -/
theorem C69_word_partial (h : Pipeline conv fs endings alternations Z T files st unk) (w : List Byte) (dwsets : Nat)
    (hne : w ≠ []) (hlen : w.length < 48) (hparts : (wordParts rusTab w).length ≤ 8) (hd : dwsets &&& 0x100 = 0)
    (hdict : ∀ A, Knows Z files w A → (∃ f, SrcDictForm Z.flex A f) ∧
      ∀ fs : List (List Byte), fs.Nodup → (∀ f ∈ fs, SrcDictForm Z.flex A f) → (packed fs).length ≤ 256) (records : Bool) :
    ∃ R : List (Nat × List Byte), (∀ p ∈ R, ReportsLemma Z files w dwsets p) ∧
      ((∀ line ∈ files.flatten, ∀ arts u, SrcLineSays Z lidNumber line arts u → ∀ A ∈ arts, A.post ≠ [] → w.map rusTab.lower ≠ A.stem ++ A.post) →
        ∀ p, ReportsLemma Z files w dwsets p → if records then ∃ q ∈ R, q.1 = p.1 else p ∈ R) ∧
      ∀ junk L B, L.isSome = records → (∀ l ∈ L, R.length ≤ l.length) → (∀ b ∈ B, (packed (R.map (·.2))).length + 1 ≤ b.length) →
        ∃ s, rusLemmatize (st.images T.mtab) junk w L B none dwsets = some ((R.length : Int), s) ∧
          (∀ l, s.lemms = some l → (l.take R.length).map (·.nlexid) = R.map (·.1)) ∧
          (∀ b, s.forms.buf = some b → R ≠ [] → packed (R.map (·.2)) <+: b) := by
  have hc := h.tables
  have hf := pipe_fit h.fits hc
  obtain ⟨alphabet, os, k1, k2, k3⟩ := h.images
  obtain ⟨m1, m2⟩ := forall₂_mem k1
  have hmem : ∀ a ∈ (os.map (·.1)).flatten, ∃ line ∈ files.flatten, ∃ arts u, RusLineSays (pipeSource Z T) lidNumber line arts u ∧ a ∈ arts := by
    intro a ha
    obtain ⟨l, hl, hal⟩ := List.mem_flatten.1 ha
    obtain ⟨o, ho', rfl⟩ := List.mem_map.1 hl
    obtain ⟨line, hline, hsay⟩ := m1 _ ho'
    exact ⟨line, hline, o.1, o.2, hsay, hal⟩
  have hsrc : ∀ a ∈ (os.map (·.1)).flatten, ((pipeSource Z T).dict T.mtab (os.map (·.1)).flatten).HasForm a (w.map rusTab.lower) →
      ∃ A, Realizes Z T A a ∧ Knows Z files w A := by
    intro a ha hform
    obtain ⟨line, hline, arts, u, hsay, hal⟩ := hmem a ha
    obtain ⟨L, s1, s2⟩ := says_to h.fits hc hsay
    obtain ⟨A, hA, hr⟩ := forall₂_mem_right s2 hal
    exact ⟨A, hr, line, hline, L, u, s1, hA, (hasForm_iff h.fits hc hr _ _ _).1 hform⟩
  have hD : ((pipeSource Z T).dict T.mtab (os.map (·.1)).flatten).HasDict (w.map rusTab.lower) dwsets := by
    intro a ha x e g hread hword
    obtain ⟨A, hr, hk⟩ := hsrc a ha ⟨x, e, g, hread, hword⟩
    obtain ⟨⟨f, hdf⟩, _⟩ := hdict A hk
    exact dictForms_exists h.fits hc hr k3 ha g hd hdf
  obtain ⟨H, hH, F, hF, hrun⟩ := C44_lemmatize_partial k3 w dwsets hne hlen hparts hD
  let gs := lemmGroups records (H.map fun r => r.step (F r))
  have hread : ∀ r ∈ H, ∃ A, Realizes Z T A r.art ∧ Knows Z files w A ∧ rusAdmits w dwsets A.demand = true := by
    intro r hr
    obtain ⟨hp1, hp2⟩ := hH.proper r hr
    obtain ⟨g, hg⟩ := List.exists_mem_of_ne_nil _ hp1.some_
    obtain ⟨A, hre, hk⟩ := hsrc r.art hp1.art ⟨r.alt, r.ending, g, (hp1.grams g).1 hg, hp1.word⟩
    exact ⟨A, hre, hk, by rw [← hre.demand]; exact hp2⟩
  have hsteps : ∀ p ∈ H.map (fun r => r.step (F r)), ReportsLemma Z files w dwsets (p.id, p.text) ∧ p.scratch ≤ 256 := by
    intro p hp
    obtain ⟨r, hr, rfl⟩ := List.mem_map.1 hp
    obtain ⟨A, hre, hk, hadm⟩ := hread r hr
    obtain ⟨_, d2, d3⟩ := dictForms_mem h.fits hc hre hd (hF r hr)
    constructor
    · refine ⟨A, leastForm (F r), hk, hadm, leastForm_lemma h.fits hc hre hd (hF r hr), ?_⟩
      rw [Prod.mk.injEq]
      exact ⟨hre.id, by show rusPrinted r.art.demand _ = _; rw [hre.demand]⟩
    · exact (hdict A hk).2 (F r) d2 fun f hf => (d3 f).1 hf
  have hgs : ∀ g ∈ gs, g.1 ∈ H.map fun r => r.step (F r) := fun g hg => mem_lemmGroups hg
  refine ⟨gs.map fun g => (g.1.id, g.1.text), ?_, ?_, ?_⟩
  · intro p hp
    obtain ⟨g, hg, rfl⟩ := List.mem_map.1 hp
    exact (hsteps g.1 (hgs g hg)).1
  · rintro hpost p ⟨A, lm, ⟨line, hline, arts, u, s1, hA, hform⟩, hadm, hlm, rfl⟩
    obtain ⟨l, s2, s3⟩ := says_of h.fits hc s1
    obtain ⟨a, ha, hre⟩ := forall₂_mem_left s3 hA
    obtain ⟨o, ho1, hsay'⟩ := m2 line hline
    obtain ⟨e1, e2⟩ := RusLineSays_unique hf s2 hsay'
    have hall : a ∈ (os.map (·.1)).flatten := List.mem_flatten.2 ⟨o.1, List.mem_map.2 ⟨o, ho1, rfl⟩, by rw [← e1]; exact ha⟩
    have hsafe : ((pipeSource Z T).dict T.mtab (os.map (·.1)).flatten).SuffixSafe (w.map rusTab.lower) := by
      intro a' ha' e b hb
      exfalso
      obtain ⟨line', hline', arts', u', hsay2, har'⟩ := hmem a' ha'
      obtain ⟨L, t1, t2⟩ := says_to h.fits hc hsay2
      obtain ⟨A', hA', hr'⟩ := forall₂_mem_right t2 har'
      refine hpost line' hline' L u' t1 A' hA' ?_ (by rw [e, hr'.stem, hr'.post])
      intro e0
      rw [hr'.post, e0] at hb; simp at hb
    obtain ⟨x, e, g, hrd, hword⟩ := (hasForm_iff h.fits hc hre T.mtab (os.map (·.1)).flatten _).2 hform
    have hcount := hH.all hsafe a hall (by rw [hre.demand]; exact hadm) x e g hrd hword
    have hpos : 0 < ((pipeSource Z T).dict T.mtab (os.map (·.1)).flatten).arts.count a := List.count_pos_iff.2 hall
    rw [← hcount] at hpos
    obtain ⟨r, hr⟩ := List.exists_mem_of_length_pos hpos
    obtain ⟨hr1, hr2⟩ := List.mem_filter.1 hr
    have hra : r.art = a := by simp only [decide_eq_true_eq] at hr2; exact hr2.1
    have hFr := hF r hr1
    rw [hra] at hFr
    have hsame := srcLemma_unique (leastForm_lemma h.fits hc hre hd hFr) hlm
    obtain ⟨q, hq, q1, q2⟩ := lemmGroups_has records (H.map fun r => r.step (F r)) (r.step (F r)) (List.mem_map.2 ⟨r, hr1, rfl⟩)
    have hid : (r.step (F r)).id = A.id := by
      show r.art.id = A.id
      rw [hra]; exact hre.id
    have htext : (r.step (F r)).text = rusPrinted A.demand lm := by
      show rusPrinted r.art.demand (leastForm (F r)) = _
      rw [hra, hre.demand, hsame]
    cases records with
    | true =>
      simp only [if_true]
      exact ⟨_, List.mem_map.2 ⟨q, hq, rfl⟩, by simp only; rw [q1, hid]⟩
    | false =>
      simp only [Bool.false_eq_true, if_false]
      refine List.mem_map.2 ⟨q, hq, ?_⟩
      rw [q2 rfl, hid, htext]
  · intro junk L B hL hl hb
    subst hL
    have e1 : (gs.map fun g => (g.1.id, g.1.text)).map (·.2) = gs.map fun g => g.1.text := by rw [List.map_map]; rfl
    have e2 : (gs.map fun g => (g.1.id, g.1.text)).map (·.1) = gs.map fun g => g.1.id := by rw [List.map_map]; rfl
    rw [e1] at hb
    rw [List.length_map] at hl
    have hroom : GroupRoomy L B none gs := by
      refine { lemms := hl, texts := fun b hb' _ => hb b hb', scratch := fun b _ g hg => (hsteps g.1 (hgs g hg)).2, grams := ?_, lemms' := ?_, grams' := ?_ }
      · intro _ _ g hg; simp at hg
      · intro _ _ _ g hg; simp at hg
      · intro _ _ _ g hg; simp at hg
    obtain ⟨s, r1, r2, _⟩ := (hrun junk L B none).1 hroom
    refine ⟨s, by rw [List.length_map]; exact r1, ?_, ?_⟩
    · intro l hl'
      have hrec := r2.lemms
      rw [hl'] at hrec
      cases L with
      | none => simp [HoldRecords] at hrec
      | some l0 =>
        obtain ⟨tl, t1, _⟩ := hrec
        rw [Option.some.injEq] at t1
        rw [t1, e2, List.length_map]
        have hlen2 := groupRecords_length B.isSome (none : Option (List Gram)).isSome 0 0 gs
        rw [List.take_left' (by rw [hlen2]), groupRecords_ids]
    · intro b hb' hne'
      have htx := r2.texts
      rw [hb'] at htx
      cases B with
      | none => simp at htx
      | some b0 =>
        have hgne : gs ≠ [] := by
          intro e; apply hne'; rw [e]; rfl
        simp only [Option.map_some, Option.some.injEq] at htx
        rw [if_neg hgne] at htx
        rw [htx, e1]
        exact List.prefix_append _ _

/-- **C69** Which lemma a line gives: the headword of a regular line is a dictionary form of its articles - where an infinitive is described by
nothing but being an infinitive or a reflexive one, and a word whose headword is reflexive has no headword that is not -; so it is the lemma when
no other dictionary form comes before it. -/
theorem C69_headword_lemma (h : Pipeline conv fs endings alternations Z T files st unk) {line : List Byte} {arts : List SrcArticle} {u : List (List Byte)}
    (hs : SrcLineSays Z lidNumber line arts u) (hr : LineRegular line) {w : List Byte} (hw : Headword line w) {A : SrcArticle} (hA : A ∈ arts)
    (hm : ¬ SrcMascPlural A)
    (halive : ∀ name, A.table = some name → ∀ e gr fl, SrcEnding Z.flex name e gr fl → fl &&& 3 ≠ 0)
    (hbare : ∀ name, A.table = some name → ∀ e gr fl, SrcEnding Z.flex name e gr fl → gr % 128 = 1 → gr = 1 ∨ gr = 0x8001)
    (hapart : ∀ name, A.table = some name → SrcReflects A.info → SrcFormAt Z.flex A name (dictGram A.info + 0x8000) 3 w →
      ∀ f, ¬ SrcFormAt Z.flex A name (dictGram A.info) 3 f) :
    SrcDictForm Z.flex A w ∧ ((∀ f, SrcDictForm Z.flex A f → bytesLt f w = false) → SrcLemma Z.flex A w) := by
  have key : SrcDictForm Z.flex A w := by
    have hc := h.tables
    have hf := pipe_fit h.fits hc
    obtain ⟨l, s1, s2⟩ := says_of h.fits hc hs
    obtain ⟨a, ha, hre⟩ := forall₂_mem_left s2 hA
    rcases hre.table with ⟨t1, t2, t3, t4⟩ | ⟨name, t1, t2, t3, t4⟩
    · rcases says_parts hf s1 ha hr hw with ⟨_, n1⟩ | ⟨n1, _⟩
      · exact Or.inl ⟨t1, by rw [n1, hre.stem, hre.post]⟩
      · exact absurd n1 t3
    · rcases says_parts hf s1 ha hr hw with ⟨n1, _⟩ | ⟨_, x, e, g, n2⟩
      · exact absurd t3 n1
      · have he : SrcEnding Z.flex name e g.gramm g.flags := (ending_iff h.fits hc t2 e _ _).1 n2.ending
        have hx := (altFor_iff h.fits hre T.mtab [] ⟨g.gramm, 3⟩ x).1 ((head_alt n2 (by rw [masc_iff hre]; exact hm) 3 x).2 rfl)
        have hat : SrcFormAt Z.flex A name g.gramm 3 w :=
          ⟨x, e, g.flags, he, halive name t1 _ _ _ he, hx, by rw [n2.word, hre.stem, hre.post]⟩
        refine Or.inr ⟨name, t1, ?_⟩
        have hreq := head_request_at n2 (fun e gr fl hE => hbare name t1 e gr fl ((ending_iff h.fits hc t2 e _ _).1 hE)) ⟨0, 0⟩ 0 (by simp)
        rw [dictRequest_eq _ _ (by simp), hre.info] at hreq
        rcases hreq with hq | ⟨hcat, hq⟩
        · left
          rw [FlexInfo.mk.injEq] at hq
          rw [hq.1]; exact hat
        · rw [hq] at hat
          exact Or.inr ⟨hcat, hapart name t1 hcat hat, hat⟩
  exact ⟨key, fun hl => ⟨key, hl⟩⟩

/-- Two forms for one description are the same when the table has one ending for it. -/
theorem formAt_unique {src : List (List Byte × List FxItem)} {A : SrcArticle} {name : List Byte} {q fl : Nat}
    (ho : ∀ e e' f f', SrcEnding src name e q f → SrcEnding src name e' q f' → e = e') {f f' : List Byte}
    (h : SrcFormAt src A name q fl f) (h' : SrcFormAt src A name q fl f') : f = f' := by
  obtain ⟨x, e, g, h1, _, h2, rfl⟩ := h
  obtain ⟨x', e', g', h1', _, h2', rfl⟩ := h'
  have he := ho _ _ _ _ h1 h1'
  have hx : x = x' := by
    rcases h2 with ⟨b1, b2⟩ | ⟨l, b1, b2⟩ <;> rcases h2' with ⟨c1, c2⟩ | ⟨l', c1, c2⟩
    · rw [b2, c2]
    · rw [b1] at c1; simp at c1
    · rw [b1] at c1; simp at c1
    · rw [b1] at c1; cases c1
      exact stepServes_unique b2 c2
  rw [he, hx]

/-- **C69** Where the tables have one ending for a headword, the headword is the only dictionary form. -/
theorem C69_headword_only (h : Pipeline conv fs endings alternations Z T files st unk) (hh : SrcHeads Z.flex) {line : List Byte} {arts : List SrcArticle}
    {u : List (List Byte)} (hs : SrcLineSays Z lidNumber line arts u) (hr : LineRegular line) {w : List Byte} (hw : Headword line w) {A : SrcArticle}
    (hA : A ∈ arts) (hm : ¬ SrcMascPlural A) (f : List Byte) : SrcDictForm Z.flex A f ↔ f = w := by
  have hc := h.tables
  have hf := pipe_fit h.fits hc
  obtain ⟨l, s1, s2⟩ := says_of h.fits hc hs
  obtain ⟨a, ha, hre⟩ := forall₂_mem_left s2 hA
  have hgram : ∀ name, A.table = some name → dictGram A.info ∈ [0, 0x200, 0x800, 1] ∧ (SrcReflects A.info → dictGram A.info ∈ [1, 0x200]) := by
    intro name hn
    have hsing : A.info % 64 ∈ [25, 26, 27, 28, 34, 36, 42] → ¬ A.info &&& 0x40 ≠ 0 := by
      rcases says_parts hf s1 ha hr hw with ⟨n1, _⟩ | ⟨_, x, e, g, n2⟩
      · rcases hre.table with ⟨t1, _⟩ | ⟨_, _, _, t3, _⟩
        · rw [t1] at hn; simp at hn
        · exact absurd t3 n1
      · have := n2.sing
        rw [RusArticle.pos, RusArticle.PluralOnly, hre.info] at this
        exact this
    rw [dictGram, SrcReflects]
    by_cases hv : A.info % 64 ≤ 6
    · rw [if_pos hv]; simp
    · rw [if_neg hv]
      by_cases hj : A.info % 64 ∈ [25, 26, 27, 28, 34, 36, 42]
      · rw [if_pos hj, if_neg (hsing hj)]; simp
      · rw [if_neg hj]
        refine ⟨by split <;> simp, ?_⟩
        rintro (k | k)
        · exact absurd k hv
        · exact absurd k hj
  have hd := (C69_headword_lemma h hs hr hw hA hm (fun name _ => hh.alive name) (fun name _ => hh.bare name) (by
    rintro name hn hcat ⟨x, e, fl, e1, _⟩ f ⟨x', e', fl', e1', _⟩
    exact hh.apart name _ ((hgram name hn).2 hcat) _ _ _ _ e1' e1)).1
  constructor
  · intro hf'
    rcases hf' with ⟨t1, rfl⟩ | ⟨name, t1, hf'⟩
    · rcases hd with ⟨_, rfl⟩ | ⟨name, t2, _⟩
      · rfl
      · rw [t1] at t2; simp at t2
    · rcases hd with ⟨t2, _⟩ | ⟨name', t2, hd⟩
      · rw [t1] at t2; simp at t2
      · rw [t1] at t2; cases t2
        obtain ⟨g1, g2⟩ := hgram name t1
        rcases hf' with hf' | ⟨hcat, hno, hf'⟩ <;> rcases hd with hd | ⟨hcat', hno', hd⟩
        · exact formAt_unique (hh.once name _ (by simp only [List.mem_cons, List.not_mem_nil, or_false] at g1 ⊢; omega)) hf' hd
        · exact absurd hf' (hno' f)
        · exact absurd hd (hno w)
        · have := g2 hcat
          exact formAt_unique (hh.once name _ (by simp only [List.mem_cons, List.not_mem_nil, or_false] at this ⊢; omega)) hf' hd
  · rintro rfl
    exact hd

/-- The record `p` that Lemmatize is to report for the word `w`: the number of an article of a line that has the word, in small letters, as a
form in an admitted spelling, and the headword of that line. -/
def ReportsLine (Z : RusSrc) (files : List (List (List Byte))) (w : List Byte) (dwsets : Nat) (p : Nat × List Byte) : Prop :=
  ∃ line ∈ files.flatten, ∃ arts u A head, SrcLineSays Z lidNumber line arts u ∧ A ∈ arts ∧ Headword line head ∧
    SrcHasForm Z.flex A (w.map rusTab.lower) ∧ rusAdmits w dwsets A.demand = true ∧ p = (A.id, rusPrinted A.demand head)

/-- **C69** Lemmatize with the compiled dictionary reports headwords of lines that have the word as a form, with the numbers of the lines, and
misses none (but for words that are the stem and the suffix of an article with a suffix): without records every one, with records
consecutive ones of one number share a record. -/
theorem C69_lemmatize_partial (h : Pipeline conv fs endings alternations Z T files st unk) (hh : SrcHeads Z.flex) (hreg : ∀ l ∈ files.flatten, LineRegular l)
    (hm : ∀ line ∈ files.flatten, ∀ arts u, SrcLineSays Z lidNumber line arts u → ∀ A ∈ arts, ¬ SrcMascPlural A) (w : List Byte) (dwsets : Nat)
    (hne : w ≠ []) (hlen : w.length < 48) (hparts : (wordParts rusTab w).length ≤ 8) (hd : dwsets &&& 0x100 = 0) (records : Bool) :
    ∃ R : List (Nat × List Byte), (∀ p ∈ R, ReportsLine Z files w dwsets p) ∧
      ((∀ line ∈ files.flatten, ∀ arts u, SrcLineSays Z lidNumber line arts u → ∀ A ∈ arts, A.post ≠ [] → w.map rusTab.lower ≠ A.stem ++ A.post) →
        ∀ p, ReportsLine Z files w dwsets p → if records then ∃ q ∈ R, q.1 = p.1 else p ∈ R) ∧
      ∀ junk L B, L.isSome = records → (∀ l ∈ L, R.length ≤ l.length) → (∀ b ∈ B, (packed (R.map (·.2))).length + 1 ≤ b.length) →
        ∃ s, rusLemmatize (st.images T.mtab) junk w L B none dwsets = some ((R.length : Int), s) ∧
          (∀ l, s.lemms = some l → (l.take R.length).map (·.nlexid) = R.map (·.1)) ∧
          (∀ b, s.forms.buf = some b → R ≠ [] → packed (R.map (·.2)) <+: b) := by
  have hlem : ∀ A, ∀ line ∈ files.flatten, ∀ arts u, SrcLineSays Z lidNumber line arts u → A ∈ arts → ∃ head, Headword line head ∧
      (packed [head]).length ≤ 256 := by
    intro A line hline arts u hs hA
    obtain ⟨s, hs', _⟩ := id hs
    obtain ⟨n, d, t, i, c, hfd⟩ := RusFields_exists s
    refine ⟨plainWord n, ⟨s, n, d, t, i, c, hs', hfd, rfl⟩, ?_⟩
    obtain ⟨lines, hl1, hl2⟩ := List.mem_flatten.1 hline
    have := ((h.lines lines hl1 line hl2).2.2.2 s n d t i c hs' hfd).1
    have h2 : (plainWord n).length ≤ n.length := by
      rw [plainWord, List.length_map]; exact List.length_filter_le _ _
    simp only [packed, List.flatMap_cons, List.flatMap_nil, List.append_nil, List.length_append, List.length_cons, List.length_nil]
    omega
  have honly : ∀ line ∈ files.flatten, ∀ arts u, SrcLineSays Z lidNumber line arts u → ∀ A ∈ arts, ∀ head, Headword line head →
      ∀ f, SrcDictForm Z.flex A f ↔ f = head := fun line hline arts u hs A hA head hw f =>
    C69_headword_only h hh hs (hreg line hline) hw hA (hm line hline arts u hs A hA) f
  obtain ⟨R, r1, r2, r3⟩ := C69_word_partial h w dwsets hne hlen hparts hd (by
    rintro A ⟨line, hline, arts, u, hs, hA, _⟩
    obtain ⟨head, hw, h256⟩ := hlem A line hline arts u hs hA
    have ho := honly line hline arts u hs A hA head hw
    refine ⟨⟨head, (ho head).2 rfl⟩, fun fs hn hfs => ?_⟩
    have hall : ∀ f ∈ fs, f = head := fun f hf => (ho f).1 (hfs f hf)
    match fs, hn, hall with
    | [], _, _ => simp [packed]
    | [f], _, hall => rw [hall f (by simp)]; exact h256
    | f :: f' :: fs, hn, hall =>
      exfalso
      rw [List.nodup_cons] at hn
      exact hn.1 (by rw [hall f (by simp), ← hall f' (by simp)]; simp)) records
  refine ⟨R, fun p hp => ?_, fun hpost p hp => ?_, r3⟩
  · obtain ⟨A, l, ⟨line, hline, arts, u, hs, hA, hform⟩, hadm, hl, rfl⟩ := r1 p hp
    obtain ⟨head, hw, _⟩ := hlem A line hline arts u hs hA
    have := (honly line hline arts u hs A hA head hw l).1 hl.1
    subst this
    exact ⟨line, hline, arts, u, A, l, hs, hA, hw, hform, hadm, rfl⟩
  · refine r2 hpost p ?_
    obtain ⟨line, hline, arts, u, A, head, hs, hA, hw, hform, hadm, rfl⟩ := hp
    have ho := honly line hline arts u hs A hA head hw
    exact ⟨A, head, ⟨line, hline, arts, u, hs, hA, hform⟩, hadm, ⟨(ho head).2 rfl, fun f hf => by rw [(ho f).1 hf]; exact bytesLt_irrefl _⟩, rfl⟩

end

end Libmorph
