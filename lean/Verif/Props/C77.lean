import Verif.Props.C69
/-
C77: from the texts of the tables and of the dictionary to BuildForm, FindForms and GetWdInfo.
-/
namespace Libmorph
open Spec

section
variable {conv : List Byte → List Byte} {fs : List Byte → Option (List Byte)} {endings alternations : List Byte} {Z : RusSrc} {T : RusTabs}
  {files : List (List (List Byte))} {st : RusState} {unk : List (List Byte)}

/-- `A` is an article of some line of the dictionary. -/
def InFiles (Z : RusSrc) (files : List (List (List Byte))) (A : SrcArticle) : Prop :=
  ∃ line ∈ files.flatten, ∃ arts u, SrcLineSays Z lidNumber line arts u ∧ A ∈ arts

/-- `f` is a form of the article with the form number `i`: 255 is the number of an uninflected word itself; the other numbers stand for descriptions (`C27`),
and the forms of an inflected word with the number are those for the description. -/
def SrcFormNo (src : List (List Nat × List FxItem)) (A : SrcArticle) (i : Nat) (f : List Nat) : Prop :=
  (A.table = none ∧ i = 255 ∧ f = A.stem ++ A.post) ∨
  ∃ name, A.table = some name ∧ i ≠ 255 ∧ getGramInfo A.info i ≠ noInfo ∧
    SrcFormAt src A name (getGramInfo A.info i).gramm (getGramInfo A.info i).flags f

/-- The same for BuildForm, which gives a preposition for the numbers of the forms of a noun, and not for 255. -/
def SrcBuiltNo (src : List (List Nat × List FxItem)) (A : SrcArticle) (i : Nat) (f : List Nat) : Prop :=
  if A.pos = 51 then i ≠ 255 ∧ getGramInfo A.info i ≠ noInfo ∧ f = A.stem ++ A.post else SrcFormNo src A i f

theorem foundForms_mem (hz : TablesFit Z) (hc : Compiled Z T) {A : SrcArticle} {a : RusArticle} (h : Realizes Z T A a) {mtab : List Byte}
    {all : List RusArticle} {i : Nat} {fs : List (List Byte)} (hF : ((pipeSource Z T).dict mtab all).FoundForms a i fs) :
    fs.Nodup ∧ ∀ f, f ∈ fs ↔ SrcFormNo Z.flex A i f := by
  rw [RusDict.FoundForms] at hF
  rcases h.table with ⟨h1, h2, h3, h4⟩ | ⟨name, h1, h2, h3, h4⟩
  · rw [if_neg h3] at hF
    subst hF
    by_cases hi : i = 255
    · rw [if_pos hi]
      refine ⟨by simp, fun f => ?_⟩
      rw [List.mem_singleton, SrcFormNo, h1, h.stem, h.post]
      simp [hi]
    · rw [if_neg hi]
      refine ⟨by simp, fun f => ?_⟩
      rw [SrcFormNo, h1]
      simp [hi]
  · rw [if_pos h3, h.info] at hF
    have hsrc : ∀ f, SrcFormNo Z.flex A i f ↔ (i ≠ 255 ∧ getGramInfo A.info i ≠ noInfo ∧
        SrcFormAt Z.flex A name (getGramInfo A.info i).gramm (getGramInfo A.info i).flags f) := by
      intro f; rw [SrcFormNo, h1]; simp
    split at hF
    · rename_i hi
      subst hF
      refine ⟨by simp, fun f => ?_⟩
      rw [hsrc]
      constructor
      · intro k; simp at k
      · rintro ⟨k1, k2, _⟩
        rcases hi with hi | hi
        · exact absurd hi k1
        · exact absurd hi k2
    · rename_i hi
      rw [not_or] at hi
      refine ⟨formsOf_nodup hF, fun f => ?_⟩
      rw [hsrc, formsOf_mem hz hc h h1 h2 hF f]
      exact ⟨fun k => ⟨hi.1, hi.2, k⟩, fun k => k.2.2⟩

theorem builtForms_mem (hz : TablesFit Z) (hc : Compiled Z T) {A : SrcArticle} {a : RusArticle} (h : Realizes Z T A a) {mtab : List Byte}
    {all : List RusArticle} {i : Nat} {fs : List (List Byte)} (hF : ((pipeSource Z T).dict mtab all).BuiltForms a i fs) :
    fs.Nodup ∧ ∀ f, f ∈ fs ↔ SrcBuiltNo Z.flex A i f := by
  have hp : a.pos = A.pos := by rw [RusArticle.pos, SrcArticle.pos, h.info]
  rw [RusDict.BuiltForms, hp, h.info] at hF
  by_cases h51 : A.pos = 51
  · rw [if_pos h51] at hF
    subst hF
    simp only [SrcBuiltNo, if_pos h51]
    by_cases hi : i = 255 ∨ getGramInfo A.info i = noInfo
    · rw [if_pos hi]
      refine ⟨by simp, fun f => ⟨fun k => by simp at k, ?_⟩⟩
      rintro ⟨k1, k2, _⟩
      rcases hi with hi | hi
      · exact absurd hi k1
      · exact absurd hi k2
    · rw [if_neg hi]
      rw [not_or] at hi
      refine ⟨by simp, fun f => ?_⟩
      rw [List.mem_singleton, h.stem, h.post]
      exact ⟨fun k => ⟨hi.1, hi.2, k⟩, fun k => k.2.2⟩
  · rw [if_neg h51] at hF
    simp only [SrcBuiltNo, if_neg h51]
    exact foundForms_mem hz hc h hF

/-- The articles of the images are those of the lines. -/
theorem Pipeline.articles_of (h : Pipeline conv fs endings alternations Z T files st unk) {os : List (List RusArticle × List (List Byte))}
    (k1 : List.Forall₂ (fun l (o : List RusArticle × List (List Byte)) => RusLineSays (pipeSource Z T) lidNumber l o.1 o.2) files.flatten os) :
    (∀ a ∈ (os.map (·.1)).flatten, ∃ A, InFiles Z files A ∧ Realizes Z T A a) ∧
    ∀ A, InFiles Z files A → ∃ a ∈ (os.map (·.1)).flatten, Realizes Z T A a := by
  have hc := h.tables
  obtain ⟨m1, m2⟩ := forall₂_mem k1
  constructor
  · intro a ha
    obtain ⟨l, hl, hal⟩ := List.mem_flatten.1 ha
    obtain ⟨o, ho, rfl⟩ := List.mem_map.1 hl
    obtain ⟨line, hline, hsay⟩ := m1 _ ho
    obtain ⟨L, s1, s2⟩ := says_to h.fits hc hsay
    obtain ⟨A, hA, hr⟩ := forall₂_mem_right s2 hal
    exact ⟨A, ⟨line, hline, L, o.2, s1, hA⟩, hr⟩
  · rintro A ⟨line, hline, arts, u, s1, hA⟩
    obtain ⟨l, s2, s3⟩ := says_of h.fits hc s1
    obtain ⟨a, ha, hre⟩ := forall₂_mem_left s3 hA
    obtain ⟨o, ho1, hsay'⟩ := m2 line hline
    obtain ⟨e1, e2⟩ := RusLineSays_unique (pipe_fit h.fits hc) s2 hsay'
    exact ⟨a, List.mem_flatten.2 ⟨o.1, List.mem_map.2 ⟨o, ho1, rfl⟩, by rw [← e1]; exact ha⟩, hre⟩

theorem Pipeline.idsOk (h : Pipeline conv fs endings alternations Z T files st unk) (hids : ∀ A, InFiles Z files A → A.id < 2 ^ 24)
    (hsize : (st.images T.mtab).lidstree.length < 2 ^ 32) {os : List (List RusArticle × List (List Byte))}
    (k1 : List.Forall₂ (fun l (o : List RusArticle × List (List Byte)) => RusLineSays (pipeSource Z T) lidNumber l o.1 o.2) files.flatten os) :
    RusIdsOk ((pipeSource Z T).dict T.mtab (os.map (·.1)).flatten) st := by
  refine ⟨fun a ha => ?_, hsize⟩
  obtain ⟨A, hA, hr⟩ := (h.articles_of k1).1 a ha
  rw [hr.id]; exact hids A hA

/-- **C77** BuildForm of a number the dictionary has: there is an article of some line with that number, and the answer is all its forms with the form
number asked for, each once, printed with the capitals it demands - or the refusal, when they do not fit. -/
theorem C77_build_form (h : Pipeline conv fs endings alternations Z T files st unk) (hids : ∀ A, InFiles Z files A → A.id < 2 ^ 24)
    (hsize : (st.images T.mtab).lidstree.length < 2 ^ 32) (junk : List Byte) (id i : Nat) (hj : (lexkey id).length + junk.length = 16)
    (hex : ∃ A, InFiles Z files A ∧ A.id = id) (B : List Byte) (hB : B ≠ []) :
    ∃ A, InFiles Z files A ∧ A.id = id ∧ ∃ fs : List (List Byte), fs.Nodup ∧ (∀ f, f ∈ fs ↔ SrcBuiltNo Z.flex A i f) ∧
      FormOutcome (rusBuildForm (st.images T.mtab) junk (some B) id i) (fs.map (rusPrinted A.demand)) ((packed fs).length ≤ 256) B := by
  have hc := h.tables
  obtain ⟨alphabet, os, k1, k2, k3⟩ := h.images
  obtain ⟨q1, q2⟩ := h.articles_of k1
  have hi := h.idsOk hids hsize k1
  obtain ⟨a, ha, e1, gs, g1, g2⟩ := C46_build_form k3 hi junk id i hj (by
    obtain ⟨A, hA, e⟩ := hex
    obtain ⟨a, ha, hr⟩ := q2 A hA
    exact ⟨a, ha, by rw [hr.id, e]⟩) B hB
  obtain ⟨A, hA, hr⟩ := q1 a ha
  obtain ⟨n1, n2⟩ := builtForms_mem h.fits hc hr g1
  refine ⟨A, hA, by rw [← hr.id, e1], gs, n1, n2, ?_⟩
  rw [← hr.demand]
  exact g2

/-- **C77** BuildForm of a number no line has: nothing, and the buffer stays as it is. -/
theorem C77_build_unknown (h : Pipeline conv fs endings alternations Z T files st unk) (hids : ∀ A, InFiles Z files A → A.id < 2 ^ 24)
    (hsize : (st.images T.mtab).lidstree.length < 2 ^ 32) (junk : List Byte) (id i : Nat) (hid : id < 2 ^ 32) (hj : (lexkey id).length + junk.length = 16)
    (hno : ∀ A, InFiles Z files A → A.id ≠ id) (B : List Byte) (hB : B ≠ []) :
    rusBuildForm (st.images T.mtab) junk (some B) id i = some (0, some B) := by
  obtain ⟨alphabet, os, k1, k2, k3⟩ := h.images
  obtain ⟨q1, q2⟩ := h.articles_of k1
  refine C46_build_form_unknown k3 (h.idsOk hids hsize k1) junk id i hid hj (fun a ha => ?_) B hB
  obtain ⟨A, hA, hr⟩ := q1 a ha
  rw [hr.id]; exact hno A hA

/-- **C77** FindForms of a word: all forms with the number asked for of articles that have the word as a form in an admitted spelling; of every such article
(but for words that are the stem and the suffix of an article with a suffix). -/
theorem C77_find_forms_partial (h : Pipeline conv fs endings alternations Z T files st unk) (w : List Byte) (dwsets i : Nat) (hne : w ≠ [])
    (hlen : w.length < 48) (hparts : (wordParts rusTab w).length ≤ 8) :
    ∃ R : List (SrcArticle × List (List Byte)),
      (∀ p ∈ R, Knows Z files w p.1 ∧ rusAdmits w dwsets p.1.demand = true ∧ p.2.Nodup ∧ ∀ f, f ∈ p.2 ↔ SrcFormNo Z.flex p.1 i f) ∧
      ((∀ A, InFiles Z files A → A.post ≠ [] → w.map rusTab.lower ≠ A.stem ++ A.post) → ∀ A, Knows Z files w A → rusAdmits w dwsets A.demand = true →
        ∃ p ∈ R, p.1.id = A.id ∧ p.1.demand = A.demand ∧ ∀ f, f ∈ p.2 ↔ SrcFormNo Z.flex A i f) ∧
      ∀ junk B, B ≠ [] → FormOutcome (rusFindForms (st.images T.mtab) junk (some B) w i dwsets)
        (R.flatMap fun p => p.2.map (rusPrinted p.1.demand)) (∀ p ∈ R, (packed p.2).length ≤ 256) B := by
  have hc := h.tables
  obtain ⟨alphabet, os, k1, k2, k3⟩ := h.images
  obtain ⟨q1, q2⟩ := h.articles_of k1
  obtain ⟨H, hH, hrun⟩ := C46_find_forms k3 w dwsets hne hlen hparts
  obtain ⟨F, hF, hrun⟩ := hrun i
  have hread : ∀ r ∈ H, ∃ A, Realizes Z T A r.art ∧ Knows Z files w A ∧ rusAdmits w dwsets A.demand = true := by
    intro r hr
    obtain ⟨hp1, hp2⟩ := hH.proper r hr
    obtain ⟨g, hg⟩ := List.exists_mem_of_ne_nil _ hp1.some_
    obtain ⟨A, ⟨line, hline, arts, u, s1, hA⟩, hre⟩ := q1 r.art hp1.art
    refine ⟨A, hre, ⟨line, hline, arts, u, s1, hA, ?_⟩, by rw [← hre.demand]; exact hp2⟩
    exact (hasForm_iff h.fits hc hre T.mtab (os.map (·.1)).flatten _).1 ⟨r.alt, r.ending, g, (hp1.grams g).1 hg, hp1.word⟩
  classical
  let src : RusReading → SrcArticle := fun r => if hr : r ∈ H then (hread r hr).choose else ⟨[], 0, none, 0, none, [], 0⟩
  have hsrc : ∀ r ∈ H, Realizes Z T (src r) r.art ∧ Knows Z files w (src r) ∧ rusAdmits w dwsets (src r).demand = true := by
    intro r hr
    simp only [src, dif_pos hr]
    exact (hread r hr).choose_spec
  refine ⟨H.map fun r => (src r, F r.art), ?_, ?_, ?_⟩
  · intro p hp
    obtain ⟨r, hr, rfl⟩ := List.mem_map.1 hp
    obtain ⟨h1, h2, h3⟩ := hsrc r hr
    exact ⟨h2, h3, foundForms_mem h.fits hc h1 (hF r.art (hH.proper r hr).1.art)⟩
  · rintro hpost A ⟨line, hline, arts, u, s1, hA, hform⟩ hadm
    obtain ⟨a, hall, hre⟩ := q2 A ⟨line, hline, arts, u, s1, hA⟩
    have hsafe : ((pipeSource Z T).dict T.mtab (os.map (·.1)).flatten).SuffixSafe (w.map rusTab.lower) := by
      intro a' ha' e b hb
      exfalso
      obtain ⟨A', hA', hr'⟩ := q1 a' ha'
      refine hpost A' hA' ?_ (by rw [e, hr'.stem, hr'.post])
      intro e0
      rw [hr'.post, e0] at hb; simp at hb
    obtain ⟨x, e, g, hrd, hword⟩ := (hasForm_iff h.fits hc hre T.mtab (os.map (·.1)).flatten _).2 hform
    have hcount := hH.all hsafe a hall (by rw [hre.demand]; exact hadm) x e g hrd hword
    have hpos : 0 < ((pipeSource Z T).dict T.mtab (os.map (·.1)).flatten).arts.count a := List.count_pos_iff.2 hall
    rw [← hcount] at hpos
    obtain ⟨r, hr⟩ := List.exists_mem_of_length_pos hpos
    obtain ⟨hr1, hr2⟩ := List.mem_filter.1 hr
    have hra : r.art = a := by simp only [decide_eq_true_eq] at hr2; exact hr2.1
    obtain ⟨h1, h2, h3⟩ := hsrc r hr1
    rw [hra] at h1
    refine ⟨_, List.mem_map.2 ⟨r, hr1, rfl⟩, ?_, ?_, ?_⟩
    · show (src r).id = A.id
      rw [← h1.id, hre.id]
    · show (src r).demand = A.demand
      rw [← h1.demand, hre.demand]
    · intro f
      show f ∈ F r.art ↔ _
      rw [hra]
      exact (foundForms_mem h.fits hc hre (hF a hall)).2 f
  · intro junk B hB
    have := hrun junk B hB
    have e1 : ((H.map fun r => (src r, F r.art)).flatMap fun p => p.2.map (rusPrinted p.1.demand)) =
        H.flatMap fun r => (F r.art).map (rusPrinted r.art.demand) := by
      rw [List.flatMap_map]
      refine List.flatMap_congr fun r hr => ?_
      rw [(hsrc r hr).1.demand]
    rw [e1]
    have e2 : (∀ p ∈ H.map fun r => (src r, F r.art), (packed p.2).length ≤ 256) ↔ ∀ r ∈ H, (packed (F r.art)).length ≤ 256 := by
      simp
    rw [e2]
    exact this

/-- **C77** GetWdInfo of a number the dictionary has: the part of speech of an article with that number; of one no line has: 0. -/
theorem C77_part_of_speech (h : Pipeline conv fs endings alternations Z T files st unk) (hids : ∀ A, InFiles Z files A → A.id < 2 ^ 24)
    (hsize : (st.images T.mtab).lidstree.length < 2 ^ 32) (junk : List Byte) (id : Nat) (hid : id < 2 ^ 32) (hj : (lexkey id).length + junk.length = 16) :
    (∃ A, InFiles Z files A ∧ A.id = id ∧ rusWdInfo (st.images T.mtab) junk id = some (1, some A.pos)) ∨
    ((∀ A, InFiles Z files A → A.id ≠ id) ∧ rusWdInfo (st.images T.mtab) junk id = some (0, none)) := by
  obtain ⟨alphabet, os, k1, k2, k3⟩ := h.images
  obtain ⟨q1, q2⟩ := h.articles_of k1
  have hi := h.idsOk hids hsize k1
  by_cases hex : ∃ A, InFiles Z files A ∧ A.id = id
  · obtain ⟨A, hA, e⟩ := hex
    obtain ⟨a, ha, hr⟩ := q2 A hA
    obtain ⟨b, hb, hbid, hg⟩ := rusWdInfo_eq k3 hi junk id hj ⟨a, ha, by rw [hr.id, e]⟩
    obtain ⟨A', hA', hr'⟩ := q1 b hb
    refine Or.inl ⟨A', hA', by rw [← hr'.id, hbid], ?_⟩
    rw [SrcArticle.pos, ← hr'.info]
    exact hg
  · refine Or.inr ⟨fun A hA e => hex ⟨A, hA, e⟩, C47_unknown k3 hi junk id hid hj fun a ha e => ?_⟩
    obtain ⟨A, hA, hr⟩ := q1 a ha
    exact hex ⟨A, hA, by rw [← hr.id, e]⟩

end

end Libmorph
