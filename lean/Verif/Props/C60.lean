import Verif.Lemmas.RusLine
import Verif.Spec.RusHead
import Verif.Props.C43
import Verif.Props.C55
/-
C60: the Russian dictionary compiler reads its source text line by line, and every line stands for its articles, for a text put
aside as unknown, or for nothing.
-/
namespace Libmorph
open Spec

/-- **C60** What the compiler makes of a line is what the line says: articles, an unknown text, or nothing.  (The tables fit.) -/
theorem C60_line_sound {T : RusTabs} {S : RusSource} (hf : RusFit T S) {line : List Byte} {r : RusLineResult} (h : rusLine T line = some r) :
    RusLineSays S lidNumber line r.arts r.unk := rusLine_sound hf h

/-- **C60** The compiler has an answer for every line whose words are not too long. -/
theorem C60_line_total {T : RusTabs} {S : RusSource} (hf : RusFit T S) {line : List Byte} (hl : LineFits line) :
    ∃ r, rusLine T line = some r ∧ ∀ arts unk, RusLineSays S lidNumber line arts unk ↔ r.arts = arts ∧ r.unk = unk := by
  obtain ⟨r, hr⟩ := rusLine_total hf hl
  refine ⟨r, hr, fun arts unk => ⟨fun h => RusLineSays_unique hf (rusLine_sound hf hr) h, ?_⟩⟩
  rintro ⟨rfl, rfl⟩
  exact rusLine_sound hf hr

/-- **C60** A line says one thing. -/
theorem C60_unique {T : RusTabs} {S : RusSource} (hf : RusFit T S) {line : List Byte} {l l' : List RusArticle} {u u' : List (List Byte)}
    (h : RusLineSays S lidNumber line l u) (h' : RusLineSays S lidNumber line l' u') : l = l' ∧ u = u' := RusLineSays_unique hf h h'

theorem LineFits_newline (l : List Byte) : LineFits (l ++ [10]) ↔ LineFits l := by simp only [LineFits, Trimmed_newline]

/-- **C60** The files are compiled to the dictionary of the articles of their lines, in order, and the unknown texts are put into the
file of unknown words, in order. -/
theorem C60_files {T : RusTabs} {S : RusSource} (hf : RusFit T S) (files : List (List (List Byte)))
    (h : ∀ lines ∈ files, ∀ l ∈ lines, 10 ∉ l ∧ 0 ∉ l ∧ l.length < 1022 ∧ LineFits l) (st : RusState) (unk : List (List Byte)) :
    rusCompile T id (files.map fileOf) = some (st, unk) ↔
      ∃ os : List (List RusArticle × List (List Byte)), List.Forall₂ (fun l o => RusLineSays S lidNumber l o.1 o.2) files.flatten os ∧
        rusBuild T.ftab T.mtab (os.map (·.1)).flatten = some st ∧ unk = (os.map (·.2)).flatten := by
  have e : ((files.map fileOf).map (sourceLines id)).flatten = files.flatten.map (· ++ [10]) := by
    rw [List.map_map, List.map_flatten]
    congr 1
    refine List.map_congr_left fun lines hl => ?_
    rw [Function.comp_apply, sourceLines, fgetsAll_file lines fun l hm => ⟨(h lines hl l hm).1, (h lines hl l hm).2.2.1⟩, List.map_map]
    refine List.map_congr_left fun l hm => ?_
    have h0 := (h lines hl l hm).2.1
    rw [Function.comp_apply, id]
    have := (split_while (p := fun c => decide (c ≠ 0)) (s := l ++ [10]) (x := l ++ [10]) (y := [])).2
      ⟨by simp, by
        intro c hc
        rw [decide_eq_true_eq]
        rintro rfl
        simp [h0] at hc, by simp⟩
    exact this.1
  have hfit : ∀ l ∈ files.flatten.map (· ++ [10]), LineFits l := by
    intro l hl
    obtain ⟨l', hl', rfl⟩ := List.mem_map.1 hl
    obtain ⟨lines, h1, h2⟩ := List.mem_flatten.1 hl'
    exact (LineFits_newline l').2 (h lines h1 l' h2).2.2.2
  rw [rusCompile, e, rusRead_iff hf _ hfit]
  refine exists_congr fun os => and_congr ?_ (and_congr Iff.rfl (by rw [List.nil_append]))
  rw [List.forall₂_map_left_iff]
  simp only [RusLineSays, Trimmed_newline]

/-- **C60** with C43: text goes in, words come out.  When the articles are within the limits of C43, CheckWord with the compiled
dictionary accepts only words that are forms of an article of some line, and all of those whose suffixes are safe. -/
theorem C60_words {A : List Byte} {T : RusTabs} {S : RusSource} (hf : RusFit T S) (files : List (List (List Byte)))
    (h : ∀ lines ∈ files, ∀ l ∈ lines, 10 ∉ l ∧ 0 ∉ l ∧ l.length < 1022 ∧ LineFits l) (os : List (List RusArticle × List (List Byte)))
    (hos : List.Forall₂ (fun l o => RusLineSays S lidNumber l o.1 o.2) files.flatten os) (st : RusState)
    (hok : RusOk A (S.dict T.mtab (os.map (·.1)).flatten) st) :
    rusCompile T id (files.map fileOf) = some (st, (os.map (·.2)).flatten) ∧
    ∀ w junk dwsets, w ≠ [] → w.length < 48 → (wordParts rusTab w).length ≤ 8 →
      (rusCheck (st.images T.mtab) junk w dwsets = some 1 → ∃ line ∈ files.flatten, ∃ arts unk, RusLineSays S lidNumber line arts unk ∧ ∃ a ∈ arts,
        (S.dict T.mtab (os.map (·.1)).flatten).HasForm a (w.map rusTab.lower) ∧ rusAdmits w dwsets a.demand = true) ∧
      ((S.dict T.mtab (os.map (·.1)).flatten).SuffixSafe (w.map rusTab.lower) →
        (∃ line ∈ files.flatten, ∃ arts unk, RusLineSays S lidNumber line arts unk ∧ ∃ a ∈ arts,
          (S.dict T.mtab (os.map (·.1)).flatten).HasForm a (w.map rusTab.lower) ∧ rusAdmits w dwsets a.demand = true) →
        rusCheck (st.images T.mtab) junk w dwsets = some 1) := by
  obtain ⟨m1, m2⟩ := forall₂_mem hos
  constructor
  · refine (C60_files hf files h _ _).2 ⟨os, hos, ?_, rfl⟩
    rw [hf.ftab]; exact hok.built
  · intro w junk dwsets hne hlen hparts
    constructor
    · intro h1
      rcases C43_check_sound hok w junk dwsets hne hlen hparts with h0 | ⟨_, a, ha, h2, h3⟩
      · have h1' : rusCheck (st.images (S.dict T.mtab (os.map (·.1)).flatten).mtab) junk w dwsets = some 1 := h1
        rw [h1'] at h0; simp at h0
      · obtain ⟨l, hl, hal⟩ := List.mem_flatten.1 ha
        obtain ⟨o, ho, rfl⟩ := List.mem_map.1 hl
        obtain ⟨line, hline, hsay⟩ := m1 _ ho
        exact ⟨line, hline, o.1, o.2, hsay, a, hal, h2, h3⟩
    · rintro hs ⟨line, hline, arts, unk, hsay, a, ha, h2, h3⟩
      obtain ⟨o, ho, hsay'⟩ := m2 line hline
      obtain ⟨e1, e2⟩ := RusLineSays_unique hf hsay hsay'
      obtain ⟨r, k1, _, k3⟩ := C43_check_exact_partial hok w junk dwsets hne hlen hparts hs
      have := k3.2 ⟨a, List.mem_flatten.2 ⟨o.1, List.mem_map.2 ⟨o, ho, rfl⟩, by rw [← e1]; exact ha⟩, h2, h3⟩
      rw [this] at k1
      exact k1

/-! ### A case -/

/-- The tables of `rusSample`, with names. -/
def textTabs : RusTabs where
  ftab := rusSampleFlex
  findex := [(ru "м 1*b", 1), (ru "им 1", 1), (ru "ж//м 4", 31)]
  mtab := rusSample.mtab
  mindex := [(ru "м 1*b", [(ru "о", 1)])]

def textSource : RusSource where
  ftab := rusSampleFlex
  endings := mapFind textTabs.findex
  alts := fun _ => rusSampleAlts
  mixes := fun name => (mapFind textTabs.mindex name).getD []

def textLines : List (List Byte) :=
  [ru "// sample", [], ru "сон # м 1*b LID:300", ru "со=н-то # м 1*b LID:44344 post:-то", ru "иван # им 1 LID: 7", ru "ножницы мн. ж//м 4 LID:5", ru "\tтам # н - LID:9",
   ru "в # предл. ШП:ВП LID:12", ru "нечто # x y LID:13"]

/-- A table fit for headwords described by `q`, checked by reading it. -/
def nounCheck (ftab : List Byte) (t q : Nat) : Bool :=
  match compactTable ftab t with
  | none => false
  | some l => decide (l.length < 128) && l.all fun i => i.gr ≠ q || (i.flex.length < 16 && (i.flags &&& 0x80 = 0 ||
      match compactTable ftab i.next with
      | none => false
      | some m => decide (m.length < 128) && m.all fun j => j.gr ≠ q))

theorem nounShape_of {ftab : List Byte} {t q : Nat} (h : nounCheck ftab t q = true) : NounShape ftab t q := by
  rw [nounCheck] at h
  cases hl : compactTable ftab t with
  | none => rw [hl] at h; simp at h
  | some l =>
    rw [hl] at h
    simp only [Bool.and_eq_true, decide_eq_true_eq, List.all_eq_true, Bool.or_eq_true] at h
    obtain ⟨h1, h2⟩ := h
    have hin : ∀ i, InTable ftab t i → i ∈ l := by
      rintro i ⟨l', hl', hi⟩
      rw [hl] at hl'; cases hl'; exact hi
    refine ⟨⟨l, hl, h1⟩, fun i hi hq => ?_, fun i hi hq hf => ?_⟩
    · rcases h2 i (hin i hi) with h | h
      · exact absurd hq h
      · exact h.1
    · rcases h2 i (hin i hi) with h | h
      · exact absurd hq h
      · rcases h.2 with h | h
        · exact absurd h hf
        · cases hm : compactTable ftab i.next with
          | none => rw [hm] at h; simp at h
          | some m =>
            rw [hm] at h
            simp only [Bool.and_eq_true, decide_eq_true_eq, List.all_eq_true] at h
            refine ⟨⟨m, rfl, h.1⟩, ?_⟩
            rintro j ⟨m', hm', hj⟩
            rw [hm] at hm'; cases hm'
            exact h.2 j hj

/-- The names of the tables, and the parts of speech that use them. -/
theorem textTypes : (∀ x ∈ wordTypes, ∀ p ∈ x.2.2, (ru p.2 = ru "м" ∨ ru p.2 = ru "им" → x.1 ∈ [7, 38]) ∧ (ru p.2 = ru "ж//м" → x.1 = 24 ∧ x.2.1 = true)) ∧
    (∀ x ∈ wordTypes, ∀ p ∈ x.2.2, 32 ∉ ru p.2) := by decide +kernel

theorem mapFind_some {β : Type} {m : List (List Byte × β)} {k : List Byte} {v : β} (h : mapFind m k = some v) : ∃ p ∈ m, p.2 = v ∧ p.1 = k := by
  rw [mapFind, Option.map_eq_some_iff] at h
  obtain ⟨p, hp, e⟩ := h
  exact ⟨p, List.mem_of_find?_eq_some hp, e, by simpa using List.find?_some hp⟩

theorem text_fit : RusFit textTabs textSource where
  ftab := rfl
  bytes := by decide
  endings := fun _ => rfl
  refs := by
    intro name t h
    obtain ⟨p, hp, rfl⟩ : ∃ p ∈ textTabs.findex, p.2 = t := by
      obtain ⟨p, hp, e, _⟩ := mapFind_some h
      exact ⟨p, hp, e⟩
    clear h
    revert p; decide
  mixes := fun _ => rfl
  alts := by
    intro name cond o h
    have : o = 1 := by
      rw [textSource] at h
      simp only [mapFind, textTabs, List.find?_cons] at h
      split at h <;> simp at h
      exact h.2
    subst this
    exact ⟨by decide, ⟨by decide, by decide, by decide⟩, by decide, ⟨[238, 237], by decide, by intro y hy; simpa [textSource, rusSampleAlts] using hy⟩, [], by decide +kernel⟩
  shapes := by
    intro dies type ind pos plural base t hty h48 h
    obtain ⟨p, hp, rfl, e⟩ : ∃ p ∈ textTabs.findex, p.2 = t ∧ p.1 = tableName type ind := by
      exact mapFind_some h
    obtain ⟨names, hx, q, hq, _, rfl⟩ := hty
    obtain ⟨t1, t2⟩ := textTypes
    have s32 := t2 _ hx q hq
    have tt := t1 _ hx q hq
    have names_ : ∀ p ∈ textTabs.findex, (p.2 = 1 ∧ (p.1 = ru "м" ++ 32 :: ru "1*b" ∨ p.1 = ru "им" ++ 32 :: ru "1")) ∨ (p.2 = 31 ∧ p.1 = ru "ж//м" ++ 32 :: ru "4") := by
      decide +kernel
    rcases names_ p hp with ⟨e1, e2⟩ | ⟨e1, e2⟩
    · rw [e1]
      have : ru q.2 = ru "м" ∨ ru q.2 = ru "им" := by
        rcases e2 with e2 | e2
        · rw [e, tableName] at e2; exact Or.inl (space_split s32 (by decide +kernel) e2).1
        · rw [e, tableName] at e2; exact Or.inr (space_split s32 (by decide +kernel) e2).1
      have hpos := tt.1 this
      simp only [List.mem_cons, List.not_mem_nil, or_false] at hpos
      have hnv : ¬ IsVerb pos := by rw [IsVerb]; omega
      have hg : headGram pos plural base = 0 ∨ headGram pos plural base = 0x800 := by
        rw [headGram, if_neg (by simp; omega)]
        cases plural <;> simp
      show HeadShape rusSampleFlex 1 pos plural base
      rw [HeadShape, if_neg hnv]
      rcases hg with hg | hg <;> rw [hg] <;> exact nounShape_of (by decide +kernel)
    · rw [e1]
      rw [e, tableName] at e2
      obtain ⟨rfl, rfl⟩ := tt.2 (space_split s32 (by decide +kernel) e2).1
      show HeadShape rusSampleFlex 31 24 true base
      rw [HeadShape, if_neg (by decide), show headGram 24 true base = 0x800 by rw [headGram, if_neg (by decide)]; rfl]
      exact nounShape_of (by decide +kernel)
  colons := by
    intro dies type ind pos plural t hty hv h
    exfalso
    obtain ⟨p, hp, rfl, e⟩ : ∃ p ∈ textTabs.findex, p.2 = t ∧ p.1 = tableName type ind := by
      exact mapFind_some h
    obtain ⟨names, hx, q, hq, _, rfl⟩ := hty
    obtain ⟨t1, t2⟩ := textTypes
    have s32 := t2 _ hx q hq
    have tt := t1 _ hx q hq
    have names_ : ∀ p ∈ textTabs.findex, (p.1 = ru "м" ++ 32 :: ru "1*b" ∨ p.1 = ru "им" ++ 32 :: ru "1") ∨ p.1 = ru "ж//м" ++ 32 :: ru "4" := by
      decide +kernel
    rcases names_ p hp with e2 | e2
    · have : ru q.2 = ru "м" ∨ ru q.2 = ru "им" := by
        rcases e2 with e2 | e2
        · rw [e, tableName] at e2; exact Or.inl (space_split s32 (by decide +kernel) e2).1
        · rw [e, tableName] at e2; exact Or.inr (space_split s32 (by decide +kernel) e2).1
      have hpos := tt.1 this
      simp only [List.mem_cons, List.not_mem_nil, or_false] at hpos
      rw [IsVerb] at hv; omega
    · rw [e, tableName] at e2
      obtain ⟨rfl, rfl⟩ := tt.2 (space_split s32 (by decide +kernel) e2).1
      exact absurd hv (by decide)

/-- What the lines are compiled to, line by line. -/
def textResults : List RusLineResult :=
  [.unknown (ru "// sample"), .skip, .articles [⟨[241], 7, 1, 1, [], 300⟩], .articles [⟨[241], 7, 1, 1, [45, 242, 238], 44344⟩],
   .articles [⟨[232, 226, 224, 237], 38, 1, 0, [], 7⟩], .articles [⟨[237, 238, 230, 237, 232, 246], 24 + 0x40, 31, 0, [], 5⟩],
   .articles [⟨[242, 224, 236], 54, 0, 0, [], 9⟩], .articles [⟨[226], 51, 0x28, 0, [], 12⟩], .unknown (ru "нечто # x y LID:13")]

/-- Whether a line fits, by reading it. -/
def fitsCheck (line : List Byte) : Bool :=
  let s := trimLine line
  match getSubtext 0x100 s with
  | none => false
  | some (norm, s) =>
    match getSubtext 0x20 s with
    | none => false
    | some (_, s) =>
      match getSubtext 0x20 s with
      | none => false
      | some (_, s) =>
        match getSubtext 0x20 s with
        | none => false
        | some (_, comm) => (getPostfix comm).length ≤ (plainWord norm).length

theorem fits_of {line : List Byte} (h : fitsCheck line = true) : LineFits line := by
  rintro s norm dies type ind comm hs ⟨r1, r2, r3, h1, h2, h3, h4⟩
  rw [← trimLine_iff] at hs
  simp only [fitsCheck, hs] at h
  cases g1 : getSubtext 0x100 s with
  | none => rw [g1] at h; simp at h
  | some p1 =>
    rw [g1] at h
    obtain ⟨n, q1⟩ := p1
    obtain ⟨a1, b1⟩ := (getSubtext_iff _ _ _ _).1 g1
    obtain ⟨rfl, rfl⟩ := NextWord_unique a1 h1
    simp only at h
    cases g2 : getSubtext 0x20 q1 with
    | none => rw [g2] at h; simp at h
    | some p2 =>
      rw [g2] at h
      obtain ⟨n2, q2⟩ := p2
      obtain ⟨a2, b2⟩ := (getSubtext_iff _ _ _ _).1 g2
      obtain ⟨rfl, rfl⟩ := NextWord_unique a2 h2
      simp only at h
      cases g3 : getSubtext 0x20 q2 with
      | none => rw [g3] at h; simp at h
      | some p3 =>
        rw [g3] at h
        obtain ⟨n3, q3⟩ := p3
        obtain ⟨a3, b3⟩ := (getSubtext_iff _ _ _ _).1 g3
        obtain ⟨rfl, rfl⟩ := NextWord_unique a3 h3
        simp only at h
        cases g4 : getSubtext 0x20 q3 with
        | none => rw [g4] at h; simp at h
        | some p4 =>
          rw [g4] at h
          obtain ⟨n4, q4⟩ := p4
          obtain ⟨a4, b4⟩ := (getSubtext_iff _ _ _ _).1 g4
          obtain ⟨rfl, rfl⟩ := NextWord_unique a4 h4
          simp only [decide_eq_true_eq] at h
          refine ⟨b1, b2, b3, b4, fun post hp => ?_⟩
          rw [← (getPostfix_iff _ _).2 hp]; exact h

theorem text_reads : List.Forall₂ (fun l o => RusLineSays textSource lidNumber l o.1 o.2) [textLines].flatten (textResults.map fun r => (r.arts, r.unk)) := by
  have e : [textLines].flatten.map (rusLine textTabs) = textResults.map some := by decide +kernel
  rw [List.forall₂_map_right_iff]
  have key : ∀ (ls : List (List Byte)) (rs : List RusLineResult), ls.map (rusLine textTabs) = rs.map some →
      List.Forall₂ (fun l r => RusLineSays textSource lidNumber l (RusLineResult.arts r) (RusLineResult.unk r)) ls rs := by
    intro ls
    induction ls with
    | nil => intro rs h; cases rs with
      | nil => exact .nil
      | cons r rs => simp at h
    | cons l ls ih => intro rs h; cases rs with
      | nil => simp at h
      | cons r rs =>
        simp only [List.map_cons, List.cons.injEq] at h
        exact .cons (rusLine_sound text_fit h.1) (ih rs h.2)
  exact key _ _ e

/-- The hypotheses of `C60_words` are met: the text compiles to `rusSample`, and CheckWord accepts "снами". -/
example : rusCompile textTabs id [fileOf textLines] = some (rusSampleState, [ru "// sample", ru "нечто # x y LID:13"]) ∧
    rusCheck (rusSampleState.images textTabs.mtab) [] (ru "снами") 0 = some 1 := by
  have harts : ((textResults.map fun r => (r.arts, r.unk)).map (·.1)).flatten = rusSample.arts := by decide +kernel
  obtain ⟨h1, h2⟩ := C60_words (A := rusSampleLetters) text_fit [textLines]
    (by
      intro lines hl l hm
      have hs : lines = textLines := by simpa using hl
      subst hs
      have : ∀ l ∈ textLines, (10 ∉ l ∧ 0 ∉ l ∧ l.length < 1022) ∧ fitsCheck l = true := by decide +kernel
      obtain ⟨⟨a, b, c⟩, d⟩ := this l hm
      exact ⟨a, b, c, fits_of d⟩)
    _ text_reads rusSampleState (by rw [harts]; exact rusSample_ok)
  refine ⟨h1, (h2 (ru "снами") [] 0 (by decide +kernel) (by decide +kernel) (by decide +kernel)).2 ?_ ?_⟩
  · rw [harts]
    show rusSample.SuffixSafe _
    unfold RusDict.SuffixSafe
    have h0 : ∀ a ∈ rusSample.arts, (ru "снами").map rusTab.lower = a.stem ++ a.post → a.post = [] := by decide +kernel
    intro a ha e b hb
    rw [h0 a ha e] at hb; simp at hb
  · refine ⟨ru "сон # м 1*b LID:300", by decide +kernel, [⟨[241], 7, 1, 1, [], 300⟩], [],
      rusLine_sound (r := .articles [⟨[241], 7, 1, 1, [], 300⟩]) text_fit (by decide +kernel), _, List.mem_singleton.2 rfl, ?_, by decide +kernel⟩
    refine ⟨[237], [224, 236, 232], ⟨0x4800, 3⟩, ?_, by decide +kernel⟩
    rw [RusDict.Reads, if_pos (by decide)]
    refine ⟨?_, by decide, ?_⟩
    · exact Ending.next (i := ⟨0x83, 0x800, [224], 22⟩) ⟨_, rfl, by decide +kernel⟩ (by decide)
        (Ending.here (i := ⟨3, 0x4000, [236, 232], 0⟩) ⟨_, rfl, by decide +kernel⟩ (by decide))
    · rw [if_neg (by decide)]
      exact Or.inl (by decide +kernel)

end Libmorph
