import Verif.Lemmas.RusHead
import Verif.Props.C44
import Verif.Props.C60Cx
/-
C61: the headword of a line is a form of its article, and is recognized.  C62: it is the dictionary form Lemmatize reports for every
form of the article.
-/
namespace Libmorph
open Spec

/-- An article of a line is made of its headword. -/
theorem says_article {S : RusSource} {number : List Byte → Nat} {line : List Byte} {arts : List RusArticle} {unk : List (List Byte)}
    (h : RusLineSays S number line arts unk) {a : RusArticle} (ha : a ∈ arts) (hr : LineRegular line) {w : List Byte} (hw : Headword line w) :
    ∃ norm dies type ind comm, ArticleIs S norm dies type ind comm { a with id := 0 } ∧ HeadRegular norm dies type ind comm ∧ w = plainWord norm := by
  obtain ⟨s0, norm0, dies0, type0, ind0, comm0, t0, f0, rfl⟩ := hw
  obtain ⟨s, hs, h⟩ := h
  have := Trimmed_unique t0 hs
  subst this
  rcases h with ⟨_, rfl, _⟩ | ⟨_, _, rfl, _⟩ | ⟨_, t, l, _, _, hl, h⟩
  · simp at ha
  · simp at ha
  · rcases h with ⟨_, rfl, _⟩ | ⟨_, rfl, _⟩
    · simp at ha
    · obtain ⟨b, hb, rfl⟩ := List.mem_map.1 ha
      obtain ⟨norm, dies, type, ind, comm, hf, hl⟩ := hl
      obtain ⟨rfl, rfl, rfl, rfl, rfl⟩ := RusFields_unique f0 hf
      have hreg := hr _ _ _ _ _ _ hs hf
      have hid : ∀ i c, ArticleIs S norm0 dies0 type0 i c b → ArticleIs S norm0 dies0 type0 i c { b with id := 0 } := by
        intro i c hb
        have : b.id = 0 := by
          obtain ⟨_, _, _, _, _, _, _, _, _, h⟩ := hb
          rcases h with ⟨_, _, _, rfl⟩ | ⟨_, _, _, _, _, _, _, h⟩
          · rfl
          · rcases h with ⟨rfl, _⟩ | ⟨_, _, _, _, _, _, _, _, _, _, _, rfl⟩ <;> rfl
        rw [← this]; exact hb
      rcases hl with ⟨b', rfl, hb'⟩ | ⟨_, ⟨rfl, _⟩ | ⟨x, y, l1, l2, hm, rfl, h1, h2⟩⟩
      · rw [List.mem_singleton] at hb
        subst hb
        exact ⟨_, _, _, _, _, hid _ _ hb', hreg, rfl⟩
      · simp at hb
      · have hcol := hreg.colon
        rw [hm.1] at hcol
        rcases List.mem_append.1 hb with hb | hb
        · rcases h1 with ⟨rfl, _⟩ | ⟨b', rfl, hb'⟩
          · simp at hb
          · rw [List.mem_singleton] at hb
            subst hb
            exact ⟨_, _, _, x, _, hid _ _ hb', ⟨hreg.mark, hreg.suffix, fun h => hcol (by simp [h])⟩, rfl⟩
        · rcases h2 with ⟨rfl, _⟩ | ⟨b', rfl, hb'⟩
          · simp at hb
          · rw [List.mem_singleton] at hb
            subst hb
            exact ⟨_, _, _, y, _, hid _ _ hb', ⟨hreg.mark, hreg.suffix, fun h => hcol (by simp [h])⟩, rfl⟩

/-- The parts of the headword of an article of a line. -/
theorem says_parts {T : RusTabs} {S : RusSource} (hf : RusFit T S) {number : List Byte → Nat} {line : List Byte} {arts : List RusArticle}
    {unk : List (List Byte)} (h : RusLineSays S number line arts unk) {a : RusArticle} (ha : a ∈ arts) (hr : LineRegular line) {w : List Byte}
    (hw : Headword line w) : (¬ a.Inflected ∧ w = a.stem ++ a.post) ∨ (a.Inflected ∧ ∃ x e g, HeadParts S a w x e g) := by
  obtain ⟨norm, dies, type, ind, comm, h1, h2, rfl⟩ := says_article h ha hr hw
  rcases head_parts hf h1 h2 with h3 | ⟨h3, x, e, g, h4⟩
  · exact Or.inl h3
  · exact Or.inr ⟨h3, x, e, g, ⟨h4.pos, h4.sing, h4.table, h4.ending, h4.word, h4.alt, h4.gram⟩⟩

/-- **C61** The headword of a line is a form of every article of the line.  (It is written as it is used; the article is not a masculine,
plural-only noun whose stem alternates.) -/
theorem C61_headword {T : RusTabs} {S : RusSource} (hf : RusFit T S) {number : List Byte → Nat} {line : List Byte} {arts : List RusArticle}
    {unk : List (List Byte)} (h : RusLineSays S number line arts unk) (hr : LineRegular line) {w : List Byte} (hw : Headword line w) {a : RusArticle}
    (ha : a ∈ arts) (hm : ¬ MascPlural a) (mtab : List Byte) (all : List RusArticle) : (S.dict mtab all).HasForm a w := by
  rcases says_parts hf h ha hr hw with ⟨h1, h2⟩ | ⟨h1, x, e, g, h2⟩
  · refine ⟨[], [], ⟨a.tfoffs, 0⟩, ?_, by rw [h2]; simp⟩
    rw [RusDict.Reads, if_neg h1]
    exact ⟨rfl, rfl, rfl⟩
  · refine ⟨x, e, g, ?_, h2.word⟩
    rw [RusDict.Reads, if_pos h1]
    refine ⟨h2.ending, fun hp => ?_, ?_⟩
    · by_cases hv : IsVerb a.pos
      · exfalso
        obtain ⟨norm, dies, type, ind, comm, k1, k2, _⟩ := says_article h ha hr hw
        obtain ⟨pos, plural, k3, k4, k5⟩ := article_word k1
        have k6 := (TypeIs_pos k3).2.2 (by rw [← k4]; exact hv.2)
        have k7 := k5.1 hp
        rw [k6] at k7; simp at k7
      · exact head_plural h2 hp hv
    · have hx := h2.alt
      by_cases h0 : a.mtoffs = 0
      · rw [if_pos h0] at hx ⊢; exact hx
      · rw [if_neg h0] at hx ⊢
        rw [head_level h2 hm h0]
        exact Or.inl hx.1

/-- **C61** The headword of a line of the source is recognized by CheckWord with the compiled dictionary, in every spelling the article
admits. -/
theorem C61_recognized {A : List Byte} {T : RusTabs} {S : RusSource} (hf : RusFit T S) (files : List (List (List Byte)))
    (h : ∀ lines ∈ files, ∀ l ∈ lines, 10 ∉ l ∧ 0 ∉ l ∧ l.length < 1022 ∧ LineFits l) (os : List (List RusArticle × List (List Byte)))
    (hos : List.Forall₂ (fun l o => RusLineSays S lidNumber l o.1 o.2) files.flatten os) (st : RusState)
    (hok : RusOk A (S.dict T.mtab (os.map (·.1)).flatten) st) {line : List Byte} (hline : line ∈ files.flatten) (hr : LineRegular line)
    {w : List Byte} (hw : Headword line w) {arts : List RusArticle} {unk : List (List Byte)} (hsay : RusLineSays S lidNumber line arts unk)
    {a : RusArticle} (ha : a ∈ arts) (hm : ¬ MascPlural a) (hsafe : (S.dict T.mtab (os.map (·.1)).flatten).SuffixSafe w) :
    rusCompile T id (files.map fileOf) = some (st, (os.map (·.2)).flatten) ∧
    ∀ u junk dwsets, u.map rusTab.lower = w → u ≠ [] → u.length < 48 → (wordParts rusTab u).length ≤ 8 → rusAdmits u dwsets a.demand = true →
      rusCheck (st.images T.mtab) junk u dwsets = some 1 := by
  obtain ⟨h1, h2⟩ := C60_words hf files h os hos st hok
  refine ⟨h1, fun u junk dwsets hu hne hlen hparts hadm => (h2 u junk dwsets hne hlen hparts).2 (by rw [hu]; exact hsafe) ?_⟩
  exact ⟨line, hline, arts, unk, hsay, a, ha, by rw [hu]; exact C61_headword hf hsay hr hw ha hm _ _, hadm⟩

/-! ### C62 -/

/-- **C62** The headword of a line is among the dictionary forms of its articles, whatever form was met; when the tables have one ending
for a headword, it is the only one. -/
theorem C62_dictionary_form {T : RusTabs} {S : RusSource} (hf : RusFit T S) (ht : HeadTables S) {number : List Byte → Nat} {line : List Byte}
    {arts : List RusArticle} {unk : List (List Byte)} (h : RusLineSays S number line arts unk) (hr : LineRegular line) {w : List Byte}
    (hw : Headword line w) {a : RusArticle} (ha : a ∈ arts) (hm : ¬ MascPlural a) (mtab : List Byte) (all : List RusArticle) (g : FlexInfo)
    (dwsets : Nat) (hd : dwsets &&& 0x100 = 0) (fs : List (List Byte)) (hF : (S.dict mtab all).DictForms a g dwsets fs) :
    w ∈ fs ∧ (HeadOnce S → fs = [w]) := by
  rcases says_parts hf h ha hr hw with ⟨h1, h2⟩ | ⟨h1, x, e, g', h2⟩
  · rw [RusDict.DictForms, if_neg h1] at hF
    rw [hF, h2]
    simp
  · exact head_dict h2 h1 hm ht hd hF

/-- Every article of the lines has a dictionary form. -/
theorem head_has_dict {A : List Byte} {S : RusSource} {mtab : List Byte} {all : List RusArticle} {st : RusState} (hok : RusOk A (S.dict mtab all) st)
    (ht : HeadTables S) {a : RusArticle} (ha : a ∈ all) (hm : ¬ MascPlural a) {w x e : List Byte} {g : FlexInfo} (h : HeadParts S a w x e g) (hi : a.Inflected)
    (d : FlexInfo) {dwsets : Nat} (hd : dwsets &&& 0x100 = 0) : ∃ fs, (S.dict mtab all).DictForms a d dwsets fs := by
  obtain ⟨name, hname⟩ := h.table
  have hfl := ht.alive name _ hname _ _ _ h.ending
  rcases head_request h ht d dwsets hd with ⟨hq, _⟩ | ⟨hcat, q, hq, hreq, hg⟩
  · exact dictForms_of hok ha hi (x := x) (e := e) (fl := g.flags) (by rw [hq, head_alt h hm]) (by rw [hq]; exact h.ending) (by rw [hq]; exact hfl)
  · obtain ⟨f1, k1, -⟩ := rusWordForms_inflected hok ha hi (dictRequest a.wdinfo d dwsets)
    obtain ⟨f2, k2, -⟩ := rusWordForms_inflected hok ha hi ⟨g.gramm, 3⟩
    have e1 : f1 = [] := by
      rcases k1 with ⟨y, es, _, h2, rfl⟩ | ⟨_, rfl⟩
      · cases es with
        | nil => rfl
        | cons e' es =>
          exfalso
          obtain ⟨fl, h3, _⟩ := (h2.mem e').1 (by simp)
          rw [hreq] at h3
          have h4 := h.ending
          rw [hg] at h4
          exact ht.apart name _ hname q hq _ _ _ _ h3 h4
      · rfl
    subst e1
    refine ⟨f2, ?_⟩
    rw [RusDict.DictForms, if_pos hi]
    refine ⟨?_, Or.inr ⟨hcat, k1, ?_⟩⟩
    · rintro rfl
      have := (head_forms h hm ht k2).1
      simp at this
    · rw [hreq]
      simp only
      rw [← hg]; exact k2

/-- **C62** Lemmatize with the compiled dictionary: every reading it reports belongs to an article of some line, and the text it reports for
it is the headword of that line (with the capitals the article demands).  Lemmatize itself is C44; here every article has a dictionary form.
(All lines are written as they are used; tables have one ending for a headword; no masculine, plural-only nouns with alternation.) -/
theorem C62_lemma_is_headword {A : List Byte} {T : RusTabs} {S : RusSource} (hf : RusFit T S) (ht : HeadTables S) (ho : HeadOnce S)
    (files : List (List (List Byte)))
    (h : ∀ lines ∈ files, ∀ l ∈ lines, 10 ∉ l ∧ 0 ∉ l ∧ l.length < 1022 ∧ LineFits l) (os : List (List RusArticle × List (List Byte)))
    (hos : List.Forall₂ (fun l o => RusLineSays S lidNumber l o.1 o.2) files.flatten os) (st : RusState)
    (hok : RusOk A (S.dict T.mtab (os.map (·.1)).flatten) st) (hreg : ∀ l ∈ files.flatten, LineRegular l)
    (hm : ∀ a ∈ (os.map (·.1)).flatten, ¬ MascPlural a) :
    rusCompile T id (files.map fileOf) = some (st, (os.map (·.2)).flatten) ∧
    ∀ u dwsets, u ≠ [] → u.length < 48 → (wordParts rusTab u).length ≤ 8 → dwsets &&& 0x100 = 0 →
      ∃ H, (S.dict T.mtab (os.map (·.1)).flatten).Readings (rusAdmits u dwsets) (u.map rusTab.lower) H ∧
      ∃ F : RusReading → List (List Byte),
        (∀ r ∈ H, ∃ line ∈ files.flatten, ∃ arts unk w, RusLineSays S lidNumber line arts unk ∧ r.art ∈ arts ∧ Headword line w ∧
          F r = [w] ∧ (r.step (F r)).text = rusPrinted r.art.demand w) ∧
        ∀ junk L B G,
          let gs := lemmGroups L.isSome (H.map fun r => r.step (F r))
          (GroupRoomy L B G gs → ∃ s, rusLemmatize (st.images T.mtab) junk u L B G dwsets = some ((gs.length : Int), s) ∧
            GroupReported L B G gs s ∧ SameSizes L B G s) ∧
          (JoinSafe L G (H.map fun r => r.step (F r)) → ¬ GroupFits L B G gs →
            ∃ r s, rusLemmatize (st.images T.mtab) junk u L B G dwsets = some (r, s) ∧ r < 0 ∧ GroupBlames L B G gs r ∧ SameSizes L B G s) := by
  refine ⟨(C60_words hf files h os hos st hok).1, fun u dwsets hne hlen hparts hd => ?_⟩
  obtain ⟨m1, m2⟩ := forall₂_mem hos
  have hsrc : ∀ a ∈ (os.map (·.1)).flatten, ∃ line ∈ files.flatten, ∃ arts unk w, RusLineSays S lidNumber line arts unk ∧ a ∈ arts ∧ Headword line w := by
    intro a ha
    obtain ⟨l, hl, hal⟩ := List.mem_flatten.1 ha
    obtain ⟨o, ho', rfl⟩ := List.mem_map.1 hl
    obtain ⟨line, hline, hsay⟩ := m1 _ ho'
    obtain ⟨s, hs, _⟩ := id hsay
    obtain ⟨n, d, t, i, c, hfd⟩ := RusFields_exists s
    exact ⟨line, hline, o.1, o.2, plainWord n, hsay, hal, s, n, d, t, i, c, hs, hfd, rfl⟩
  have hD : (S.dict T.mtab (os.map (·.1)).flatten).HasDict (u.map rusTab.lower) dwsets := by
    intro a ha x e g _ _
    by_cases hi : a.Inflected
    · obtain ⟨line, hline, arts, unk, w, hsay, hal, hw⟩ := hsrc a ha
      rcases says_parts hf hsay hal (hreg line hline) hw with ⟨h1, _⟩ | ⟨_, x, e, g', h2⟩
      · exact absurd hi h1
      · exact head_has_dict hok ht ha (hm a ha) h2 hi g hd
    · exact ⟨_, by rw [RusDict.DictForms, if_neg hi]⟩
  obtain ⟨H, hH, F, hF, hrest⟩ := C44_lemmatize_partial hok u dwsets hne hlen hparts hD
  refine ⟨H, hH, F, ?_, hrest⟩
  intro r hrm
  have ha := (hH.proper r hrm).1.art
  obtain ⟨line, hline, arts, unk, w, hsay, hal, hw⟩ := hsrc r.art ha
  have hdf := C62_dictionary_form hf ht hsay (hreg line hline) hw hal (hm _ ha) _ _ _ dwsets hd _ (hF r hrm)
  have h1 : F r = [w] := hdf.2 ho
  exact ⟨line, hline, arts, unk, w, hsay, hal, hw, h1, by rw [h1]; rfl⟩

/-! ### A case -/

/-- The words of a text, by reading it. -/
def lineFields (s : List Byte) : Option (List Byte × List Byte × List Byte × List Byte × List Byte) := do
  let (norm, s) ← getSubtext 0x100 s
  let (dies, s) ← getSubtext 0x20 s
  let (type, s) ← getSubtext 0x20 s
  let (ind, comm) ← getSubtext 0x20 s
  return (norm, dies, type, ind, comm)

theorem lineFields_sound {s n d t i c : List Byte} (h : lineFields s = some (n, d, t, i, c)) : RusFields s n d t i c := by
  simp only [lineFields, bind, Option.bind_eq_some_iff, pure, Option.some.injEq, Prod.exists] at h
  obtain ⟨n', r1, h1, d', r2, h2, t', r3, h3, i', c', h4, e⟩ := h
  simp only [Prod.mk.injEq] at e
  obtain ⟨rfl, rfl, rfl, rfl, rfl⟩ := e
  exact ⟨r1, r2, r3, ((getSubtext_iff _ _ _ _).1 h1).1, ((getSubtext_iff _ _ _ _).1 h2).1, ((getSubtext_iff _ _ _ _).1 h3).1, ((getSubtext_iff _ _ _ _).1 h4).1⟩

/-- Whether the headword is written as it is used, by reading the line. -/
def regularCheck (line : List Byte) : Bool :=
  match lineFields (trimLine line) with
  | none => false
  | some (n, d, t, i, c) => !n.contains 64 && (getPostfix c).isSuffixOf (plainWord n) && (!i.contains 58 || decide (48 ≤ typeOf (d ++ 32 :: t) &&& 0x3f))

theorem regular_of {line : List Byte} (h : regularCheck line = true) : LineRegular line := by
  intro s n d t i c hs hf
  rw [← trimLine_iff] at hs
  rw [regularCheck, hs] at h
  cases hl : lineFields s with
  | none => rw [hl] at h; simp at h
  | some p =>
    obtain ⟨n', d', t', i', c'⟩ := p
    rw [hl] at h
    obtain ⟨rfl, rfl, rfl, rfl, rfl⟩ := RusFields_unique hf (lineFields_sound hl)
    simp only [Bool.and_eq_true, Bool.not_eq_true', Bool.or_eq_true, decide_eq_true_eq, List.isSuffixOf_iff_suffix] at h
    obtain ⟨⟨h1, h2⟩, h3⟩ := h
    refine ⟨by simpa using h1, fun post hp => ?_, fun hc pos plural hty => ?_⟩
    · rw [← (getPostfix_iff _ _).2 hp]; exact h2
    · rcases h3 with h3 | h3
      · simp at h3; exact absurd hc h3
      · have hw := typeBits_and (plural := plural) (TypeIs_pos hty).2.1
        have hnz : typeBits pos plural ≠ 0 := by
          have := (TypeIs_pos hty).1
          rw [typeBits]; omega
        rw [(typeOf_iff d t (RusFields_solid hf).2.1 _ hnz).2 ⟨pos, plural, hty, rfl⟩, hw] at h3
        exact h3

theorem headword_of {line n d t i c : List Byte} (h : lineFields (trimLine line) = some (n, d, t, i, c)) : Headword line (plainWord n) :=
  ⟨_, n, d, t, i, c, (trimLine_iff _ _).1 rfl, lineFields_sound h, rfl⟩

/-- The tables of the text. -/
theorem text_tables : HeadTables textSource ∧ HeadOnce textSource := by
  have hname : ∀ name t, textSource.endings name = some t → t ∈ [1, 31] := by
    intro name t h
    obtain ⟨p, hp, rfl, _⟩ := mapFind_some (show mapFind textTabs.findex name = some t from h)
    clear h
    have : ∀ p ∈ textTabs.findex, p.2 ∈ [1, 31] := by decide
    exact this p hp
  have hall : ∀ t ∈ [1, 31], ∀ e gr fl, Ending textSource.ftab t e gr fl → (e, (⟨gr, fl⟩ : FlexInfo)) ∈ (allEndings rusSampleFlex 3 t).getD [] := by
    intro t ht e gr fl he
    have hs : ∀ t ∈ [1, 31], (allEndings rusSampleFlex 3 t).isSome = true := by decide +kernel
    obtain ⟨l, hl⟩ := Option.isSome_iff_exists.1 (hs t ht)
    rw [hl, Option.getD_some]
    exact mem_allEndings he hl
  have c1 : ∀ t ∈ [1, 31], ∀ p ∈ (allEndings rusSampleFlex 3 t).getD [], p.2.flags &&& 3 ≠ 0 ∧ p.2.gramm % 128 ≠ 1 ∧ p.2.gramm ∉ [1, 0x200] := by decide +kernel
  have c2 : ∀ t ∈ [1, 31], ∀ p ∈ (allEndings rusSampleFlex 3 t).getD [], ∀ p' ∈ (allEndings rusSampleFlex 3 t).getD [],
      p.2.gramm ∈ [0, 0x200, 0x800, 1, 0x8001, 0x8200] → p.2.gramm = p'.2.gramm → p.1 = p'.1 := by decide +kernel
  refine ⟨⟨?_, ?_, ?_⟩, ?_⟩
  · intro name t h e gr fl he
    exact (c1 t (hname name t h) _ (hall t (hname name t h) e gr fl he)).1
  · intro name t h e gr fl he hg
    exact absurd hg (c1 t (hname name t h) _ (hall t (hname name t h) e gr fl he)).2.1
  · intro name t h q hq e e' fl fl' he
    exact absurd hq (c1 t (hname name t h) _ (hall t (hname name t h) e q fl he)).2.2
  · intro name t h q hq e e' fl fl' he he'
    exact c2 t (hname name t h) _ (hall t (hname name t h) e q fl he) _ (hall t (hname name t h) e' q fl' he') hq rfl

theorem text_arts : ((textResults.map fun r => (r.arts, r.unk)).map (·.1)).flatten = rusSample.arts := by decide +kernel

theorem text_lines : ∀ l ∈ textLines, 10 ∉ l ∧ 0 ∉ l ∧ l.length < 1022 ∧ LineFits l ∧ LineRegular l := by
  have h1 : ∀ l ∈ textLines, 10 ∉ l ∧ 0 ∉ l ∧ l.length < 1022 := by decide +kernel
  have h2 : ∀ l ∈ textLines, fitsCheck l = true ∧ regularCheck l = true := by decide +kernel
  intro l hl
  exact ⟨(h1 l hl).1, (h1 l hl).2.1, (h1 l hl).2.2, fits_of (h2 l hl).1, regular_of (h2 l hl).2⟩

/-- The hypotheses of `C61_recognized` and `C62_lemma_is_headword` are met by the text of C60: "Сон-то" is recognized, and every word is reported with
headwords of the text. -/
example : rusCheck (rusSampleState.images textTabs.mtab) [] (ru "сон-то") 0 = some 1 ∧
    ∀ u dwsets, u ≠ [] → u.length < 48 → (wordParts rusTab u).length ≤ 8 → dwsets &&& 0x100 = 0 →
      ∃ H, rusSample.Readings (rusAdmits u dwsets) (u.map rusTab.lower) H ∧ ∀ r ∈ H, ∃ line ∈ textLines, ∃ arts unk w,
        RusLineSays textSource lidNumber line arts unk ∧ r.art ∈ arts ∧ Headword line w := by
  have hlines : ∀ lines ∈ [textLines], ∀ l ∈ lines, 10 ∉ l ∧ 0 ∉ l ∧ l.length < 1022 ∧ LineFits l := by
    intro lines hl l hm
    rw [List.mem_singleton.1 hl] at hm
    obtain ⟨a, b, c, d, _⟩ := text_lines l hm
    exact ⟨a, b, c, d⟩
  have hok : RusOk rusSampleLetters (textSource.dict textTabs.mtab ((textResults.map fun r => (r.arts, r.unk)).map (·.1)).flatten) rusSampleState := by
    rw [text_arts]; exact rusSample_ok
  constructor
  · have hl : ru "со=н-то # м 1*b LID:44344 post:-то" ∈ [textLines].flatten := by decide +kernel
    have hsay : RusLineSays textSource lidNumber (ru "со=н-то # м 1*b LID:44344 post:-то") [⟨[241], 7, 1, 1, [45, 242, 238], 44344⟩] [] :=
      rusLine_sound (r := .articles [⟨[241], 7, 1, 1, [45, 242, 238], 44344⟩]) text_fit (by decide +kernel)
    have hw : Headword (ru "со=н-то # м 1*b LID:44344 post:-то") (ru "сон-то") := by
      have := headword_of (line := ru "со=н-то # м 1*b LID:44344 post:-то") (n := ru "со=н-то") (d := ru "#") (t := ru "м") (i := ru "1*b") (c := ru "LID:44344 post:-то") (by decide +kernel)
      rw [show plainWord (ru "со=н-то") = ru "сон-то" by decide +kernel] at this
      exact this
    refine (C61_recognized text_fit [textLines] hlines _ text_reads rusSampleState hok hl (text_lines _ (by simpa using hl)).2.2.2.2 hw hsay
      (List.mem_singleton.2 rfl) (by rintro ⟨h, _⟩; exact absurd h (by decide)) ?_).2 (ru "сон-то") [] 0 (by decide +kernel) (by decide +kernel) (by decide +kernel)
      (by decide +kernel) (by decide +kernel)
    rw [text_arts]
    intro a ha e b hb
    have h0 : ∀ a ∈ rusSample.arts, ru "сон-то" = a.stem ++ a.post → a.post = [] := by decide +kernel
    rw [h0 a ha e] at hb; simp at hb
  · intro u dwsets h1 h2 h3 h4
    obtain ⟨_, hC⟩ := C62_lemma_is_headword (A := rusSampleLetters) text_fit text_tables.1 text_tables.2 [textLines] hlines _ text_reads rusSampleState hok
      (by intro l hl; exact (text_lines l (by simpa using hl)).2.2.2.2)
      (by
        rw [text_arts]
        have : ∀ a ∈ rusSample.arts, ¬ (a.PluralOnly ∧ a.pos ∈ [7, 8, 9] ∧ a.mtoffs ≠ 0) := by decide
        exact this)
    obtain ⟨H, hH, F, hF, _⟩ := hC u dwsets h1 h2 h3 h4
    rw [text_arts] at hH
    refine ⟨H, hH, fun r hr => ?_⟩
    obtain ⟨line, hl, arts, unk, w, k1, k2, k3, _⟩ := hF r hr
    exact ⟨line, by simpa using hl, arts, unk, w, k1, k2, k3⟩

/-- **C61** refuted for masculine, plural-only nouns whose stem alternates: the headword "соны" is cut to "с" with the basic alternant "он", but its nominative
plural is written with the other one: "сны" is recognized, the headword is not. -/
theorem C61_counterexample_masc : (rusCompile textTabs id [fileOf [ru "соны мн. м 1*b LID:8"]]).bind (fun r =>
      (rusCheck (r.1.images textTabs.mtab) [] (ru "соны") 0).bind fun x => (rusCheck (r.1.images textTabs.mtab) [] (ru "сны") 0).map fun y => (x, y)) = some (0, 1) := by
  decide +kernel

/-- **C61** refuted for a suffix that does not stand at the end of the headword: it is not compared, only as many letters are cut off. -/
theorem C61_counterexample_suffix : (rusCompile textTabs id [fileOf [ru "стена # н - LID:8 post:-то"]]).bind (fun r =>
      (rusCheck (r.1.images textTabs.mtab) [] (ru "стена") 0).bind fun x => (rusCheck (r.1.images textTabs.mtab) [] (ru "ст-то") 0).map fun y => (x, y)) = some (0, 1) := by
  decide +kernel

/-- Table 1 with two endings of the nominative, "я" and "а". -/
def twiceTabs : RusTabs := ⟨[0, 0, 2, 3, 0, 0, 1, 255, 3, 0, 0, 1, 224], [(ru "ж 1", 1)], [0], []⟩

/-- **C62** needs one ending for a headword (`HeadOnce`): of two the alphabetically first is reported, here "семьа" for the headword "семья". -/
theorem C62_counterexample_twice : (rusCompile twiceTabs id [fileOf [ru "семья # ж 1 LID:8"]]).bind (fun r =>
      (rusLemmatize (r.1.images twiceTabs.mtab) [] (ru "семья") none (some (List.replicate 8 77)) none 0).map fun x => (x.1, x.2.forms.buf)) =
    some (1, some (ru "семьа" ++ [0, 0, 77])) := by
  decide +kernel

end Libmorph
