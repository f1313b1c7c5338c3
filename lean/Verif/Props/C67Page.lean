import Verif.Props.C86Page
import Verif.Props.C65Page
/-
C67: the Python class over the probabilistic analyser in another code page; it works in UTF-8.
-/
namespace Libmorph
open Libmorph.Spec

variable {ω : Type} [LinearOrder ω]

/-- **C67** The list Python gets in the code page the library was opened with, UTF-8 for example (`C87_utf8_ok`).  When the lemmas are at most 32, each with less
than 64 letters, and the descriptions, if wanted, at most 512: with SF_NO_LEMMA_STRING the list of 1251; without, the same lemmas, weights and descriptions, the dictionary
forms converted, the stems measured in the page, the greater weight first, or an empty list when the converted forms do not fit into the 2048 bytes.  Otherwise an empty list.
Missing: the limits of `C39_report_partial`; converted forms that take the 2048 bytes to the last. -/
theorem C67_code_page_partial (Q : FuzzyPage) (enc : Byte → List Byte) (known : Byte → Prop) (R : FuzzyRank ω) (L : FuzzyLang)
    (hL : L = rusFuzzy ∨ L = engFuzzy) (hQ : Q.Ok L.tab enc known)
    (cs : List FuzzyClass) (hok : FuzzyOk R L cs) (t : PTree) (ht : t.WF) (hh : t.Holds (fuzzyMap cs)) (w : List Byte)
    (hw : Text w) (hk : ∀ b ∈ w, known b) (hlen : w.length < 256) (hparts : (wordParts L.tab w).length ≤ 8)
    (sort : List (FuzzyStem ω) → List (FuzzyStem ω))
    (hsort : ∀ l, (sort l).Perm l ∧ (sort l).Pairwise fun a b => b.weight ≤ a.weight)
    (b : Byte) (bf junk : List Byte) (lx : List (FuzzyStem ω)) (st : List Byte) (gr : List Gram) (dwsets s : Nat)
    (hset : s = if dwsets &&& 2 ≠ 0 then 2 else 0)
    (h32 : lx.length = 32) (hst : st.length = 2048) (hgr : gr.length = 512)
    (xs : List FuzzyLemma) (hxs : xs = fuzzyLemmas (fuzzyFits L w s) cs (w.map L.tab.lower))
    (hj : ∀ x ∈ xs, x.ccstem + (classOf cs x.cls).normal.length < 64 → FuzzyStops L junk (x.ccstem + (classOf cs x.cls).normal.length)) :
    let answer := pyStems (fun o p g f => fuzzyLemmatizeIn Q L (fuzzyImages cs t) R sort (b :: bf) junk (inPage enc w) o p g f) lx st gr dwsets
    let room := (packed (xs.map fun x => inPage enc (fuzzyText L cs (w.map L.tab.lower) x))).length
    let few := xs.length ≤ 32 ∧ (∀ x ∈ xs, x.ccstem + (classOf cs x.cls).normal.length < 64) ∧ (dwsets &&& 8 = 0 → (fuzzyGrams cs xs).length ≤ 512)
    (dwsets &&& 4 ≠ 0 →
      answer = pyStems (fun o p g f => fuzzyLemmatize L (fuzzyImages cs t) R sort (b :: bf) junk w o p g f) lx st gr dwsets) ∧
    (dwsets &&& 4 = 0 →
      (few → room < 2048 → ∃ ls, answer = some ls ∧
        ls.Perm (xs.map (fuzzyLexemeIn (inPage enc) R L cs (w.map L.tab.lower) (dwsets &&& 8 = 0))) ∧ ls.Pairwise fun a b => b.weight ≤ a.weight) ∧
      (¬ few ∨ 2048 < room → answer = some [])) := by
  intro answer room few
  have e3 : pySettings dwsets = s := hset.symm
  constructor
  · intro h4
    have e1 : pyStrings dwsets st = none := by rw [pyStrings, if_neg h4]
    simp only [answer, pyStems, e1, C87_no_buffer hQ.page (fuzzyImages cs t) R sort (b :: bf) junk w hk hlen]
  intro h4
  have e1 : pyStrings dwsets st = some st := by rw [pyStrings, if_pos h4]
  have hG8 : ∀ G, pyGrams dwsets gr = some G → dwsets &&& 8 = 0 ∧ G = gr := by
    intro G hG
    rw [pyGrams] at hG
    split at hG
    · rename_i h; cases hG; exact ⟨h, rfl⟩
    · cases hG
  have b8 : (pyGrams dwsets gr).isSome = decide (dwsets &&& 8 = 0) := by rw [pyGrams]; split <;> simp_all
  have hfewG : few ↔ xs.length ≤ 32 ∧ (∀ x ∈ xs, x.ccstem + (classOf cs x.cls).normal.length < 64) ∧
      ∀ G, pyGrams dwsets gr = some G → (fuzzyGrams cs xs).length ≤ G.length := by
    simp only [few]
    refine and_congr_right fun _ => and_congr_right fun _ => ⟨fun h G hG => ?_, fun h h8 => ?_⟩
    · obtain ⟨h8, rfl⟩ := hG8 G hG
      rw [hgr]; exact h h8
    · rw [← hgr]; exact h gr (by rw [pyGrams, if_pos h8])
  rw [hfewG]
  clear hfewG few
  have eans : answer = (fuzzyLemmatizeIn Q L (fuzzyImages cs t) R sort (b :: bf) junk (inPage enc w) (some lx) (some st) (pyGrams dwsets gr) s).bind
      fun r => readStems r.1.toNat r.2.1 r.2.2 := by
    simp only [answer, pyStems, e1, e3]; rfl
  generalize pyGrams dwsets gr = Gr at *
  have hnil : sort [] = [] := List.Perm.eq_nil (hsort []).1
  have same := C87_lemmatize hQ (fuzzyImages cs t) R sort hnil (b :: bf) junk w hk hlen (some lx) Gr s
  have refused : ∀ e o st', fuzzyLemmatizeIn Q L (fuzzyImages cs t) R sort (b :: bf) junk (inPage enc w) (some lx) (some st) Gr s =
      some (e, o, st') → e < 0 → answer = some [] := by
    intro e o st' k1 k2
    rw [eans, k1]
    simp only [Option.bind_some, readStems, show e.toNat = 0 by omega, Nat.zero_le, if_true]
    rfl
  have hz : ∀ x, 0 ∉ fuzzyText L cs (w.map L.tab.lower) x := fun x => fuzzyText_zero hL hok (fuzzyLower_text hL hw) x
  by_cases hfew : ¬ (xs.length ≤ 32 ∧ (∀ x ∈ xs, x.ccstem + (classOf cs x.cls).normal.length < 64) ∧ ∀ G, Gr = some G → (fuzzyGrams cs xs).length ≤ G.length)
  · refine ⟨fun h => absurd h hfew, fun _ => ?_⟩
    obtain ⟨e, o, s', k1, k2⟩ := same.errors (fun B => by
      obtain ⟨e, s', k1, k2⟩ := C39_refused_partial R L hL cs hok t ht hh w hw hlen hparts sort (fun l => (hsort l).1) b bf junk lx
        (some B) Gr s xs hxs (fun _ => hj) (by
          by_cases hc : xs.length ≤ 32
          · exact .inl fun h => hfew ⟨hc, h.words rfl, h.grams⟩
          · exact .inr (by rw [h32]; omega))
      exact ⟨e, _, s', k1, by omega⟩) st
    exact refused e o s' k1 k2
  obtain ⟨hcount, hwords, hgrams⟩ := Decidable.not_not.1 hfew
  -- the native analyser, with room enough
  have native : ∀ B : List Byte, (fuzzyTexts L cs (w.map L.tab.lower) xs).length < B.length →
      ∃ stems s', fuzzyLemmatize L (fuzzyImages cs t) R sort (b :: bf) junk w (some lx) (some B) Gr s =
        some ((xs.length : Int), some (stems ++ lx.drop xs.length), s') ∧ stems.length = xs.length ∧
      ∃ xs', xs'.Perm xs ∧ List.Forall₂ (FuzzySays R L cs (w.map L.tab.lower) s'.forms.buf s'.grams) stems xs' ∧ s'.grams.isSome = Gr.isSome := by
    intro B hB
    obtain ⟨stems, s', k1, k2, -, ⟨ys, k4, k5⟩, -, k7⟩ := C39_report_partial R L hL cs hok t ht hh w hw hlen hparts sort hsort b bf junk lx
      (some B) Gr s xs hxs (fun _ x hx => hj x hx (hwords x hx))
      ⟨by omega, fun _ => hwords, fun B' hB' _ => by cases hB'; exact hB, hgrams⟩ (by omega)
    exact ⟨stems, s', k1, k2, ys, k4, k5, by have := congrArg Option.isSome k7; simpa using this⟩
  obtain ⟨stems0, s0, n1, -, -⟩ := native (List.replicate ((fuzzyTexts L cs (w.map L.tab.lower) xs).length + 1) 0) (by simp)
  obtain ⟨zs, ts, hG, hlts, -, hst', -, hall, hpage⟩ := same.there _ _ _ _ n1 (by omega)
  have hlts : ts.length = xs.length := by omega
  simp only [List.length_replicate] at hst'
  have hT : (packed ts).length ≤ (fuzzyTexts L cs (w.map L.tab.lower) xs).length := by
    by_cases h0 : ts = []
    · simp [h0, packed]
    · have := hst' h0; omega
  obtain ⟨stems, s1, m1, m2, xs', m3, m4, m5⟩ := native (List.replicate ((fuzzyTexts L cs (w.map L.tab.lower) xs).length + 1) 7) (by simp)
  obtain ⟨s', a1, a2, a3⟩ := hall (List.replicate ((fuzzyTexts L cs (w.map L.tab.lower) xs).length + 1) 7) (by simp; omega)
  rw [m1] at a1
  simp only [Option.some.injEq, Prod.mk.injEq, Option.map_some] at a1
  obtain ⟨-, a1, rfl⟩ := a1
  obtain ⟨a1, -⟩ := List.append_inj a1 (by
    rw [m2, (hsort _).1.length_eq, List.length_map, hG.1, hlts])
  rw [a2, a1] at m4
  obtain ⟨xs2, m6, m7⟩ := List.perm_comp_forall₂ (hsort _).1.symm m4
  have hperm : xs2.Perm xs := m7.trans m3
  rw [List.forall₂_map_left_iff] at m6
  -- the texts
  have hroomB : (packed ts).length < (List.replicate ((fuzzyTexts L cs (w.map L.tab.lower) xs).length + 1) 7).length := by simp; omega
  have hlen2 : ts.length = xs2.length := by rw [hlts, hperm.length_eq]
  have hts : ts = xs2.map (fuzzyText L cs (w.map L.tab.lower)) := by
    apply texts_eq_of_room
    · rw [List.forall₂_iff_get]
      refine ⟨hlen2, fun i hi hi2 => ?_⟩
      have hiz : i < zs.length := by rw [hG.1]; exact hi
      have hs := (List.forall₂_iff_get.1 m6).2 i hiz hi2
      obtain ⟨o, p1, p2⟩ := hs.text _ rfl
      obtain ⟨q1, -⟩ := hG.2 i (zs.get ⟨i, hiz⟩) (by simp)
      obtain ⟨r, hr⟩ := filled_drop hroomB hi
      simp only [guessRecord, q1, Option.map_some, List.map_id, Option.some.injEq, id, List.map_id'] at p1
      rw [← p1, hr] at p2
      obtain ⟨z, hz2⟩ := p2
      refine prefix_of_zero (r := r) (z := z) (hz _) ?_
      simpa using hz2
    · rw [← fuzzyTexts_packed, fuzzyTexts_packed, packed_perm_length (hperm.map _), ← fuzzyTexts_packed]
      exact hT
  have hroom : (packed (ts.map (inPage enc))).length = room := by
    rw [hts, List.map_map]
    exact packed_perm_length (hperm.map _)
  constructor
  · intro _ hr
    rw [← hroom, ← hst] at hr
    obtain ⟨st', b1, b2, b3⟩ := (hpage st).1 hr
    rw [← a3] at b3
    have hsays : List.Forall₂ (fun z x => readStem (some (filled st (ts.map (inPage enc)))) s1.grams z =
          some (fuzzyLexemeIn (inPage enc) R L cs (w.map L.tab.lower) (dwsets &&& 8 = 0) x) ∧ z.weight = fuzzyWeight R cs (w.map L.tab.lower) x)
        (zs.map (guessRecord (inPage enc) ts)) xs2 := by
      rw [List.forall₂_map_left_iff, List.forall₂_iff_get]
      refine ⟨by rw [hG.1, hlen2], fun i hi hi2 => ?_⟩
      have hs := (List.forall₂_iff_get.1 m6).2 i hi hi2
      have hit : i < ts.length := by omega
      obtain ⟨q1, q2⟩ := hG.2 i (zs.get ⟨i, hi⟩) (by simp)
      have q2 := q2 ts[i] (List.getElem?_eq_getElem hit)
      obtain ⟨r, hr⟩ := filled_drop hr (i := i) (by simpa using hit)
      refine ⟨?_, hs.weight⟩
      have hn := readStem_says hs (hz _)
      simp only [readStem, bind, Option.bind_eq_some_iff, pure, Option.some.injEq] at hn ⊢
      obtain ⟨u, hu, y, hy, hxy⟩ := hn
      have hti : ts[i] = fuzzyText L cs (w.map L.tab.lower) (xs2.get ⟨i, hi2⟩) := by simp [hts]
      refine ⟨some (inPage enc ts[i]), ?_, y, hy, ?_⟩
      · simp only [guessRecord, q1, Option.map_some, Option.getD_some, readStemText, List.map_take]
        rw [hr, cstring_zero]
        · simp
        · simp only [List.getElem_map]
          rw [hti]
          exact enc_text_zero hQ.page (hz _)
      · have hcc := hs.ccstem
        have hD : ts.getD i [] = ts[i] := by rw [List.getD_eq_getElem?_getD, List.getElem?_eq_getElem hit]; rfl
        simp only [guessRecord, q1, Option.getD_some, hD, id, List.length_take] at hcc
        rw [Nat.min_eq_left q2] at hcc
        simp only [fuzzyLexeme, fuzzyLexemeIn, FuzzyLexeme.mk.injEq] at hxy ⊢
        refine ⟨?_, hxy.2.1, hxy.2.2.1, by rw [hti], ?_⟩
        · simp only [guessRecord, q1, Option.getD_some, hD]
          rw [hcc, hti]
        · rw [hxy.2.2.2.2, m5, b8]
    obtain ⟨ys, c1, c2⟩ := List.perm_comp_forall₂ (hsort (zs.map (guessRecord (inPage enc) ts))).1 hsays
    have hyp : ys.Perm xs := c2.trans hperm
    have hm := mapM_of_forall₂ (f := readStem (some (filled st (ts.map (inPage enc)))) s1.grams)
      (k := fuzzyLexemeIn (inPage enc) R L cs (w.map L.tab.lower) (dwsets &&& 8 = 0)) (fun _ _ h => h.1) c1
    have k2 : (sort (zs.map (guessRecord (inPage enc) ts))).length = xs.length := by
      rw [(hsort _).1.length_eq, List.length_map, hG.1, hlts]
    refine ⟨_, ?_, hyp.map _, ?_⟩
    · rw [eans, b1]
      simp only [Option.bind_some, readStems, Option.map_some, Option.getD_some, Int.toNat_natCast, b2, b3, hlts]
      rw [if_pos (by simp [k2]), List.take_left' k2]
      exact hm
    · rw [List.pairwise_map]
      have : ∀ (l : List (FuzzyStem ω)) (m : List FuzzyLemma), List.Forall₂ (fun z x => readStem (some (filled st (ts.map (inPage enc)))) s1.grams z =
            some (fuzzyLexemeIn (inPage enc) R L cs (w.map L.tab.lower) (dwsets &&& 8 = 0) x) ∧ z.weight = fuzzyWeight R cs (w.map L.tab.lower) x) l m →
          l.Pairwise (fun a b => b.weight ≤ a.weight) →
          m.Pairwise fun a b => fuzzyWeight R cs (w.map L.tab.lower) b ≤ fuzzyWeight R cs (w.map L.tab.lower) a := by
        intro l m hl
        induction hl with
        | nil => intro _; exact .nil
        | cons hd htl ih =>
          intro hp
          rw [List.pairwise_cons] at hp ⊢
          refine ⟨fun y hy => ?_, ih hp.2⟩
          obtain ⟨z, hz1, hz2⟩ := forall₂_mem_right htl hy
          rw [← hz2.2, ← hd.2]
          exact hp.1 z hz1
      exact this _ _ c1 (hsort _).2
  · intro hr
    have hr := hr.resolve_left hfew
    rw [← hroom, ← hst] at hr
    obtain ⟨o, st', k1⟩ := (hpage st).2 hr
    exact refused _ _ _ k1 (by decide)

/-- "столов" from Python in UTF-8: the dictionary forms in UTF-8, the stems of four and six letters take eight and twelve bytes; without the strings the stems are counted
in letters. -/
example : ((pyStems (fun o p g f => fuzzyLemmatizeIn utf8Fuzzy rusFuzzy (fuzzyImages fuzzySample fuzzySampleTree) sampleRank sampleSort [0] (List.replicate 64 0)
      (inPage utf8Enc stolov) o p g f) (List.replicate 32 ⟨none, 0, 0, none, 0, 0⟩) (List.replicate 2048 1) (junkGrams 512) 2).map fun l => l.map fun x => (x.ccstem, x.text.isSome)) =
        some [(8, true), (12, true)] ∧
    ((pyStems (fun o p g f => fuzzyLemmatizeIn utf8Fuzzy rusFuzzy (fuzzyImages fuzzySample fuzzySampleTree) sampleRank sampleSort [0] (List.replicate 64 0)
      (inPage utf8Enc stolov) o p g f) (List.replicate 32 ⟨none, 0, 0, none, 0, 0⟩) (List.replicate 2048 1) (junkGrams 512) 6).map fun l => l.map fun x => (x.ccstem, x.text.isSome)) =
        some [(4, false), (6, false)] := by
  constructor
  all_goals
    simp only [pyStems]
    rw [fuzzyLemmatizeIn, fuzzyCanonicIn_eq (P := utf8Fuzzy.page) utf8Page_ok stolov (by decide) (by decide)]
    decide +kernel

/-- **C67** The forms of a stem in C++ and Python in the code page the library was opened with: the endings of the form number appended to the stem, in
their order, converted, when they fit into the buffer; when not, none; when a form is longer than 64 letters, or there is no such class, none.
Missing: converted forms that take the buffer to the last byte. -/
theorem C67_code_page_forms_partial {P : Page} {enc : Byte → List Byte} {known : Byte → Prop} (hP : P.Ok enc known) (R : FuzzyRank ω) (L : FuzzyLang)
    (hL : L = rusFuzzy ∨ L = engFuzzy) (cs : List FuzzyClass) (hok : FuzzyOk R L cs) (t : PTree) (stem : List Byte) (hw : Text stem)
    (hk : ∀ b ∈ stem, known b) (hne : stem ≠ []) (hlen : stem.length < 256) (hparts : (wordParts L.tab stem).length ≤ 8) (junk buffer : List Byte)
    (hB : buffer ≠ []) (i form : Nat) :
    let answer := wrapForms (fun b => fuzzyBuildFormIn P L (fuzzyImages cs t) junk (some b) (inPage enc stem) i form) buffer
    (∀ c, cs[i]? = some c → (c.flexes.map (·.1)).Pairwise (· ≤ ·) → ∀ fs : List (List Byte),
      fs = ((c.flexes.filter (·.1 = form)).map fun f => L.printed (pspMinCap c.partSp) (stem.map L.tab.lower ++ f.2)) →
      (∀ e ∈ c.endings form, stem.length + e.length ≤ 64 → FuzzyStops L junk (stem.length + e.length)) →
      ((∀ e ∈ c.endings form, stem.length + e.length ≤ 64) → (packed (fs.map (inPage enc))).length < buffer.length → answer = some (fs.map (inPage enc))) ∧
      ((∀ e ∈ c.endings form, stem.length + e.length ≤ 64) → buffer.length < (packed (fs.map (inPage enc))).length → answer = some []) ∧
      ((¬ ∀ e ∈ c.endings form, stem.length + e.length ≤ 64) → ∀ ls, answer = some ls → ls = [])) ∧
    (cs.length ≤ i → answer = some []) := by
  intro answer
  have hsame := C87_build_form (L := L) hP (fuzzyImages cs t) junk stem hk hlen i form
  refine ⟨fun c hc hs fs hfs hj => ?_, fun hi => ?_⟩
  · have hfs' : fs = fuzzyForms L c (stem.map L.tab.lower) form := by
      rw [hfs, fuzzyForms, FuzzyClass.endings, List.map_map]; rfl
    have hz : zeroed fs = packed fs := by simp [zeroed, packed, List.flatMap_def]
    refine wrapForms_page hP hsame (fun B hBn => ?_) (fun f hf => ?_) buffer hB
    · obtain ⟨h1, h2⟩ := fuzzyBuildForm_exact hL hok t hw hne hlen hparts junk B hBn i c hc hs form fs hfs' hj
      rw [hz] at h1 h2
      refine ⟨fun h0 hsc => ?_, fun h0 hsc hr => ?_, fun hn => ?_⟩
      · obtain ⟨tail, k1, -, k3, -⟩ := h1 ⟨hsc, fun h => absurd h0 h⟩
        rw [k1, k3 h0, h0]; rfl
      · obtain ⟨tail, k1, -, -, k4⟩ := h1 ⟨hsc, fun _ => hr⟩
        rw [k1, k4 h0]
      · obtain ⟨e, out, k1, k2⟩ := h2 fun h => hn h.1
        refine ⟨e, out, k1, ?_⟩
        simp only [LEMMBUFF_FAILED, WORDBUFF_FAILED, List.mem_cons, List.not_mem_nil, or_false] at k2
        omega
    · rw [hfs] at hf
      obtain ⟨e, he, rfl⟩ := List.mem_map.1 hf
      refine Text.zero (FuzzyLang.printed_text hL _ (pspMinCap_le _) _ (Text.append (fuzzyLower_text hL hw) ?_))
      exact hok.text c (List.mem_of_getElem? hc) e (List.mem_filter.1 he).1
  · have h3 := ((C52_class cs t hok.flexes i).2 hi).2.2 L junk (some buffer) stem form hparts hL
    obtain ⟨C', k⟩ := hsame.refused buffer _ _ hB h3 (by decide) (by decide) buffer hB
    show wrapForms _ buffer = _
    rcases k with k | k <;> · simp only [wrapForms, k, bind, Option.bind_some]; rfl

/-- **C67** A lexeme delivered in another code page goes back to the word: its stem is the first `ccstem` bytes of its text, converted, and the forms built
from that, with the form number of one of its descriptions, contain the word (with the capitals of the part of speech), converted. -/
theorem C67_code_page_round_trip_partial {P : Page} {enc : Byte → List Byte} {known : Byte → Prop} (hP : P.Ok enc known) (R : FuzzyRank ω) (L : FuzzyLang)
    (hL : L = rusFuzzy ∨ L = engFuzzy) (cs : List FuzzyClass) (hok : FuzzyOk R L cs) (t : PTree) (w : List Byte) (hw : Text w)
    (hl : ∀ c ∈ w, L.tab.ctype c ≠ ctInvalid) (hlen : w.length < 256) (hparts : (wordParts L.tab w).length ≤ 8) (dwsets : Nat) (x : FuzzyLemma)
    (hx : x ∈ fuzzyLemmas (fuzzyFits L w dwsets) cs (w.map L.tab.lower))
    (hn : ∀ c ∈ (classOf cs x.cls).normal, L.tab.ctype c ≠ ctInvalid)
    (hk : ∀ c ∈ (fuzzyText L cs (w.map L.tab.lower) x).take x.ccstem, known c)
    (lexeme : FuzzyLexeme ω) (hlex : lexeme = fuzzyLexemeIn (inPage enc) R L cs (w.map L.tab.lower) true x)
    (g : Gram) (hg : ∃ gs, lexeme.grams = some gs ∧ g ∈ gs)
    (hs : ((classOf cs x.cls).flexes.map (·.1)).Pairwise (· ≤ ·)) (junk buffer : List Byte) (hB : buffer ≠ [])
    (hj : ∀ e ∈ (classOf cs x.cls).endings g.idForm, FuzzyStops L junk (x.ccstem + e.length))
    (hfit : ∀ e ∈ (classOf cs x.cls).endings g.idForm, x.ccstem + e.length ≤ 64)
    (hroom : (packed ((fuzzyForms L (classOf cs x.cls) ((w.map L.tab.lower).take x.ccstem) g.idForm).map (inPage enc))).length < buffer.length) :
    ∃ text, lexeme.text = some text ∧ lexeme.ccstem ≤ text.length ∧
      ∃ fs, wrapForms (fun b => fuzzyBuildFormIn P L (fuzzyImages cs t) junk (some b) (text.take lexeme.ccstem) lexeme.nclass g.idForm) buffer = some fs ∧
        inPage enc (L.printed (pspMinCap (classOf cs x.cls).partSp) (w.map L.tab.lower)) ∈ fs := by
  obtain ⟨r, hr, hgr⟩ : ∃ r ∈ x.refs, r.form = g.idForm := lexeme_ref (cs := cs) (by rw [hlex, fuzzyLexemeIn]; simp) g hg
  rw [← hgr] at hj hfit hroom ⊢
  obtain ⟨h1, q5, q4, q6, q7, q8, hparts', q3, hmem⟩ := lemma_stem L hL cs hok w hw hl hlen hparts dwsets x hx hn r hr
  have hsplit : inPage enc (fuzzyText L cs (w.map L.tab.lower) x) = inPage enc ((fuzzyText L cs (w.map L.tab.lower) x).take x.ccstem) ++
      inPage enc ((fuzzyText L cs (w.map L.tab.lower) x).drop x.ccstem) := by
    conv_lhs => rw [← List.take_append_drop x.ccstem (fuzzyText L cs (w.map L.tab.lower) x)]
    simp only [inPage, List.flatMap_append]
  have hfs := ((C67_code_page_forms_partial hP R L hL cs hok t _ q5 hk (by intro h; rw [h] at q4; simp at q4; omega)
    (by rw [q4]; omega) hparts' junk buffer hB x.cls r.form).1 _ h1 hs _ rfl
    (by intro e he _; rw [q4]; exact hj e he)).1 (by intro e he; rw [q4]; exact hfit e he)
  have hF : (((classOf cs x.cls).flexes.filter (·.1 = r.form)).map fun f => L.printed (pspMinCap (classOf cs x.cls).partSp)
      (((fuzzyText L cs (w.map L.tab.lower) x).take x.ccstem).map L.tab.lower ++ f.2)) =
      fuzzyForms L (classOf cs x.cls) ((w.map L.tab.lower).take x.ccstem) r.form := by
    rw [q3, fuzzyForms, FuzzyClass.endings, List.map_map]; rfl
  rw [hF] at hfs
  refine ⟨_, by rw [hlex, fuzzyLexemeIn], ?_, _, ?_, List.mem_map_of_mem hmem⟩
  · rw [hlex, fuzzyLexemeIn, hsplit, List.length_append]; exact Nat.le_add_right _ _
  · rw [hlex, fuzzyLexemeIn, hsplit]
    simp only [List.take_left]
    exact hfs hroom

/-- BuildForm in UTF-8: "столов", for a stem of four letters and eight bytes. -/
example : wrapForms (fun b => fuzzyBuildFormIn utf8Fuzzy.page rusFuzzy (fuzzyImages fuzzySample fuzzySampleTree) (List.replicate 64 0) (some b)
      (inPage utf8Enc [241, 242, 238, 235]) 0 7) (List.replicate 20 1) = some [inPage utf8Enc [241, 242, 238, 235, 238, 226]] ∧
    wrapForms (fun b => fuzzyBuildFormIn utf8Fuzzy.page rusFuzzy (fuzzyImages fuzzySample fuzzySampleTree) (List.replicate 64 0) (some b)
      (inPage utf8Enc [241, 242, 238, 235]) 0 7) (List.replicate 12 1) = some [] := by
  constructor
  all_goals
    simp only [wrapForms]
    rw [fuzzyBuildFormIn, fuzzyCanonicIn_eq (P := utf8Fuzzy.page) utf8Page_ok [241, 242, 238, 235] (by decide) (by decide)]
    decide +kernel

/-- The hypotheses of `C67_code_page_round_trip_partial` are met by "Столов" in UTF-8, as the genitive plural of the first class: the stem "стол" takes eight bytes, and
the forms built from it contain "столов". -/
example : ∃ fs, wrapForms (fun b => fuzzyBuildFormIn utf8Page rusFuzzy (fuzzyImages fuzzySample fuzzySampleTree) (List.replicate 64 0) (some b)
      (inPage utf8Enc [241, 242, 238, 235]) 0 7) (List.replicate 20 1) = some fs ∧ inPage utf8Enc [241, 242, 238, 235, 238, 226] ∈ fs := by
  have hx : (⟨4, 0, [⟨0, 40, 7⟩]⟩ : FuzzyLemma) ∈ fuzzyLemmas (fuzzyFits rusFuzzy stolov 2) fuzzySample (stolov.map rusTab.lower) := by decide +kernel
  obtain ⟨text, h1, -, fs, h2, h3⟩ := C67_code_page_round_trip_partial utf8Page_ok sampleRank rusFuzzy (.inl rfl) fuzzySample fuzzySample_ok fuzzySampleTree stolov
    (by unfold Text; decide) (by decide +kernel) (by decide) (by decide) 2 _ hx (by decide) (by decide +kernel) _ rfl ⟨7, 7, 0, 0⟩ ⟨_, rfl, by decide +kernel⟩ (by decide)
    (List.replicate 64 0) (List.replicate 20 1) (by decide)
    (fun e he _ => ⟨0, by
      have : ∀ e ∈ (classOf fuzzySample 0).endings 7, 4 + e.length < 64 := by decide
      have := this e he
      show 0 ∈ (List.replicate 64 0).drop (4 + e.length)
      rw [List.drop_replicate, List.mem_replicate]
      exact ⟨by omega, rfl⟩, .inl rfl⟩) (by decide) (by decide +kernel)
  have ht : text = inPage utf8Enc [241, 242, 238, 235] := by
    have : (some text : Option (List Byte)) = some (inPage utf8Enc [241, 242, 238, 235]) := by rw [← h1]; decide +kernel
    simpa using this
  subst ht
  refine ⟨fs, ?_, ?_⟩
  · rw [← h2]; rfl
  · exact h3

end Libmorph
