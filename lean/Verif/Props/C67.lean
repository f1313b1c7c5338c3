import Verif.Props.C65
import Verif.Props.C53
import Verif.Lemmas.TfcImage
/-
C67: the C++ wrappers and the Python classes over the probabilistic analysers.
-/
namespace Libmorph
open Libmorph.Spec

variable {ω : Type}

theorem splitForms_zeroed (fs : List (List Byte)) (rest : List Byte) (h : ∀ f ∈ fs, 0 ∉ f) :
    splitForms fs.length (zeroed fs ++ rest) = some fs := by
  induction fs with
  | nil => rfl
  | cons f fs ih =>
    have e : zeroed (f :: fs) ++ rest = f ++ 0 :: (zeroed fs ++ rest) := by simp [zeroed]
    rw [e, List.length_cons, splitForms, cstring_zero (h f (by simp))]
    simp only [bind, Option.bind_some]
    rw [show f ++ 0 :: (zeroed fs ++ rest) = (f ++ [0]) ++ (zeroed fs ++ rest) by simp, List.drop_left' (by simp),
      ih fun x hx => h x (by simp [hx])]
    rfl

theorem readStem_says {R : FuzzyRank ω} {L : FuzzyLang} {cs : List FuzzyClass} {w : List Byte} {B : Option (List Byte)}
    {G : Option (List Gram)} {s : FuzzyStem ω} {x : FuzzyLemma} (h : FuzzySays R L cs w B G s x) (hz : 0 ∉ fuzzyText L cs w x) :
    readStem B G s = some (fuzzyLexeme R L cs w B.isSome G.isSome x) := by
  have h1 : readStemText (B.getD []) s.plemma
      = some (if B.isSome then some (fuzzyText L cs w x) else none) := by
    cases B with
    | none => simp [h.noText rfl, readStemText]
    | some b =>
      obtain ⟨o, h1, t, h2⟩ := h.text b rfl
      simp only [h1, Option.getD_some, readStemText]
      rw [← h2, List.append_assoc, List.singleton_append, cstring_zero hz]
      rfl
  have h2 : readPyGrams (G.getD []) (s.pgrams.getD 0) s.ngrams
      = some (if G.isSome ∧ x.refs ≠ [] then some (x.refs.map fun r => ⟨(classOf cs x.cls).partSp, r.form, 0, 0⟩) else none) := by
    cases G with
    | none => simp [readPyGrams, (h.noGrams rfl).2]
    | some g =>
      obtain ⟨o, h1, h2, h3, h4⟩ := h.grams g rfl
      simp only [h1, Option.getD_some, readPyGrams, if_pos h3, h4]
      by_cases h0 : x.refs = []
      · simp [h2, h0]
      · simp [h2, h0]
  simp only [readStem, h1, h2, bind, Option.bind_some]
  simp [fuzzyLexeme, h.ccstem, h.nclass, h.weight]

section
variable [LinearOrder ω]

/-- What both interfaces read off a successful call. -/
theorem readStems_report (R : FuzzyRank ω) (L : FuzzyLang) (hL : L = rusFuzzy ∨ L = engFuzzy)
    (cs : List FuzzyClass) (hok : FuzzyOk R L cs) (t : PTree) (ht : t.WF) (hh : t.Holds (fuzzyMap cs)) (w : List Byte)
    (hw : Text w) (hlen : w.length < 256) (hparts : (wordParts L.tab w).length ≤ 8)
    (sort : List (FuzzyStem ω) → List (FuzzyStem ω))
    (hsort : ∀ l, (sort l).Perm l ∧ (sort l).Pairwise fun a b => b.weight ≤ a.weight)
    (b : Byte) (bf junk : List Byte) (out : List (FuzzyStem ω)) (pforms : Option (List Byte)) (pgrams : Option (List Gram))
    (dwsets : Nat) (xs : List FuzzyLemma) (hxs : xs = fuzzyLemmas (fuzzyFits L w dwsets) cs (w.map L.tab.lower))
    (hj : pforms.isSome → ∀ x ∈ xs, FuzzyStops L junk (x.ccstem + (classOf cs x.cls).normal.length))
    (hroom : FuzzyRoom L cs (w.map L.tab.lower) pforms pgrams xs) (hout : xs.length ≤ out.length) :
    ∃ n stems st ls, fuzzyLemmatize L (fuzzyImages cs t) R sort (b :: bf) junk w (some out) pforms pgrams dwsets = some (n, stems, st) ∧
      0 ≤ n ∧ readStems n.toNat stems st = some ls ∧
      ls.Perm (xs.map (fuzzyLexeme R L cs (w.map L.tab.lower) pforms.isSome pgrams.isSome)) ∧
      ls.Pairwise fun a b => b.weight ≤ a.weight := by
  obtain ⟨stems, st, h1, h2, h3, ⟨xs', h4, h5⟩, h6, h7⟩ := C39_report_partial R L hL cs hok t ht hh w hw hlen hparts sort hsort b bf junk out
    pforms pgrams dwsets xs hxs hj hroom hout
  have i1 : st.forms.buf.isSome = pforms.isSome := by have := congrArg Option.isSome h6; simpa using this
  have i2 : st.grams.isSome = pgrams.isSome := by have := congrArg Option.isSome h7; simpa using this
  have hm := mapM_of_forall₂ (f := readStem st.forms.buf st.grams)
    (k := fuzzyLexeme R L cs (w.map L.tab.lower) st.forms.buf.isSome st.grams.isSome)
    (fun s x hs => readStem_says hs (fuzzyText_zero hL hok (fuzzyLower_text hL hw) x)) h5
  rw [i1, i2] at hm
  refine ⟨_, _, _, _, h1, Int.natCast_nonneg _, ?_, h4.map _, ?_⟩
  · simp only [readStems, Option.getD_some, Int.toNat_natCast]
    rw [if_pos (by simp [h2]), List.take_left' h2]
    exact hm
  · rw [List.pairwise_map]
    have : ∀ (l : List (FuzzyStem ω)) (m : List FuzzyLemma), List.Forall₂ (FuzzySays R L cs (w.map L.tab.lower) st.forms.buf st.grams) l m →
        l.Pairwise (fun a b => b.weight ≤ a.weight) →
        m.Pairwise fun a b => fuzzyWeight R cs (w.map L.tab.lower) b ≤ fuzzyWeight R cs (w.map L.tab.lower) a := by
      intro l m hl
      induction hl with
      | nil => intro _; exact .nil
      | cons hd htl ih =>
        intro hp
        rw [List.pairwise_cons] at hp ⊢
        refine ⟨fun y hy => ?_, ih hp.2⟩
        obtain ⟨s, hs, hsy⟩ := forall₂_mem_right htl hy
        rw [← hsy.weight, ← hd.weight]
        exact hp.1 s hs
    exact this stems xs' h5 h3

/-- **C67** The vector the C++ wrapper delivers: one lexeme for every lemma of the word, with the length of the stem, the class, the
weight, the dictionary form and the descriptions; the greater weight first.  When there are more than 32 lemmas, or the texts
have no room in 512 bytes, or the descriptions in 80, an exception.  Missing of the full claim: the limits of
`C39_report_partial`. -/
theorem C67_lemmatize_partial (R : FuzzyRank ω) (L : FuzzyLang) (hL : L = rusFuzzy ∨ L = engFuzzy)
    (cs : List FuzzyClass) (hok : FuzzyOk R L cs) (t : PTree) (ht : t.WF) (hh : t.Holds (fuzzyMap cs)) (w : List Byte)
    (hw : Text w) (hlen : w.length < 256) (hparts : (wordParts L.tab w).length ≤ 8)
    (sort : List (FuzzyStem ω) → List (FuzzyStem ω))
    (hsort : ∀ l, (sort l).Perm l ∧ (sort l).Pairwise fun a b => b.weight ≤ a.weight)
    (b : Byte) (bf junk : List Byte) (astems : List (FuzzyStem ω)) (aforms : List Byte) (agrams : List Gram) (dwsets : Nat)
    (h32 : astems.length = 32) (xs : List FuzzyLemma) (hxs : xs = fuzzyLemmas (fuzzyFits L w dwsets) cs (w.map L.tab.lower))
    (hj : ∀ x ∈ xs, x.ccstem + (classOf cs x.cls).normal.length < 64 → FuzzyStops L junk (x.ccstem + (classOf cs x.cls).normal.length)) :
    (FuzzyRoom L cs (w.map L.tab.lower) (some aforms) (some agrams) xs ∧ xs.length ≤ 32 →
      ∃ ls, wrapStems (fun o p g => fuzzyLemmatize L (fuzzyImages cs t) R sort (b :: bf) junk w o p g dwsets) astems aforms agrams = some (.ok ls) ∧
        ls.Perm (xs.map (fuzzyLexeme R L cs (w.map L.tab.lower) true true)) ∧ ls.Pairwise fun a b => b.weight ≤ a.weight) ∧
    (¬ (FuzzyRoom L cs (w.map L.tab.lower) (some aforms) (some agrams) xs ∧ xs.length ≤ 32) →
      ∃ e, wrapStems (fun o p g => fuzzyLemmatize L (fuzzyImages cs t) R sort (b :: bf) junk w o p g dwsets) astems aforms agrams = some (.error e) ∧
        (e = -1 ∨ e = -4 ∨ e = -3)) := by
  constructor
  · rintro ⟨hr, hc⟩
    obtain ⟨n, stems, st, ls, h1, h2, h3, h4, h5⟩ := readStems_report R L hL cs hok t ht hh w hw hlen hparts sort hsort b bf junk astems
      (some aforms) (some agrams) dwsets xs hxs (fun _ x hx => hj x hx (hr.words rfl x hx)) hr (by omega)
    refine ⟨ls, ?_, h4, h5⟩
    simp only [wrapStems, h1, bind, Option.bind_some, if_neg (by omega : ¬ n < 0), h3]
    rfl
  · intro hn
    obtain ⟨e, st, h1, h2⟩ := C39_refused_partial R L hL cs hok t ht hh w hw hlen hparts sort (fun l => (hsort l).1) b bf junk astems
      (some aforms) (some agrams) dwsets xs hxs (fun _ => hj) (by
        by_cases hr : FuzzyRoom L cs (w.map L.tab.lower) (some aforms) (some agrams) xs
        · exact .inr (by rw [h32]; by_contra hc; exact hn ⟨hr, by omega⟩)
        · exact .inl hr)
    refine ⟨e, ?_, h2⟩
    simp only [wrapStems, h1, bind, Option.bind_some, if_pos (by omega : e < 0)]
    rfl

/-- **C67** The list Python gets: as the vector in C++, with the settings it hands over, without the strings and the descriptions that
were refused; when something has no room, an empty list. -/
theorem C67_python_partial (R : FuzzyRank ω) (L : FuzzyLang) (hL : L = rusFuzzy ∨ L = engFuzzy)
    (cs : List FuzzyClass) (hok : FuzzyOk R L cs) (t : PTree) (ht : t.WF) (hh : t.Holds (fuzzyMap cs)) (w : List Byte)
    (hw : Text w) (hlen : w.length < 256) (hparts : (wordParts L.tab w).length ≤ 8)
    (sort : List (FuzzyStem ω) → List (FuzzyStem ω))
    (hsort : ∀ l, (sort l).Perm l ∧ (sort l).Pairwise fun a b => b.weight ≤ a.weight)
    (b : Byte) (bf junk : List Byte) (lx : List (FuzzyStem ω)) (st : List Byte) (gr : List Gram) (dwsets s : Nat)
    (hset : s = if dwsets &&& 2 ≠ 0 then 2 else 0)
    (h32 : lx.length = 32) (xs : List FuzzyLemma) (hxs : xs = fuzzyLemmas (fuzzyFits L w s) cs (w.map L.tab.lower))
    (hj : ∀ x ∈ xs, x.ccstem + (classOf cs x.cls).normal.length < 64 → FuzzyStops L junk (x.ccstem + (classOf cs x.cls).normal.length))
    (B : Option (List Byte)) (hB : B = if dwsets &&& 4 = 0 then some st else none)
    (G : Option (List Gram)) (hG : G = if dwsets &&& 8 = 0 then some gr else none) :
    ∃ ls, pyStems (fun o p g f => fuzzyLemmatize L (fuzzyImages cs t) R sort (b :: bf) junk w o p g f) lx st gr dwsets = some ls ∧
      (FuzzyRoom L cs (w.map L.tab.lower) B G xs ∧ xs.length ≤ 32 →
        ls.Perm (xs.map (fuzzyLexeme R L cs (w.map L.tab.lower) (dwsets &&& 4 = 0) (dwsets &&& 8 = 0))) ∧
        ls.Pairwise fun a b => b.weight ≤ a.weight) ∧
      (¬ (FuzzyRoom L cs (w.map L.tab.lower) B G xs ∧ xs.length ≤ 32) → ls = []) := by
  have e1 : pyStrings dwsets st = B := hB.symm
  have e2 : pyGrams dwsets gr = G := hG.symm
  have e3 : pySettings dwsets = s := hset.symm
  have i1 : B.isSome = decide (dwsets &&& 4 = 0) := by rw [hB]; split <;> simp [*]
  have i2 : G.isSome = decide (dwsets &&& 8 = 0) := by rw [hG]; split <;> simp [*]
  simp only [pyStems, e1, e2, e3]
  by_cases hr : FuzzyRoom L cs (w.map L.tab.lower) B G xs ∧ xs.length ≤ 32
  · obtain ⟨n, stems, st, ls, h1, h2, h3, h4, h5⟩ := readStems_report R L hL cs hok t ht hh w hw hlen hparts sort hsort b bf junk lx
      B G s xs hxs (fun hb x hx => hj x hx (hr.1.words hb x hx)) hr.1 (by omega)
    rw [i1, i2] at h4
    refine ⟨ls, ?_, fun _ => ⟨h4, h5⟩, fun hn => absurd hr hn⟩
    simp only [h1, bind, Option.bind_some, h3]
  · obtain ⟨e, st, h1, h2⟩ := C39_refused_partial R L hL cs hok t ht hh w hw hlen hparts sort (fun l => (hsort l).1) b bf junk lx
      B G s xs hxs (fun _ => hj) (by
        by_cases hr' : FuzzyRoom L cs (w.map L.tab.lower) B G xs
        · exact .inr (by rw [h32]; by_contra hc; exact hr ⟨hr', by omega⟩)
        · exact .inl hr')
    refine ⟨[], ?_, fun hn => absurd hn hr, fun _ => rfl⟩
    have e0 : e.toNat = 0 := by omega
    simp only [h1, bind, Option.bind_some, readStems, e0, Nat.zero_le, if_true, List.take_zero]
    rfl

end

/-- **C67** The samples of a class in C++ and Python: those that have room in 1024 bytes, the heaviest first; when not even one has, or there
is no such class, none. -/
theorem C67_models (R : FuzzyRank ω) (L : FuzzyLang) (cs : List FuzzyClass) (hok : FuzzyOk R L cs) (t : PTree) (models : List Byte)
    (hB : models.length = 0x400) (i : Nat) :
    (∀ c, cs[i]? = some c → c.models.length < 2 ^ 32 → (∀ m ∈ c.models, m.weight < 2 ^ 32 ∧ m.sample.length < 2 ^ 32 ∧ 0 ∉ m.sample) →
      ∃ (ms : List FuzzyModel) (k : Nat), ms.Perm c.models ∧
        ms.Pairwise (fun a b => b.weight < a.weight ∨ a.weight = b.weight ∧ bytesLt b.sample a.sample = false) ∧
        k ≤ ms.length ∧ (zeroed ((ms.take k).map (·.sample))).length ≤ 0x400 ∧
        (∀ m, ms[k]? = some m → 0x400 < (zeroed ((ms.take k).map (·.sample))).length + m.sample.length + 1) ∧
        wrapModels (fuzzyImages cs t) models i = some ((ms.take k).map (·.sample))) ∧
    (cs.length ≤ i → wrapModels (fuzzyImages cs t) models i = some []) := by
  constructor
  · intro c hc hn hm
    obtain ⟨ms, k, tail, h1, h2, h3, h4, h5, h6, -⟩ := C51_models R L cs hok t models (by rintro rfl; simp at hB) i c hc hn
      (fun m hx => ⟨(hm m hx).1, (hm m hx).2.1⟩)
    rw [hB] at h4 h5
    refine ⟨ms, k, h1, h2, h3, h4, h5, ?_⟩
    simp only [wrapModels, h6, bind, Option.bind_some, Option.getD_some]
    by_cases h0 : k = 0
    · have : ¬ (if k = 0 ∧ c.models ≠ [] then LEMMBUFF_FAILED else (k : Int)) > 0 := by
        split
        · decide
        · omega
      rw [if_neg this]
      simp [h0]
    · have e0 : (if k = 0 ∧ c.models ≠ [] then LEMMBUFF_FAILED else (k : Int)) = k := by rw [if_neg fun h => h0 h.1]
      simp only [e0]
      rw [if_pos (by omega)]
      have hl : ((ms.take k).map (·.sample)).length = k := by simp [h3]
      have := splitForms_zeroed ((ms.take k).map (·.sample)) tail (by
        intro f hf
        obtain ⟨m, hmm, rfl⟩ := List.mem_map.1 hf
        exact (hm m (h1.mem_iff.1 (List.mem_of_mem_take hmm))).2.2)
      rw [hl] at this
      exact this
  · intro hi
    have := ((C52_class cs t hok.flexes i).2 hi).2.1 (some models)
    simp [wrapModels, this]

/-- **C67** The forms of a stem in C++ and Python: the endings of the form number appended to the stem, in their order.  When something
has no room, or there is no such class, none. -/
theorem C67_forms_partial (R : FuzzyRank ω) (L : FuzzyLang) (hL : L = rusFuzzy ∨ L = engFuzzy) (cs : List FuzzyClass)
    (hok : FuzzyOk R L cs) (t : PTree) (stem : List Byte) (hw : Text stem) (hne : stem ≠ [])
    (hlen : stem.length < 256) (hparts : (wordParts L.tab stem).length ≤ 8) (junk buffer : List Byte) (hB : buffer ≠ []) (i form : Nat) :
    (∀ c, cs[i]? = some c → (c.flexes.map (·.1)).Pairwise (· ≤ ·) → ∀ fs,
      fs = ((c.flexes.filter (·.1 = form)).map fun f => L.printed (pspMinCap c.partSp) (stem.map L.tab.lower ++ f.2)) →
      (∀ e ∈ c.endings form, stem.length + e.length ≤ 64 → FuzzyStops L junk (stem.length + e.length)) →
      wrapFuzzyForms L (fuzzyImages cs t) junk buffer stem i form =
        some (if (∀ e ∈ c.endings form, stem.length + e.length ≤ 64) ∧ (fs ≠ [] → (zeroed fs).length < buffer.length) then fs else [])) ∧
    (cs.length ≤ i → wrapFuzzyForms L (fuzzyImages cs t) junk buffer stem i form = some []) := by
  constructor
  · intro c hc hs fs hfs hj
    obtain ⟨h1, h2⟩ := C50_forms_partial R L hL cs hok t stem hw hne hlen hparts junk buffer hB i c hc hs form fs hfs hj
    split
    · rename_i hf
      obtain ⟨tail, h3, -⟩ := h1 hf
      simp only [wrapFuzzyForms, wrapForms, h3, bind, Option.bind_some, Int.toNat_natCast, Option.getD_some]
      refine splitForms_zeroed fs tail ?_
      intro f hf
      rw [hfs] at hf
      obtain ⟨e, he, rfl⟩ := List.mem_map.1 hf
      refine Text.zero (FuzzyLang.printed_text hL _ (pspMinCap_le _) _ (Text.append (fuzzyLower_text hL hw) ?_))
      exact hok.text c (List.mem_of_getElem? hc) e (List.mem_filter.1 he).1
    · rename_i hf
      obtain ⟨e, out, h3, h4⟩ := h2 hf
      have e0 : e.toNat = 0 := by omega
      simp [wrapFuzzyForms, wrapForms, h3, e0, splitForms]
  · intro hi
    have h3 := ((C52_class cs t hok.flexes i).2 hi).2.2 L junk (some buffer) stem form hparts hL
    simp [wrapFuzzyForms, wrapForms, h3, splitForms]

/-- Printing changes only capitals. -/
theorem fuzzyPrinted_lower {L : FuzzyLang} (hL : L = rusFuzzy ∨ L = engFuzzy) (d : Nat) (hd : d ≤ 2) (w : List Byte) (hw : Text w)
    (hl : ∀ c ∈ w, L.tab.ctype c ≠ ctInvalid) : (L.printed d w).length = w.length ∧ (L.printed d w).map L.tab.lower = w.map L.tab.lower := by
  rcases hL with rfl | rfl
  · obtain ⟨w', h1, h2, h3⟩ := C16_same_letters rusTab rusTab_ok rusTab_upOk w [] d hw hl
    have h4 := (capSet_rusPrinted w [] d hd hw).1
    rw [h1] at h4
    have : w' = rusPrinted d w := by simpa using h4
    rw [this] at h2 h3
    exact ⟨h2, h3⟩
  · exact ⟨rfl, rfl⟩

/-- The stem of a lemma is the stem of the word, with capitals; with an ending of a reference it is the word. -/
theorem lemma_stem (L : FuzzyLang) (hL : L = rusFuzzy ∨ L = engFuzzy) (cs : List FuzzyClass)
    (hok : FuzzyOk R L cs) (w : List Byte) (hw : Text w) (hl : ∀ c ∈ w, L.tab.ctype c ≠ ctInvalid) (hlen : w.length < 256)
    (hparts : (wordParts L.tab w).length ≤ 8) (dwsets : Nat) (x : FuzzyLemma)
    (hx : x ∈ fuzzyLemmas (fuzzyFits L w dwsets) cs (w.map L.tab.lower))
    (hn : ∀ c ∈ (classOf cs x.cls).normal, L.tab.ctype c ≠ ctInvalid) (r : FuzzyRef) (hr : r ∈ x.refs) :
    cs[x.cls]? = some (classOf cs x.cls) ∧
    Text ((fuzzyText L cs (w.map L.tab.lower) x).take x.ccstem) ∧
    ((fuzzyText L cs (w.map L.tab.lower) x).take x.ccstem).length = x.ccstem ∧ 0 < x.ccstem ∧ x.ccstem < 256 ∧
    x.ccstem ≤ (fuzzyText L cs (w.map L.tab.lower) x).length ∧
    (wordParts L.tab ((fuzzyText L cs (w.map L.tab.lower) x).take x.ccstem)).length ≤ 8 ∧
    ((fuzzyText L cs (w.map L.tab.lower) x).take x.ccstem).map L.tab.lower = (w.map L.tab.lower).take x.ccstem ∧
    L.printed (pspMinCap (classOf cs x.cls).partSp) (w.map L.tab.lower) ∈
      fuzzyForms L (classOf cs x.cls) ((w.map L.tab.lower).take x.ccstem) r.form := by
  have hidem : ∀ b < 256, L.tab.lower (L.tab.lower b) = L.tab.lower b ∧ (L.tab.ctype (L.tab.lower b) = ctDlm → L.tab.ctype b = ctDlm) ∧
      (L.tab.ctype b ≠ ctInvalid → L.tab.ctype (L.tab.lower b) ≠ ctInvalid) := by
    rcases hL with rfl | rfl <;> decide +kernel
  -- the description is one of the references
  obtain ⟨-, c, h1, f, hf, m, hm, p, h2, h3, h4, h5⟩ := (C39_refs _ cs _ x hx r).1 hr
  have hc : classOf cs x.cls = c := by simp [classOf, h1]
  rw [hc] at hn ⊢
  have hstem : (w.map L.tab.lower).take x.ccstem = p ++ [m.s0, m.s1] := by
    rw [h2, h3, show p.length + 2 = (p ++ [m.s0, m.s1]).length by simp, List.take_left]
  have hslen : ((w.map L.tab.lower).take x.ccstem).length = x.ccstem := by rw [hstem, h3]; simp
  have hlow : Text (w.map L.tab.lower) := fuzzyLower_text hL hw
  have htext : Text ((w.map L.tab.lower).take x.ccstem) := fun b hb => hlow b (List.mem_of_mem_take hb)
  have hsame : ((w.map L.tab.lower).take x.ccstem).map L.tab.lower = (w.map L.tab.lower).take x.ccstem := by
    rw [List.map_take, List.map_map]
    congr 1
    apply List.map_congr_left
    intro b hb
    exact (hidem b (hw b hb).2).1
  -- the stem of the lexeme is the stem of the word, with capitals
  have hnt : Text c.normal := by
    simp only [FuzzyClass.normal]
    cases hcf : c.flexes with
    | nil => intro b hb; simp at hb
    | cons f0 l => exact hok.text c (List.mem_of_getElem? h1) f0 (by simp [hcf])
  have hinv : ∀ b ∈ (w.map L.tab.lower).take x.ccstem ++ c.normal, L.tab.ctype b ≠ ctInvalid := by
    intro b hb
    rcases List.mem_append.1 hb with h | h
    · obtain ⟨a, ha, rfl⟩ := List.mem_map.1 (List.mem_of_mem_take h)
      exact (hidem a (hw a ha).2).2.2 (hl a ha)
    · exact hn b h
  have hT : fuzzyText L cs (w.map L.tab.lower) x = L.printed (pspMinCap c.partSp) ((w.map L.tab.lower).take x.ccstem ++ c.normal) := by
    rw [fuzzyText, hc]
  have htt : Text (fuzzyText L cs (w.map L.tab.lower) x) := by
    rw [hT]; exact FuzzyLang.printed_text hL _ (pspMinCap_le _) _ (Text.append htext hnt)
  obtain ⟨q1, q2⟩ := fuzzyPrinted_lower hL (pspMinCap c.partSp) (pspMinCap_le _) _ (Text.append htext hnt) hinv
  rw [← hT] at q1 q2
  rw [List.length_append, hslen] at q1
  have q3 : ((fuzzyText L cs (w.map L.tab.lower) x).take x.ccstem).map L.tab.lower = (w.map L.tab.lower).take x.ccstem := by
    rw [List.map_take, q2, List.map_append, hsame, List.take_left' hslen]
  have q4 : ((fuzzyText L cs (w.map L.tab.lower) x).take x.ccstem).length = x.ccstem := by rw [List.length_take]; omega
  have q5 : Text ((fuzzyText L cs (w.map L.tab.lower) x).take x.ccstem) := fun b hb => htt b (List.mem_of_mem_take hb)
  have hparts' : (wordParts L.tab ((fuzzyText L cs (w.map L.tab.lower) x).take x.ccstem)).length ≤ 8 := by
    have e1 := dlmCount_lower_take L.tab (fun b hb => (hidem b hb).2.1) w hw x.ccstem
    have e2 : ∀ u : List Byte, Text u → dlmCount L.tab (u.map L.tab.lower) = dlmCount L.tab u := by
      have hd : ∀ b < 256, (L.tab.ctype (L.tab.lower b) = ctDlm ↔ L.tab.ctype b = ctDlm) := by
        rcases hL with rfl | rfl <;> decide +kernel
      intro u hu
      induction u with
      | nil => rfl
      | cons a u ih =>
        have ih' := ih fun b hb => hu b (List.mem_cons_of_mem _ hb)
        have ha := hd a (hu a (by simp)).2
        simp only [dlmCount, List.map_cons, List.filter_cons, decide_eq_true_eq, ha] at ih' ⊢
        split <;> simp [ih']
    rw [wordParts_length] at e1 ⊢
    rw [← e2 _ q5, q3]
    omega
  refine ⟨h1, q5, q4, by omega, by have := congrArg List.length h2; simp at this; omega, by omega, hparts', q3, ?_⟩
  rw [fuzzyForms, List.mem_map]
  refine ⟨f.2, ?_, by rw [hstem, ← h2]⟩
  rw [FuzzyClass.endings, List.mem_map]
  exact ⟨f, List.mem_filter.2 ⟨hf, by simp [h5]⟩, rfl⟩

/-- The descriptions of a lexeme are the references of the lemma. -/
theorem lexeme_ref {cs : List FuzzyClass} {x : FuzzyLemma} {lexeme : FuzzyLexeme ω}
    (h : lexeme.grams = if x.refs ≠ [] then some (x.refs.map fun r => ⟨(classOf cs x.cls).partSp, r.form, 0, 0⟩) else none)
    (g : Gram) (hg : ∃ gs, lexeme.grams = some gs ∧ g ∈ gs) : ∃ r ∈ x.refs, r.form = g.idForm := by
  obtain ⟨gs, hg1, hg2⟩ := hg
  rw [h] at hg1
  split at hg1
  · cases hg1
    obtain ⟨r, hr, rfl⟩ := List.mem_map.1 hg2
    exact ⟨r, hr, rfl⟩
  · exact absurd hg1 (by simp)

/-- **C67** A lexeme delivered in C++ goes back to the word: the forms built from it, with the form number of one of its descriptions,
contain the word (with the capitals of the part of speech). -/
theorem C67_round_trip_partial (R : FuzzyRank ω) (L : FuzzyLang) (hL : L = rusFuzzy ∨ L = engFuzzy) (cs : List FuzzyClass)
    (hok : FuzzyOk R L cs) (t : PTree) (w : List Byte) (hw : Text w) (hl : ∀ c ∈ w, L.tab.ctype c ≠ ctInvalid) (hlen : w.length < 256)
    (hparts : (wordParts L.tab w).length ≤ 8) (dwsets : Nat) (x : FuzzyLemma)
    (hx : x ∈ fuzzyLemmas (fuzzyFits L w dwsets) cs (w.map L.tab.lower))
    (hn : ∀ c ∈ (classOf cs x.cls).normal, L.tab.ctype c ≠ ctInvalid)
    (lexeme : FuzzyLexeme ω) (hlex : lexeme = fuzzyLexeme R L cs (w.map L.tab.lower) true true x)
    (g : Gram) (hg : ∃ gs, lexeme.grams = some gs ∧ g ∈ gs)
    (hs : ((classOf cs x.cls).flexes.map (·.1)).Pairwise (· ≤ ·)) (junk buffer : List Byte) (hB : buffer ≠ [])
    (hj : ∀ e ∈ (classOf cs x.cls).endings g.idForm, FuzzyStops L junk (x.ccstem + e.length))
    (hfit : ∀ e ∈ (classOf cs x.cls).endings g.idForm, x.ccstem + e.length ≤ 64)
    (hroom : (zeroed (fuzzyForms L (classOf cs x.cls) ((w.map L.tab.lower).take x.ccstem) g.idForm)).length < buffer.length) :
    ∃ fs, wrapStemForms L (fuzzyImages cs t) junk buffer lexeme g.idForm = some fs ∧
      L.printed (pspMinCap (classOf cs x.cls).partSp) (w.map L.tab.lower) ∈ fs := by
  obtain ⟨r, hr, hgr⟩ : ∃ r ∈ x.refs, r.form = g.idForm := lexeme_ref (cs := cs) (by rw [hlex, fuzzyLexeme]; simp) g hg
  rw [← hgr] at hj hfit hroom ⊢
  obtain ⟨h1, q5, q4, q6, q7, q8, hparts', q3, hmem⟩ := lemma_stem L hL cs hok w hw hl hlen hparts dwsets x hx hn r hr
  have hfs := (C67_forms_partial R L hL cs hok t _ q5 (by intro h; rw [h] at q4; simp at q4; omega)
    (by rw [q4]; omega) hparts' junk buffer hB x.cls r.form).1 _ h1 hs _ rfl
    (by intro e he _; rw [q4]; exact hj e he)
  have hF : (((classOf cs x.cls).flexes.filter (·.1 = r.form)).map fun f => L.printed (pspMinCap (classOf cs x.cls).partSp)
      (((fuzzyText L cs (w.map L.tab.lower) x).take x.ccstem).map L.tab.lower ++ f.2)) =
      fuzzyForms L (classOf cs x.cls) ((w.map L.tab.lower).take x.ccstem) r.form := by
    rw [q3, fuzzyForms, FuzzyClass.endings, List.map_map]; rfl
  rw [hF, if_pos ⟨by intro e he; rw [q4]; exact hfit e he, fun _ => hroom⟩] at hfs
  refine ⟨_, ?_, hmem⟩
  rw [hlex]
  simp only [wrapStemForms, fuzzyLexeme, if_true, bind, Option.bind_some]
  rw [if_pos (by omega)]
  exact hfs

/-- **C67** The part of speech of a class; 0 when there is no such class. -/
theorem C67_part_of_speech (cs : List FuzzyClass) (t : PTree) (h : ∀ c ∈ cs, c.flexes.length < 2 ^ 32) (i : Nat) :
    wrapWdInfo (fuzzyWdInfo (fuzzyImages cs t) i) = some ((cs[i]?.map (·.partSp)).getD 0) := by
  obtain ⟨h1, h2⟩ := C52_class cs t h i
  cases hc : cs[i]? with
  | some c => rw [h1 c hc]; rfl
  | none => rw [(h2 (List.getElem?_eq_none_iff.1 hc)).1]; rfl

/-! ### Witnesses -/

/-- Столов, in C++: the genitive plural of "стол" before the surname. -/
example : ((wrapStems (fun o p g => fuzzyLemmatize rusFuzzy (fuzzyImages fuzzySample fuzzySampleTree) sampleRank sampleSort [0]
      (List.replicate 64 0) stolov o p g 0) (List.replicate 32 ⟨none, 0, 0, none, 0, 0⟩) (List.replicate 0x200 7)
      (List.replicate 0x50 ⟨1, 1, 1, 1⟩)).map Except.toOption) =
    some (some [⟨4, 0, 30040, some [241, 242, 238, 235], some [⟨7, 7, 0, 0⟩]⟩, ⟨6, 1, 10300, some stolov, some [⟨38, 0, 0, 0⟩]⟩]) := by
  decide +kernel

/-- The same in Python, without the descriptions, capitals ignored. -/
example : pyStems (fun o p g s => fuzzyLemmatize rusFuzzy (fuzzyImages fuzzySample fuzzySampleTree) sampleRank sampleSort [0]
      (List.replicate 64 0) (stolov.map rusTab.lower) o p g s) (List.replicate 32 ⟨none, 0, 0, none, 0, 0⟩) (List.replicate 0x800 7)
      (List.replicate 0x200 ⟨1, 1, 1, 1⟩) 10 =
    some [⟨4, 0, 30040, some [241, 242, 238, 235], none⟩, ⟨6, 1, 10300, some stolov, none⟩] := by
  decide +kernel

/-- And back. -/
example : wrapStemForms rusFuzzy (fuzzyImages fuzzySample fuzzySampleTree) (List.replicate 64 0) (List.replicate 256 9)
      (⟨4, 0, 30040, some [241, 242, 238, 235], some [⟨7, 7, 0, 0⟩]⟩ : FuzzyLexeme Nat) 7 = some [[241, 242, 238, 235, 238, 226]] ∧
    wrapModels (fuzzyImages fuzzySample fuzzySampleTree) (List.replicate 0x400 9) 0 = some [[228, 238, 236], [241, 242, 238, 235]] := by
  decide +kernel

end Libmorph
