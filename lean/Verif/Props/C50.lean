import Verif.Props.C38
/-! C50, C51, C52 — the fuzzy analysers: forms, models, parts of speech. -/
namespace Libmorph

variable {ω : Type}

theorem dlmCount_lower_take (T : CharTab) (h : ∀ b < 256, T.ctype (T.lower b) = ctDlm → T.ctype b = ctDlm) (w : List Byte) (hw : Text w)
    (n : Nat) : (wordParts T ((w.map T.lower).take n)).length ≤ (wordParts T w).length := by
  rw [wordParts_length, wordParts_length]
  suffices dlmCount T ((w.map T.lower).take n) ≤ dlmCount T w by omega
  induction w generalizing n with
  | nil => simp
  | cons c w ih =>
    cases n with
    | zero => simp [dlmCount]
    | succ n =>
      have ih' := ih (fun b hb => hw b (List.mem_cons_of_mem _ hb)) n
      have hc := h c (hw c (by simp)).2
      simp only [List.map_cons, List.take_succ_cons, dlmCount, List.filter_cons, decide_eq_true_eq] at ih' ⊢
      split <;> split <;> (try simp only [List.length_cons]) <;> first | omega | (rename_i h1 h2; exact absurd (hc h1) h2)

/-! ### C50: from a lemma back to the word -/

/-- C50.  Lemmatize, then BuildForm: for a lemma of a word — class, length of the stem — and a description of it with a form
number, BuildForm with the beginning of the word of that length, that class and that form number gives a list of forms
that contains the word (with the capitals of the part of speech, as BuildForm prints them).  Missing of the full claim:
the form numbers of the class must ascend (`C50_unsorted`), and the limits of `C39_report_partial`. -/
theorem C50_round_trip_partial (R : FuzzyRank ω) (L : FuzzyLang) (hL : L = rusFuzzy ∨ L = engFuzzy) (cs : List FuzzyClass)
    (hok : FuzzyOk R L cs) (t : PTree) (w : List Byte) (hw : Text w) (hlen : w.length < 256)
    (hparts : (wordParts L.tab w).length ≤ 8) (dwsets : Nat) (x : FuzzyLemma)
    (hx : x ∈ fuzzyLemmas (fuzzyFits L w dwsets) cs (w.map L.tab.lower)) (r : FuzzyRef) (hr : r ∈ x.refs)
    (hs : ((classOf cs x.cls).flexes.map (·.1)).Pairwise (· ≤ ·)) (junk B : List Byte) (hB : B ≠ [])
    (hj : ∀ e ∈ (classOf cs x.cls).endings r.form, FuzzyStops L junk (x.ccstem + e.length))
    (hfit : ∀ e ∈ (classOf cs x.cls).endings r.form, x.ccstem + e.length ≤ 64)
    (hroom : (zeroed (fuzzyForms L (classOf cs x.cls) ((w.map L.tab.lower).take x.ccstem) r.form)).length < B.length) :
    ∃ fs tail, fuzzyBuildForm L (fuzzyImages cs t) junk (some B) ((w.map L.tab.lower).take x.ccstem) x.cls r.form =
        some ((fs.length : Int), some (zeroed fs ++ tail)) ∧
      L.printed (pspMinCap (classOf cs x.cls).partSp) (w.map L.tab.lower) ∈ fs := by
  have hidem : ∀ b < 256, L.tab.lower (L.tab.lower b) = L.tab.lower b ∧ (L.tab.ctype (L.tab.lower b) = ctDlm → L.tab.ctype b = ctDlm) := by
    rcases hL with rfl | rfl <;> decide +kernel
  obtain ⟨-, c, h1, f, hf, m, hm, p, h2, h3, h4, h5⟩ := (C39_refs _ cs _ x hx r).1 hr
  have hc : classOf cs x.cls = c := by simp [classOf, h1]
  rw [hc] at hs hj hfit hroom ⊢
  have hstem : (w.map L.tab.lower).take x.ccstem = p ++ [m.s0, m.s1] := by
    rw [h2, h3, show p.length + 2 = (p ++ [m.s0, m.s1]).length by simp, List.take_left]
  have hslen : ((w.map L.tab.lower).take x.ccstem).length = x.ccstem := by rw [hstem, h3]; simp
  have hlow : Text (w.map L.tab.lower) := fuzzyLower_text hL hw
  have htext : Text ((w.map L.tab.lower).take x.ccstem) := fun b hb => hlow b (List.mem_of_mem_take hb)
  have hsame : ((w.map L.tab.lower).take x.ccstem).map L.tab.lower = (w.map L.tab.lower).take x.ccstem := by
    rw [List.map_take, List.map_map]
    congr 1
    apply List.map_congr_left
    intro b hb
    exact (hidem b (hw b hb).2).1
  obtain ⟨tail, k1, k2⟩ := (fuzzyBuildForm_eq hL hok t htext (by rw [hstem]; simp)
    (by rw [hslen]; have := congrArg List.length h2; simp at this; omega)
    (Nat.le_trans (dlmCount_lower_take L.tab (fun b hb => (hidem b hb).2) w hw _) hparts) junk B hB x.cls c h1 hs r.form _ rfl
    (by intro e he _; rw [hslen]; exact hj e he)).1
    ⟨by intro e he; rw [hslen]; exact hfit e he, by rw [hsame]; exact fun _ => hroom⟩
  refine ⟨_, tail, k1, ?_⟩
  rw [hsame, fuzzyForms, List.mem_map]
  refine ⟨f.2, ?_, ?_⟩
  · rw [FuzzyClass.endings, List.mem_map]
    exact ⟨f, List.mem_filter.2 ⟨hf, by simp [h5]⟩, rfl⟩
  · rw [hstem, ← h2]

/-- C50.  BuildForm in full: for a class whose form numbers ascend, exactly the endings of the form number, appended to the
stem, in their order; when something has no room, an error. -/
theorem C50_forms_partial (R : FuzzyRank ω) (L : FuzzyLang) (hL : L = rusFuzzy ∨ L = engFuzzy) (cs : List FuzzyClass)
    (hok : FuzzyOk R L cs) (t : PTree) (stem : List Byte) (hw : Text stem) (hne : stem ≠ [])
    (hlen : stem.length < 256) (hparts : (wordParts L.tab stem).length ≤ 8) (junk B : List Byte) (hB : B ≠ []) (i : Nat) (c : FuzzyClass)
    (hc : cs[i]? = some c) (hs : (c.flexes.map (·.1)).Pairwise (· ≤ ·)) (form : Nat) (fs : List (List Byte))
    (hfs : fs = ((c.flexes.filter (·.1 = form)).map fun f => L.printed (pspMinCap c.partSp) (stem.map L.tab.lower ++ f.2)))
    (hj : ∀ e ∈ c.endings form, stem.length + e.length ≤ 64 → FuzzyStops L junk (stem.length + e.length)) :
    (((∀ e ∈ c.endings form, stem.length + e.length ≤ 64) ∧ (fs ≠ [] → (zeroed fs).length < B.length)) →
      ∃ tail, fuzzyBuildForm L (fuzzyImages cs t) junk (some B) stem i form = some ((fs.length : Int), some (zeroed fs ++ tail)) ∧
        (zeroed fs ++ tail).length = B.length) ∧
    (¬ ((∀ e ∈ c.endings form, stem.length + e.length ≤ 64) ∧ (fs ≠ [] → (zeroed fs).length < B.length)) →
      ∃ e out, fuzzyBuildForm L (fuzzyImages cs t) junk (some B) stem i form = some (e, out) ∧ (e = -1 ∨ e = -4)) := by
  have h := fuzzyBuildForm_eq hL hok t hw hne hlen hparts junk B hB i c hc hs form fs
    (by rw [hfs, fuzzyForms, FuzzyClass.endings, List.map_map]; rfl) hj
  refine ⟨h.1, fun hn => ?_⟩
  obtain ⟨e, out, h1, h2⟩ := h.2 hn
  exact ⟨e, out, h1, by simpa [LEMMBUFF_FAILED, WORDBUFF_FAILED] using h2⟩

/-- C50.  What is in the buffer behind the forms stays as it was, but for one zero. -/
theorem C50_buffer_partial (R : FuzzyRank ω) (L : FuzzyLang) (hL : L = rusFuzzy ∨ L = engFuzzy) (cs : List FuzzyClass)
    (hok : FuzzyOk R L cs) (t : PTree) (stem : List Byte) (hw : Text stem) (hne : stem ≠ [])
    (hlen : stem.length < 256) (hparts : (wordParts L.tab stem).length ≤ 8) (junk B : List Byte) (hB : B ≠ []) (i : Nat) (c : FuzzyClass)
    (hc : cs[i]? = some c) (hs : (c.flexes.map (·.1)).Pairwise (· ≤ ·)) (form : Nat) (fs : List (List Byte))
    (hfs : fs = ((c.flexes.filter (·.1 = form)).map fun f => L.printed (pspMinCap c.partSp) (stem.map L.tab.lower ++ f.2)))
    (hfit : ∀ e ∈ c.endings form, stem.length + e.length ≤ 64) (hroom : fs ≠ [] → (zeroed fs).length < B.length)
    (hj : ∀ e ∈ c.endings form, FuzzyStops L junk (stem.length + e.length)) :
    fuzzyBuildForm L (fuzzyImages cs t) junk (some B) stem i form =
      some ((fs.length : Int), some (if fs = [] then B else zeroed fs ++ 0 :: B.drop ((zeroed fs).length + 1))) := by
  obtain ⟨tail, h1, -, h2, h3⟩ := (fuzzyBuildForm_exact hL hok t hw hne hlen hparts junk B hB i c hc hs form fs
    (by rw [hfs, fuzzyForms, FuzzyClass.endings, List.map_map]; rfl) fun e he _ => hj e he).1 ⟨hfit, hroom⟩
  rw [h1]
  split
  · rename_i h0; rw [h2 h0, h0]; rfl
  · rename_i h0; rw [h3 h0]

/-- BuildForm of "стол" as genitive plural: "столов". -/
example : fuzzyBuildForm rusFuzzy (fuzzyImages fuzzySample fuzzySampleTree) (List.replicate 64 0) (some (List.replicate 8 1))
    [241, 242, 238, 235] 0 7 = some (1, some [241, 242, 238, 235, 238, 226, 0, 0]) := by decide +kernel

/-- A class whose form numbers do not ascend: BuildForm stops too early and does not find the ending of form 1, although
Lemmatize reports form 1 for the word. -/
theorem C50_unsorted :
    let cs : List FuzzyClass := [⟨7, false, [(2, []), (1, [224])], [⟨238, 236, 100, []⟩]⟩]
    let t : PTree := .node [] none [.node [224, 236, 238] (some [⟨0, 100, 1⟩]) [], .node [236, 238] (some [⟨0, 100, 2⟩]) []]
    t.Holds (fuzzyMap cs) ∧
      fuzzyLemmas (fuzzyFits rusFuzzy [228, 238, 236, 224] 0) cs [228, 238, 236, 224] = [⟨3, 0, [⟨0, 100, 1⟩]⟩] ∧
      fuzzyBuildForm rusFuzzy (fuzzyImages cs t) (List.replicate 64 0) (some (List.replicate 8 1)) [228, 238, 236] 0 1 =
        some (0, some (List.replicate 8 1)) := by
  intro cs t
  refine ⟨?_, by decide +kernel, by decide +kernel⟩
  intro k
  have hk : t.Keyed := by simp [t, PTree.Keyed, PTree.Keyeds, PTree.key]
  rw [PTree.get_entries _ hk]
  exact lookup_ext (by decide +kernel) k

/-! ### C51: the samples of a class -/

theorem fittingTexts_spec (xs : List (List Byte)) : ∀ n, ∃ k, k ≤ xs.length ∧ fittingTexts n xs = xs.take k ∧
    (zeroed (xs.take k)).length ≤ n ∧ ∀ x, xs[k]? = some x → n < (zeroed (xs.take k)).length + x.length + 1 := by
  induction xs with
  | nil => intro n; exact ⟨0, by simp, by simp [fittingTexts], by simp [zeroed], by simp⟩
  | cons x xs ih =>
    intro n
    rw [fittingTexts]
    by_cases h : x.length < n
    · obtain ⟨k, h1, h2, h3, h4⟩ := ih (n - x.length - 1)
      refine ⟨k + 1, by simpa using h1, by rw [if_pos h, h2]; rfl, ?_, ?_⟩
      · rw [List.take_succ_cons, zeroed_cons]; simp; omega
      · intro y hy
        rw [List.getElem?_cons_succ] at hy
        have := h4 y hy
        rw [List.take_succ_cons, zeroed_cons]; simp; omega
    · refine ⟨0, by simp, by rw [if_neg h]; rfl, by simp [zeroed], ?_⟩
      intro y hy
      simp at hy
      subst hy
      simp [zeroed]; omega

theorem modelBefore_total (a b : FuzzyModel) : modelBefore a b = true ∨ modelBefore b a = true := by
  simp only [modelBefore, Bool.or_eq_true, decide_eq_true_eq, Bool.and_eq_true, beq_iff_eq]
  rcases Nat.lt_trichotomy a.weight b.weight with h | h | h
  · exact Or.inr (Or.inl h)
  · cases hs : bytesLt b.sample a.sample with
    | false => exact Or.inl (Or.inr ⟨h, by rfl⟩)
    | true =>
      refine Or.inr (Or.inr ⟨h.symm, ?_⟩)
      cases hs' : bytesLt a.sample b.sample with
      | false => rfl
      | true => exact absurd (bytesLt_trans hs hs') (by rw [bytesLt_irrefl]; simp)
  · exact Or.inl (Or.inl h)

theorem modelBefore_trans {a b c : FuzzyModel} (h1 : modelBefore a b = true) (h2 : modelBefore b c = true) : modelBefore a c = true := by
  simp only [modelBefore, Bool.or_eq_true, decide_eq_true_eq, Bool.and_eq_true, beq_iff_eq] at *
  rcases h1 with h1 | ⟨h1, h1'⟩ <;> rcases h2 with h2 | ⟨h2, h2'⟩
  · exact Or.inl (by omega)
  · exact Or.inl (by omega)
  · exact Or.inl (by omega)
  · exact Or.inr ⟨by omega, bytesLe_trans h1' h2'⟩

/-- C51.  GetModels: the samples of the class, those of larger weight first (alphabetically when equal), each with a zero, as
many as fit the buffer: `k` of them, and the next one would not fit.  The number is returned; when there are models and not
even the first fits, an error. -/
theorem C51_models (R : FuzzyRank ω) (L : FuzzyLang) (cs : List FuzzyClass) (hok : FuzzyOk R L cs) (t : PTree) (B : List Byte)
    (hB : B ≠ []) (i : Nat) (c : FuzzyClass) (hc : cs[i]? = some c) (hn : c.models.length < 2 ^ 32)
    (hm : ∀ m ∈ c.models, m.weight < 2 ^ 32 ∧ m.sample.length < 2 ^ 32) :
    ∃ (ms : List FuzzyModel) (k : Nat) (tail : List Byte), ms.Perm c.models ∧
      ms.Pairwise (fun a b => b.weight < a.weight ∨ a.weight = b.weight ∧ bytesLt b.sample a.sample = false) ∧
      k ≤ ms.length ∧ (zeroed ((ms.take k).map (·.sample))).length ≤ B.length ∧
      (∀ m, ms[k]? = some m → B.length < (zeroed ((ms.take k).map (·.sample))).length + m.sample.length + 1) ∧
      fuzzyGetModels (fuzzyImages cs t) (some B) i =
        some (if k = 0 ∧ c.models ≠ [] then LEMMBUFF_FAILED else (k : Int), some (zeroed ((ms.take k).map (·.sample)) ++ tail)) ∧
      (zeroed ((ms.take k).map (·.sample)) ++ tail).length = B.length := by
  obtain ⟨tail, h1, h2⟩ := fuzzyGetModels_eq hok t B hB i c hc hn hm _ rfl
  obtain ⟨k, k1, k2, k3, k4⟩ := fittingTexts_spec ((sortModels c.models).map (·.sample)) B.length
  rw [k2, ← List.map_take] at h1 h2
  rw [← List.map_take] at k3 k4
  rw [List.length_map] at k1
  refine ⟨sortModels c.models, k, tail, sortModels_perm _, ?_, k1, k3, ?_, ?_, h2⟩
  · have : Std.Total fun (a b : FuzzyModel) => modelBefore a b = true := ⟨modelBefore_total⟩
    have : IsTrans FuzzyModel fun a b => modelBefore a b = true := ⟨fun a b c h1 h2 => modelBefore_trans h1 h2⟩
    refine (List.pairwise_insertionSort _ c.models).imp ?_
    intro a b h
    simpa [modelBefore] using h
  · intro m hm'
    exact k4 m.sample (by rw [List.getElem?_map, hm']; rfl)
  · rw [h1]
    have e1 : (List.map (·.sample) ((sortModels c.models).take k)).length = k := by rw [List.length_map, List.length_take]; omega
    have e2 : List.map (·.sample) ((sortModels c.models).take k) = [] ↔ k = 0 := by rw [← List.length_eq_zero_iff, e1]
    simp only [e2, e1]

/-- The samples of the class of nouns: "дом", then "стол"; into 8 bytes only the first fits. -/
example : fuzzyGetModels (fuzzyImages fuzzySample fuzzySampleTree) (some (List.replicate 9 1)) 0 =
      some (2, some [228, 238, 236, 0, 241, 242, 238, 235, 0]) ∧
    fuzzyGetModels (fuzzyImages fuzzySample fuzzySampleTree) (some (List.replicate 8 1)) 0 =
      some (1, some [228, 238, 236, 0, 1, 1, 1, 1]) := by decide +kernel

/-! ### C52: classes -/

/-- C52.  A class number is accepted exactly when the dictionary has the class: GetWdInfo then gives its part of speech;
otherwise GetWdInfo, GetModels and BuildForm report a bad argument and leave the buffers as they were. -/
theorem C52_class (cs : List FuzzyClass) (t : PTree) (h : ∀ c ∈ cs, c.flexes.length < 2 ^ 32) (i : Nat) :
    (∀ c, cs[i]? = some c → fuzzyWdInfo (fuzzyImages cs t) i = some (1, some c.partSp)) ∧
    (cs.length ≤ i → fuzzyWdInfo (fuzzyImages cs t) i = some (-5, none) ∧
      (∀ B, fuzzyGetModels (fuzzyImages cs t) B i = some (-5, B)) ∧
      ∀ L junk B w form, (wordParts L.tab w).length ≤ 8 → L = rusFuzzy ∨ L = engFuzzy →
        fuzzyBuildForm L (fuzzyImages cs t) junk B w i form = some (-5, B)) := by
  have hcl := fuzzyClass_eq cs t i h
  refine ⟨fun c hc => (hcl.1 c hc).choose_spec.2, fun hi => ?_⟩
  have hnone : cs[i]? = none := List.getElem?_eq_none hi
  obtain ⟨h1, h2⟩ := hcl.2 hnone
  refine ⟨h2, ?_, ?_⟩
  · intro B
    cases B with
    | none => rfl
    | some B =>
      rw [fuzzyGetModels]
      simp only [Option.bind_eq_bind]
      split
      · rfl
      · rw [h1]; rfl
  · intro L junk B w form hp hL
    have hcan : ∃ x, fuzzyCanonic L w = some x := by
      rw [fuzzyCanonic]
      split
      · exact ⟨_, rfl⟩
      · rename_i hne
        have hne' : w ≠ [] := by simpa using hne
        have hcl : (checkedParts L.tab w).length ≤ 16 := by
          rw [checkedParts_cons L.tab w hne']
          split
          · rw [List.length_dropLast]; omega
          · omega
        obtain ⟨h3, h4⟩ := capGet_value L.tab (fuzzyTab_ok hL) 256 w hcl
        by_cases hlt : w.length < 256
        · obtain ⟨sch, h5, -⟩ := h4 hlt; exact ⟨_, h5⟩
        · exact ⟨_, h3 (by omega)⟩
    obtain ⟨x, hx⟩ := hcan
    have hlen : (fuzzyImages cs t).offsets.length = cs.length := by
      have : ∀ (rs : List (List Byte)) o, (fuzzyOffsets o rs).length = rs.length := by
        intro rs
        induction rs with
        | nil => intro o; rfl
        | cons r rs ih => intro o; rw [fuzzyOffsets, List.length_cons, ih, List.length_cons]
      rw [fuzzyImages, this, List.length_map]
    rw [fuzzyBuildForm, hx]
    cases B with
    | none => rfl
    | some B =>
      simp only [Option.bind_eq_bind, Option.bind_some]
      rw [if_pos (Or.inr (by omega))]
      rfl

end Libmorph
