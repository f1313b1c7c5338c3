import Verif.Lemmas.FuzzyPageFinish
import Verif.Lemmas.FuzzyPageForms
import Verif.Lemmas.Utf8
import Verif.Props.C50
import Mathlib.Tactic.ByContra
import Verif.Spec.FuzzySample
/-
C87: the fuzzy analyser in another code page answers as in code page 1251.
-/
namespace Libmorph

variable {Q : FuzzyPage} {P : Page} {L : FuzzyLang} {enc : Byte → List Byte} {known : Byte → Prop} {ω : Type}

theorem fuzzyCanonicIn_eq (hP : P.Ok enc known) (w : List Byte) (hk : ∀ b ∈ w, known b) (hl : w.length < 256) :
    fuzzyCanonicIn P L (inPage enc w) = fuzzyCanonic L w := by
  have := hP.length_le w
  simp only [fuzzyCanonicIn, fuzzyCanonic]
  by_cases h0 : w = []
  · subst h0; rfl
  · have : 0 < w.length := List.length_pos_iff.2 h0
    rw [if_neg (by omega), if_neg (by omega), hP.into_room _ w hk hl]

/-- **C87** Lemmatize: the same guesses with the same classes, weights and descriptions, the lemmas converted; the length of the stem is that of
the stem in the code page. -/
theorem C87_lemmatize (hQ : Q.Ok L.tab enc known) (im : FuzzyImages) (rank : FuzzyRank ω) (sort : List (FuzzyStem ω) → List (FuzzyStem ω))
    (hsort : sort [] = []) (before junk w : List Byte) (hk : ∀ b ∈ w, known b) (hl : w.length < 256) (out : Option (List (FuzzyStem ω)))
    (G : Option (List Gram)) (dwsets : Nat) :
    SameGuesses enc sort out (fun B => fuzzyLemmatize L im rank sort before junk w out (some B) G dwsets)
      (fun B => fuzzyLemmatizeIn Q L im rank sort before junk (inPage enc w) out (some B) G dwsets) := by
  have hnone : ∀ r : Int, r ≤ 0 → r ≠ LEMMBUFF_FAILED → SameGuesses enc sort out (fun B => some (r, out, ⟨[], ⟨some B, 0⟩, G, 0⟩))
      (fun B => some (r, out, ⟨[], ⟨some B, 0⟩, G, 0⟩)) := by
    intro r hr hne
    constructor
    · intro B n o s h h0
      cases h
      have : r = 0 := by omega
      subst this
      refine ⟨[], [], ⟨rfl, by simp⟩, rfl, by simp [filled], by simp, ?_, fun B' _ => ⟨⟨[], ⟨some B', 0⟩, G, 0⟩, ?_, by simp [filled], rfl⟩,
        fun C => ⟨fun _ => ⟨⟨[], ⟨some C, 0⟩, G, 0⟩, ?_, by simp [filled], rfl⟩, fun h => by simp [packed] at h⟩⟩
      · cases out <;> simp [hsort]
      · cases out <;> simp [hsort]
      · cases out <;> simp [hsort]
    · intro C n o s h h0
      cases h
      have : r = 0 := by omega
      subst this
      refine ⟨[], [], ⟨rfl, by simp⟩, rfl, by simp [filled], by simp [packed], ?_, fun B => ⟨fun _ => ⟨⟨[], ⟨some B, 0⟩, G, 0⟩, ?_, by simp [filled], rfl⟩,
        fun h => by simp [packed] at h⟩⟩
      · cases out <;> simp [hsort]
      · cases out <;> simp [hsort]
    · intro B e o s h h0 h1 C
      cases h
      exact ⟨_, _, .inl rfl⟩
    · intro h C
      obtain ⟨e, o, s, k1, k2⟩ := h []
      cases k1
      exact ⟨_, _, _, rfl, k2⟩
  simp only [fuzzyLemmatize, fuzzyLemmatizeIn, fuzzyCanonicIn_eq hQ.page w hk hl]
  rcases fuzzyCanonic L w with _ | _ | ⟨locase, scheme⟩
  · exact ⟨by simp, by simp, by simp, by simp⟩
  · exact hnone _ (by decide) (by decide)
  · simp only [bind, Option.bind_some]
    by_cases h1 : scheme = 0
    · simp only [if_pos h1]
      exact hnone 0 (by decide) (by decide)
    · simp only [if_neg h1]
      split
      · exact hnone 0 (by decide) (by decide)
      · obtain ⟨V, e, he, hs⟩ := patScan_ended im.reverse (locase.reverse ++ before) (scheme >>> 16)
        refine sameGuesses_of hQ im rank junk locase (scheme % 65536) dwsets V e he sort out G (fun B => ?_) (fun B => ?_)
        · have := hs (FuzzyState ω) (fun v s => fuzzyCall L im rank junk locase (scheme % 65536) dwsets v.1 v.2 s) ⟨[], ⟨some B, 0⟩, G, 0⟩
          simp only at this
          rw [this]
          simp only [fuzzyCall_with]
          rcases runEnd V e (fuzzyCallWith Coder.appendz L im rank junk locase (scheme % 65536) dwsets) ⟨[], ⟨some B, 0⟩, G, 0⟩ with _ | ⟨_ | r, s⟩ <;> rfl
        · have := hs (FuzzyState ω) (fun v s => fuzzyCallIn Q.page L im rank junk locase (scheme % 65536) dwsets v.1 v.2 s) ⟨[], ⟨some B, 0⟩, G, 0⟩
          simp only at this
          rw [this]
          simp only [fuzzyCallIn_with]
          rcases runEnd V e (fuzzyCallWith (Coder.appendzIn Q.page) L im rank junk locase (scheme % 65536) dwsets) ⟨[], ⟨some B, 0⟩, G, 0⟩ with _ | ⟨_ | r, s⟩ <;> rfl

/-- **C87** BuildForm: the forms of the class, converted. -/
theorem C87_build_form (hP : P.Ok enc known) (im : FuzzyImages) (junk w : List Byte) (hk : ∀ b ∈ w, known b) (hl : w.length < 256)
    (nclass idform : Nat) :
    SameTexts enc (fun B => fuzzyBuildForm L im junk (some B) w nclass idform)
      (fun B => fuzzyBuildFormIn P L im junk (some B) (inPage enc w) nclass idform) := by
  have hw : (WORDBUFF_FAILED : Int) < 0 := by decide
  have ha : (ARGUMENT_FAILED : Int) < 0 := by decide
  simp only [fuzzyBuildFormIn, fuzzyBuildForm, fuzzyCanonicIn_eq hP w hk hl]
  rcases fuzzyCanonic L w with _ | cw
  · exact sameTexts_of hP (scan := fun _ _ _ => none) Ended.undefined (fun B hB => rfl) (fun B hB => rfl)
  simp only [bind, Option.bind_some]
  by_cases hn : nclass ≥ im.offsets.length
  · refine sameTexts_of hP (scan := fun _ _ s => some (some ARGUMENT_FAILED, s)) (Ended.ret _ (by intro x hx; cases hx; decide)) ?_ ?_
    all_goals
      intro B hB
      simp [hn, formAnswer, formResult, ha]
  have hif : ∀ B : List Byte, B ≠ [] → ¬ (B.length = 0 ∨ nclass ≥ im.offsets.length) := by
    intro B hB h
    rcases h with h | h
    · exact hB (List.length_eq_zero_iff.1 h)
    · exact hn h
  rcases cw with _ | ⟨locase, scheme⟩
  · refine sameTexts_of hP (scan := fun _ _ s => some (some WORDBUFF_FAILED, s)) (Ended.ret _ (by intro x hx; cases hx; decide)) ?_ ?_
    all_goals
      intro B hB
      rw [if_neg (hif B hB)]
      simp [formAnswer, formResult, hw]
  by_cases h0 : scheme = 0
  · refine sameTexts_of hP (scan := fun _ _ s => some (none, s)) (Ended.ret none (by simp)) ?_ ?_
    all_goals
      intro B hB
      simp [hif B hB, h0, formAnswer, formResult, hn, hB]
  rcases hcl : fuzzyClass im nclass with _ | _ | ⟨partsp, sets, fcount, p⟩
  · refine sameTexts_of hP (scan := fun _ _ _ => none) Ended.undefined ?_ ?_
    all_goals
      intro B hB
      simp [hn, hB, h0, formAnswer]
  · refine sameTexts_of hP (scan := fun _ _ s => some (some ARGUMENT_FAILED, s)) (Ended.ret _ (by intro x hx; cases hx; decide)) ?_ ?_
    all_goals
      intro B hB
      simp [hn, hB, h0, formAnswer, formResult, ha]
  rcases hsk : skipForms idform fcount p with _ | ⟨n, q⟩
  · refine sameTexts_of hP (scan := fun _ _ _ => none) Ended.undefined ?_ ?_
    all_goals
      intro B hB
      simp [hn, hB, h0, hsk, formAnswer]
  · refine sameTexts_of hP (fuzzyTextLoop_ended L (locase.take (scheme >>> 16)) partsp idform n q junk) ?_ ?_
    · intro B hB
      rw [if_neg (hif B hB), ← fuzzyFormLoop_texts]
      simp only [if_neg h0, Option.bind_some, hsk]
      rcases fuzzyFormLoop L (locase.take (scheme >>> 16)) partsp idform n q junk ⟨some B, 0⟩ 0 with _ | ⟨r, c⟩ <;> rfl
    · intro B hB
      rw [if_neg (hif B hB), ← fuzzyFormLoopIn_texts]
      simp only [if_neg h0, Option.bind_some, hsk]
      rcases fuzzyFormLoopIn P L (locase.take (scheme >>> 16)) partsp idform n q junk ⟨some B, 0⟩ 0 with _ | ⟨r, c⟩ <;> rfl

theorem guess_stem (conv : List Byte → List Byte) (hpre : ∀ t n, conv (t.take n) = (conv t).take (conv (t.take n)).length)
    {zs : List (FuzzyStem ω)} {ts : List (List Byte)} (h : GuessesOf zs ts) (C : List Byte) (hC : (packed (ts.map conv)).length < C.length)
    (i : Nat) (x : FuzzyStem ω) (t : List Byte) (hx : zs[i]? = some x) (ht : ts[i]? = some t) :
    ∃ place, (guessRecord conv ts x).plemma = some place ∧
      ((filled C (ts.map conv)).drop place).take (guessRecord conv ts x).ccstem = conv (t.take x.ccstem) ∧ x.ccstem ≤ t.length := by
  obtain ⟨h1, h2⟩ := h.2 i x hx
  obtain ⟨hi, hti⟩ := List.getElem?_eq_some_iff.1 ht
  have hg : ts.getD i [] = t := by rw [List.getD_eq_getElem?_getD, ht]; rfl
  refine ⟨(packed ((ts.take i).map conv)).length, by simp [guessRecord, h1], ?_, h2 t ht⟩
  obtain ⟨r, hr⟩ := filled_drop hC (i := i) (by simpa using hi)
  rw [← List.map_take] at hr
  simp only [List.getElem_map, hti] at hr
  rw [hr]
  simp only [guessRecord, h1, Option.getD_some, hg]
  have hle : (conv (t.take x.ccstem)).length ≤ (conv t).length := by
    have := congrArg List.length (hpre t x.ccstem)
    rw [List.length_take] at this
    omega
  rw [List.take_append_of_le_length hle]
  exact (hpre t x.ccstem).symm

theorem inPage_prefix (enc : Byte → List Byte) (t : List Byte) (n : Nat) :
    inPage enc (t.take n) = (inPage enc t).take (inPage enc (t.take n)).length := by
  have : inPage enc t = inPage enc (t.take n) ++ inPage enc (t.drop n) := by
    simp only [inPage]
    rw [← List.flatMap_append, List.take_append_drop]
  rw [this, List.take_left]

/-- **C87** The stem of a guess can be read from the record: in the buffer, from the place of the lemma, as many bytes as the record says are
the stem, converted.  So the call of BuildForm with these bytes gets the stem (`C87_build_form`). -/
theorem C87_stem {zs : List (FuzzyStem ω)} {ts : List (List Byte)} (h : GuessesOf zs ts) (C : List Byte)
    (hC : (packed (ts.map (inPage enc))).length < C.length) (i : Nat) (x : FuzzyStem ω) (t : List Byte) (hx : zs[i]? = some x)
    (ht : ts[i]? = some t) :
    ∃ place, (guessRecord (inPage enc) ts x).plemma = some place ∧
      ((filled C (ts.map (inPage enc))).drop place).take (guessRecord (inPage enc) ts x).ccstem = inPage enc (t.take x.ccstem) ∧
      x.ccstem ≤ t.length :=
  guess_stem (inPage enc) (inPage_prefix enc) h C hC i x t hx ht

/-- **C87** Words longer than the array of 256 bytes are refused. -/
theorem C87_long (hQ : Q.page.Ok enc known) (im : FuzzyImages) (rank : FuzzyRank ω) (sort : List (FuzzyStem ω) → List (FuzzyStem ω))
    (before junk w : List Byte) (hk : ∀ b ∈ w, known b) (hl : 256 < w.length) (out : Option (List (FuzzyStem ω))) (B : Option (List Byte))
    (G : Option (List Gram)) (dwsets : Nat) :
    fuzzyLemmatizeIn Q L im rank sort before junk (inPage enc w) out B G dwsets = some (WORDBUFF_FAILED, out, ⟨[], ⟨B, 0⟩, G, 0⟩) ∧
    ∀ B nclass idform, B ≠ [] → nclass < im.offsets.length →
      fuzzyBuildFormIn Q.page L im junk (some B) (inPage enc w) nclass idform = some (WORDBUFF_FAILED, some B) := by
  have hc : fuzzyCanonicIn Q.page L (inPage enc w) = some none := by
    have := hQ.length_le w
    rw [fuzzyCanonicIn, if_neg (by omega)]
    cases hi : Q.page.into 256 (inPage enc w) with
    | none => rfl
    | some t =>
      have := (hQ.into_some _ _ _ hk hi).2
      omega
  refine ⟨by simp only [fuzzyLemmatizeIn, hc]; rfl, fun B nclass idform hB hn => ?_⟩
  simp only [fuzzyBuildFormIn, hc, bind, Option.bind_some]
  rw [if_neg (by
    rintro (h | h)
    · exact hB (List.length_eq_zero_iff.1 h)
    · omega)]
  rfl

theorem fuzzyCallWith_noBuffer (a b : App) (im : FuzzyImages) (rank : FuzzyRank ω) (junk word : List Byte) (scheme dwsets : Nat) (v : FuzzyVisit)
    (s : FuzzyState ω) (hs : s.forms.buf = none) :
    fuzzyCallWith a L im rank junk word scheme dwsets v s = fuzzyCallWith b L im rank junk word scheme dwsets v s ∧
    ∀ r s', fuzzyCallWith b L im rank junk word scheme dwsets v s = some (r, s') → s'.forms = s.forms := by
  have hopen : ∀ partsp sets pclass, fuzzyOpenWith a L rank junk word v.1 v.2 partsp sets pclass s =
        fuzzyOpenWith b L rank junk word v.1 v.2 partsp sets pclass s ∧
      ∀ r s', fuzzyOpenWith b L rank junk word v.1 v.2 partsp sets pclass s = some (r, s') → s'.forms = s.forms := by
    intro partsp sets pclass
    simp only [fuzzyOpenWith, hs, Option.isSome_none, Bool.false_eq_true, if_false, true_and]
    split
    · intro r s' h; cases h; rfl
    · rcases rank.run (word.length - v.1 - 1) v.2.power partsp v.2.form sets with _ | w
      · intro r s' h; cases h
      · simp only
        split
        · intro r s' h; cases h; rfl
        · intro r s' h; cases h; rfl
  have hgram : ∀ partsp (s : FuzzyState ω), (fuzzyGram partsp v.2 s).2.forms = s.forms := by
    intro partsp s
    simp only [fuzzyGram]
    split
    · rfl
    · split <;> rfl
  simp only [fuzzyCallWith]
  rcases fuzzyClass im v.2.cls with _ | _ | ⟨partsp, sets, fc, pclass⟩
  · exact ⟨rfl, by simp⟩
  · exact ⟨rfl, fun r s' h => by cases h; rfl⟩
  · simp only [(hopen partsp sets pclass).1, true_and]
    generalize (if L.caps && dwsets &&& sfIgnoreCapitals == 0 then (fuzzyMinCap partsp).map (isGood scheme) else some true : Option Bool) = g
    rcases g with _ | _ | _
    · intro r s' h; cases h
    · intro r s' h; cases h; rfl
    · have h2 := (hopen partsp sets pclass).2
      generalize fuzzyOpenWith b L rank junk word v.1 v.2 partsp sets pclass s = q at h2
      rcases q with _ | ⟨_ | r, s1⟩
      · intro r s' h; cases h
      · intro r s' h
        have e := h2 _ _ rfl
        have h3 := congrArg Prod.snd (Option.some.inj h)
        simp only at h3
        rw [← h3, hgram, e]
      · intro r s' h
        have e := h2 _ _ rfl
        cases h
        exact e

theorem runEnd_noBuffer (a b : App) (im : FuzzyImages) (rank : FuzzyRank ω) (junk word : List Byte) (scheme dwsets : Nat) (V : List FuzzyVisit)
    (e : Option (Option Int)) (s : FuzzyState ω) (hs : s.forms.buf = none) :
    runEnd V e (fuzzyCallWith a L im rank junk word scheme dwsets) s = runEnd V e (fuzzyCallWith b L im rank junk word scheme dwsets) s ∧
    ∀ r s', runEnd V e (fuzzyCallWith b L im rank junk word scheme dwsets) s = some (r, s') → s'.forms = s.forms := by
  have hl : runList (fuzzyCallWith a L im rank junk word scheme dwsets) V s = runList (fuzzyCallWith b L im rank junk word scheme dwsets) V s ∧
      ∀ r s', runList (fuzzyCallWith b L im rank junk word scheme dwsets) V s = some (r, s') → s'.forms = s.forms := by
    induction V generalizing s with
    | nil => exact ⟨rfl, fun r s' h => by cases h; rfl⟩
    | cons v V ih =>
      obtain ⟨h1, h2⟩ := fuzzyCallWith_noBuffer (L := L) a b im rank junk word scheme dwsets v s hs
      simp only [runList, h1]
      generalize fuzzyCallWith b L im rank junk word scheme dwsets v s = q at h2
      rcases q with _ | ⟨_ | r, s1⟩
      · exact ⟨rfl, by simp⟩
      · have e1 := h2 _ _ rfl
        obtain ⟨i1, i2⟩ := ih s1 (by rw [e1, hs])
        exact ⟨i1, fun r s' h => by rw [i2 r s' h, e1]⟩
      · exact ⟨rfl, fun r' s' h => by have e1 := h2 _ _ rfl; cases h; exact e1⟩
  obtain ⟨h1, h2⟩ := hl
  simp only [runEnd, h1, true_and]
  generalize runList (fuzzyCallWith b L im rank junk word scheme dwsets) V s = q at h2
  rcases q with _ | ⟨_ | r, s1⟩
  · simp
  · cases e with
    | none => simp
    | some e => intro r s' h; cases h; exact h2 _ _ rfl
  · intro r' s' h; cases h; exact h2 _ _ rfl

/-- **C87** Without a buffer for the lemmas there is nothing to convert: the answer is that of code page 1251, records included. -/
theorem C87_no_buffer (hP : Q.page.Ok enc known) (im : FuzzyImages) (rank : FuzzyRank ω) (sort : List (FuzzyStem ω) → List (FuzzyStem ω))
    (before junk w : List Byte) (hk : ∀ b ∈ w, known b) (hl : w.length < 256) (out : Option (List (FuzzyStem ω))) (G : Option (List Gram))
    (dwsets : Nat) :
    fuzzyLemmatizeIn Q L im rank sort before junk (inPage enc w) out none G dwsets =
      fuzzyLemmatize L im rank sort before junk w out none G dwsets := by
  simp only [fuzzyLemmatize, fuzzyLemmatizeIn, fuzzyCanonicIn_eq hP w hk hl]
  rcases fuzzyCanonic L w with _ | _ | ⟨locase, scheme⟩
  · rfl
  · rfl
  · simp only [bind, Option.bind_some]
    split
    · rfl
    · split
      · rfl
      · obtain ⟨V, e, -, hs⟩ := patScan_ended im.reverse (locase.reverse ++ before) (scheme >>> 16)
        have ha := hs (FuzzyState ω) (fun v s => fuzzyCall L im rank junk locase (scheme % 65536) dwsets v.1 v.2 s) ⟨[], ⟨none, 0⟩, G, 0⟩
        have hb := hs (FuzzyState ω) (fun v s => fuzzyCallIn Q.page L im rank junk locase (scheme % 65536) dwsets v.1 v.2 s) ⟨[], ⟨none, 0⟩, G, 0⟩
        simp only [fuzzyCall_with, fuzzyCallIn_with] at ha hb
        obtain ⟨h1, h2⟩ := runEnd_noBuffer (L := L) (Coder.appendzIn Q.page) Coder.appendz im rank junk locase (scheme % 65536) dwsets V e
          ⟨[], ⟨none, 0⟩, G, 0⟩ rfl
        rw [ha, hb, h1]
        generalize runEnd V e (fuzzyCallWith Coder.appendz L im rank junk locase (scheme % 65536) dwsets) ⟨[], ⟨none, 0⟩, G, 0⟩ = q at h2
        rcases q with _ | ⟨_ | r, s⟩
        · rfl
        · have e1 := h2 _ _ rfl
          simp only [Option.bind_some, fuzzyFinishIn, fuzzyFinish, e1, Option.isSome_none, Bool.false_eq_true, if_false]
          cases out with
          | none => rfl
          | some out =>
            simp only
            split
            · rfl
            · cases Q.width <;> rfl
        · rfl

/-- **C87** GetModels in a page whose conversion wants room for the zero: as in code page 1251 the samples of the class by weight, as many as
the buffer holds, converted. -/
theorem C87_models_partial (R : FuzzyRank ω) (cs : List FuzzyClass) (hP : P.Ok enc known) (hS : P.Strict enc) (hok : FuzzyOk R L cs) (t : PTree)
    (B : List Byte) (hB : B ≠ []) (i : Nat) (c : FuzzyClass) (hc : cs[i]? = some c) (hn : c.models.length < 2 ^ 32)
    (hm : ∀ m ∈ c.models, m.weight < 2 ^ 32 ∧ m.sample.length < 2 ^ 32) :
    ∃ (ms : List FuzzyModel) (k : Nat) (tail : List Byte), ms.Perm c.models ∧
      ms.Pairwise (fun a b => b.weight < a.weight ∨ a.weight = b.weight ∧ bytesLt b.sample a.sample = false) ∧
      k ≤ ms.length ∧ (zeroed ((ms.take k).map fun m => inPage enc m.sample)).length ≤ B.length ∧
      (∀ m, ms[k]? = some m → B.length < (zeroed ((ms.take k).map fun m => inPage enc m.sample)).length + (inPage enc m.sample).length + 1) ∧
      fuzzyGetModelsIn P (fuzzyImages cs t) (some B) i =
        some (if k = 0 ∧ c.models ≠ [] then LEMMBUFF_FAILED else (k : Int), some (zeroed ((ms.take k).map fun m => inPage enc m.sample) ++ tail)) ∧
      (zeroed ((ms.take k).map fun m => inPage enc m.sample) ++ tail).length = B.length := by
  obtain ⟨tail, h1, h2⟩ := fuzzyGetModelsIn_eq hP hS hok t B hB i c hc hn hm _ rfl
  obtain ⟨k, k1, k2, k3, k4⟩ := fittingTexts_spec ((sortModels c.models).map fun m => inPage enc m.sample) B.length
  rw [k2, ← List.map_take] at h1 h2
  rw [← List.map_take] at k3 k4
  rw [List.length_map] at k1
  refine ⟨sortModels c.models, k, tail, sortModels_perm _, ?_, k1, k3, ?_, ?_, h2⟩
  · have : Std.Total fun (a b : FuzzyModel) => modelBefore a b = true := ⟨modelBefore_total⟩
    have : IsTrans FuzzyModel fun a b => modelBefore a b = true := ⟨fun a b c h1 h2 => modelBefore_trans h1 h2⟩
    refine (List.pairwise_insertionSort _ c.models).imp ?_
    intro a b h
    simpa [modelBefore] using h
  · intro m hm'
    exact k4 (inPage enc m.sample) (by rw [List.getElem?_map, hm']; rfl)
  · rw [h1]
    have e1 : (List.map (fun m => inPage enc m.sample) ((sortModels c.models).take k)).length = k := by rw [List.length_map, List.length_take]; omega
    have e2 : List.map (fun m => inPage enc m.sample) ((sortModels c.models).take k) = [] ↔ k = 0 := by rw [← List.length_eq_zero_iff, e1]
    simp only [e2, e1]

/-! ### UTF-8 -/

/-- UTF-8, with the count of the bytes of a character. -/
def utf8Fuzzy : FuzzyPage := ⟨utf8Page, some fun b => (utf8Enc b).length⟩

/-- UTF-8 meets what is assumed of a code page. -/
theorem C87_utf8_ok : utf8Fuzzy.Ok rusTab utf8Enc utf8Known where
  page := utf8Page_ok
  caps b := by
    by_cases h : b < 256
    · have : ∀ b < 256, (utf8Enc (rusTab.upper b)).length = (utf8Enc b).length := by decide +kernel
      exact this b h
    · have h1 : rusTab.upper b = 0 := by
        simp only [rusTab]
        rw [List.getD_eq_getElem?_getD, List.getElem?_eq_none]
        · rfl
        · have : rusToUpCaseMatrix.length = 256 := by decide +kernel
          omega
      rw [h1]
      have h2 : utf8Enc b = [63] := by rw [utf8Enc, if_neg (by omega), if_neg (by omega)]
      rw [h2]
      decide
  utf8 f hf b := by cases hf; rfl
  bytes h := by cases h

/-- UTF-8 as a conversion that wants room for the zero. -/
def utf8Strict : Page := { utf8Page with from1251 := fun n p => if (inPage utf8Enc p).length < n then utf8Page.from1251 n p else none }

theorem utf8Strict_strict : utf8Strict.Strict utf8Enc := by
  intro n p h
  by_contra hc
  simp [utf8Strict, hc] at h

theorem utf8Strict_ok : utf8Strict.Ok utf8Enc utf8Known where
  into_room := utf8Page_ok.into_room
  into_some := utf8Page_ok.into_some
  from_room n p h := by
    simp only [utf8Strict, if_pos h]
    exact utf8Page_ok.from_room n p h
  from_some n p k o h := by
    simp only [utf8Strict] at h
    split at h
    · exact utf8Page_ok.from_some n p k o h
    · cases h
  zero := utf8Page_ok.zero
  code := utf8Page_ok.code

/-- Into 15 bytes go «дом» and nothing more; 16 bytes hold «дом» and «стол». -/
example : fuzzyGetModelsIn utf8Strict (fuzzyImages fuzzySample fuzzySampleTree) (some (List.replicate 15 1)) 0 =
      some (1, some (inPage utf8Enc [228, 238, 236] ++ [0, 1, 1, 1, 1, 1, 1, 1, 1])) ∧
    fuzzyGetModelsIn utf8Strict (fuzzyImages fuzzySample fuzzySampleTree) (some (List.replicate 16 1)) 0 =
      some (2, some (inPage utf8Enc [228, 238, 236] ++ [0] ++ inPage utf8Enc [241, 242, 238, 235] ++ [0])) := by
  constructor <;> decide +kernel

/-- «Столов» in UTF-8: as a noun with the stem «стол» (8 bytes) of «стол», as a surname with the stem «столов» (12 bytes) of «Столов». -/
example : ((fuzzyLemmatizeIn utf8Fuzzy rusFuzzy (fuzzyImages fuzzySample fuzzySampleTree) sampleRank sampleSort [0] (List.replicate 64 0) (inPage utf8Enc stolov)
      (some (List.replicate 4 ⟨none, 0, 0, none, 0, 0⟩)) (some (List.replicate 40 1)) none 0).map fun r =>
        (r.1, r.2.1.map fun l => l.map fun x => (x.plemma, x.ccstem, x.nclass))) =
    some (2, some [(some 13, 8, 0), (some 0, 12, 1), (none, 0, 0), (none, 0, 0)]) := by
  rw [fuzzyLemmatizeIn, fuzzyCanonicIn_eq (P := utf8Fuzzy.page) utf8Page_ok stolov (by decide) (by decide)]
  decide +kernel

/-- **C87** The length of the stem in UTF-8 depends on whether the caller wants the lemmas: without a buffer for them it counts letters, not bytes. -/
theorem C87_stem_length_differs :
    ((fuzzyLemmatizeIn utf8Fuzzy rusFuzzy (fuzzyImages fuzzySample fuzzySampleTree) sampleRank sampleSort [0] (List.replicate 64 0) (inPage utf8Enc stolov)
      (some (List.replicate 2 ⟨none, 0, 0, none, 0, 0⟩)) (some (List.replicate 40 1)) none 0).map fun r => (r.1, r.2.1.map fun l => l.map fun x => x.ccstem)) =
        some (2, some [8, 12]) ∧
    ((fuzzyLemmatizeIn utf8Fuzzy rusFuzzy (fuzzyImages fuzzySample fuzzySampleTree) sampleRank sampleSort [0] (List.replicate 64 0) (inPage utf8Enc stolov)
      (some (List.replicate 2 ⟨none, 0, 0, none, 0, 0⟩)) none none 0).map fun r => (r.1, r.2.1.map fun l => l.map fun x => x.ccstem)) =
        some (2, some [4, 6]) := by
  constructor
  all_goals
    rw [fuzzyLemmatizeIn, fuzzyCanonicIn_eq (P := utf8Fuzzy.page) utf8Page_ok stolov (by decide) (by decide)]
    decide +kernel

/-- **C87** A conversion may fill the buffer to its last byte and leave out the zero.  GetModels then goes on behind the end: "дом" takes six bytes
of a buffer of six, and the next text is written behind it. -/
theorem C87_models_overrun : utf8Page.Ok utf8Enc utf8Known ∧
    fuzzyGetModelsIn utf8Page (fuzzyImages fuzzySample fuzzySampleTree) (some (List.replicate 6 1)) 0 = none ∧
    fuzzyGetModelsIn utf8Page (fuzzyImages fuzzySample fuzzySampleTree) (some (List.replicate 7 1)) 0 =
      some (1, some (inPage utf8Enc [228, 238, 236] ++ [0])) := by
  refine ⟨utf8Page_ok, ?_, ?_⟩ <;> decide +kernel

end Libmorph
