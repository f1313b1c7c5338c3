import Verif.Props.C67Page
import Verif.Model.Speed
import Verif.Spec.Speed
import Verif.Props.C92
/-
C98: the script that counts the words of a text that are known.
-/
namespace Libmorph
open Libmorph.Spec

/-! ### The words -/

theorem speedLetter_iff (c : Nat) : speedLetter c = true ↔ RusLetter c := by
  simp only [speedLetter, RusLetter, Bool.or_eq_true, Bool.and_eq_true, decide_eq_true_eq, beq_iff_eq]
  omega

theorem findRuns_gap {gap : List Nat} (h : ∀ c ∈ gap, ¬ RusLetter c) (t : List Nat) : findRuns [] (gap ++ t) = findRuns [] t := by
  induction gap with
  | nil => rfl
  | cons c gap ih =>
    have hc : ¬ speedLetter c = true := by rw [speedLetter_iff]; exact h c (by simp)
    rw [List.cons_append, findRuns, if_neg hc, ih fun x hx => h x (by simp [hx])]
    rfl

theorem findRuns_word {w : List Nat} (h : ∀ c ∈ w, RusLetter c) (run t : List Nat) : findRuns run (w ++ t) = findRuns (run ++ w) t := by
  induction w generalizing run with
  | nil => simp
  | cons c w ih =>
    have hc : speedLetter c = true := (speedLetter_iff c).2 (h c (by simp))
    rw [List.cons_append, findRuns, if_pos hc, ih fun x hx => h x (by simp [hx])]
    simp

theorem findRuns_stop {run : List Nat} (hr : run ≠ []) {t : List Nat} (h : ∀ c ∈ t.head?, ¬ RusLetter c) : findRuns run t = run :: findRuns [] t := by
  cases t with
  | nil => simp [findRuns, hr]
  | cons c t =>
    have hc : ¬ speedLetter c = true := by rw [speedLetter_iff]; exact h c (by simp)
    simp [findRuns, hc, hr]

theorem mem_run (p : Nat → Bool) {c : Nat} : ∀ {l : List Nat}, c ∈ l.takeWhile p → p c = true := by
  intro l
  induction l with
  | nil => intro h; simp at h
  | cons x l ih =>
    intro h
    rw [List.takeWhile_cons] at h
    split at h
    · rename_i hx
      rcases List.mem_cons.1 h with rfl | h
      · exact hx
      · exact ih h
    · simp at h

/-- **C98** The words the script takes from a text are the longest runs of Russian letters, and no others. -/
theorem C98_words (text : List Nat) (ws : List (List Nat)) : WordsOf text ws ↔ findRuns [] text = ws := by
  constructor
  · intro h
    induction h with
    | none gap h =>
      have := findRuns_gap h []
      simpa [findRuns] using this
    | word gap w rest ws h1 h2 h3 h4 _ ih =>
      rw [List.append_assoc, findRuns_gap h1, findRuns_word h3, findRuns_stop (by simpa using h2) h4, List.nil_append, ih]
  · rintro rfl
    have key : ∀ n : Nat, ∀ text : List Nat, text.length ≤ n → WordsOf text (findRuns [] text) := by
      intro n
      induction n with
      | zero =>
        intro text hl
        rw [List.length_eq_zero_iff.1 (Nat.le_zero.1 hl)]
        exact .none [] (by simp)
      | succ n ih =>
        intro text hl
        have e1 := (List.takeWhile_append_dropWhile (p := fun c => !speedLetter c) (l := text))
        have hgap : ∀ c ∈ text.takeWhile fun c => !speedLetter c, ¬ RusLetter c := by
          intro c hc
          have := mem_run (fun c => !speedLetter c) hc
          rw [← speedLetter_iff]; simpa using this
        generalize hg : (text.takeWhile fun c => !speedLetter c) = gap at *
        cases hd : text.dropWhile fun c => !speedLetter c with
        | nil =>
          rw [hd, List.append_nil] at e1
          subst e1
          have := findRuns_gap hgap []
          rw [List.append_nil] at this
          rw [this]
          exact .none _ hgap
        | cons c t =>
          have hc : speedLetter c = true := by
            have := List.head?_dropWhile_not (fun c => !speedLetter c) text
            rw [hd] at this
            simpa using this
          have e2 := (List.takeWhile_append_dropWhile (p := speedLetter) (l := c :: t))
          have hw : ∀ x ∈ (c :: t).takeWhile speedLetter, RusLetter x := fun x hx => (speedLetter_iff x).1 (mem_run speedLetter hx)
          have hne : (c :: t).takeWhile speedLetter ≠ [] := by simp [List.takeWhile_cons, hc]
          have hrest : ∀ x ∈ ((c :: t).dropWhile speedLetter).head?, ¬ RusLetter x := by
            intro x hx
            have := List.head?_dropWhile_not speedLetter (c :: t)
            rw [Option.mem_def] at hx
            rw [hx] at this
            rw [← speedLetter_iff]; simpa using this
          generalize (c :: t).takeWhile speedLetter = w at *
          generalize (c :: t).dropWhile speedLetter = rest at *
          rw [hd, ← e2] at e1
          rw [← e1, findRuns_gap hgap, findRuns_word hw, findRuns_stop (by simpa using hne) hrest, List.nil_append, ← List.append_assoc]
          refine .word gap w rest _ hgap hne hw hrest (ih rest ?_)
          have h1 := congrArg List.length e1
          have h2 := List.length_pos_iff.2 hne
          simp only [List.length_append] at h1
          omega
    exact key _ text (Nat.le_refl _)

theorem findRuns_between {c : Nat} (hc : ¬ RusLetter c) (a b : List Nat) : ∀ run, findRuns run (a ++ c :: b) = findRuns run a ++ findRuns [] b := by
  have hc : ¬ speedLetter c = true := by rw [speedLetter_iff]; exact hc
  induction a with
  | nil => intro run; simp only [List.nil_append, findRuns, if_neg hc]
  | cons x a ih =>
    intro run
    rw [List.cons_append, findRuns, findRuns]
    split
    · exact ih _
    · rw [ih, List.append_assoc]

/-- **C98** The words of two texts with something between them that is no Russian letter are those of the first and those of the second; so a text can
be counted line by line. -/
theorem C98_lines {a b : List Nat} {ws vs : List (List Nat)} {c : Nat} (ha : WordsOf a ws) (hb : WordsOf b vs) (hc : ¬ RusLetter c) :
    WordsOf (a ++ c :: b) (ws ++ vs) := by
  rw [C98_words] at *
  rw [findRuns_between hc, ha, hb]

/-! ### The counts -/

variable {α β : Type}

/-- A word is counted: it has more than one letter, and the dictionary or the guesses have an answer. -/
theorem speedKnown_count {dict : List Byte → Option (List α)} {guess : List Byte → Option (List β)} (known : List Nat → Prop) [DecidablePred known] :
    ∀ ws : List (List Nat), (∀ w ∈ ws, 1 < w.length → ∃ r g, dict (pyText w) = some r ∧ guess (pyText w) = some g ∧ (known w ↔ r ≠ [] ∨ g ≠ [])) →
      speedKnown dict guess ws = some (ws.countP fun w => decide (1 < w.length ∧ known w)) := by
  intro ws
  induction ws with
  | nil => intro _; rfl
  | cons w ws ih =>
    intro h
    have ih := ih fun x hx => h x (by simp [hx])
    rw [speedKnown, ih, List.countP_cons]
    generalize (ws.countP fun w => decide (1 < w.length ∧ known w)) = N
    by_cases h1 : 1 < w.length
    · obtain ⟨r, g, hr, hg, hk⟩ := h w (by simp) h1
      rw [if_pos h1, hr]
      cases r with
      | cons x r =>
        have hw : known w := hk.2 (.inl (by simp))
        rw [if_pos (by simp [h1, hw])]
        simp [Nat.add_comm]
      | nil =>
        rw [hg]
        cases g with
        | cons x g =>
          have hw : known w := hk.2 (.inr (by simp))
          rw [if_pos (by simp [h1, hw])]
          simp [Nat.add_comm]
        | nil =>
          have hw : ¬ known w := by rw [hk]; simp
          rw [if_neg (by simp [hw])]
          simp
    · rw [if_neg h1, if_neg (by simp [h1])]
      simp

/-- **C98** Nothing at all is printed when the file is missing, or the text has no Russian word: the messages are returned by the function, and nobody
looks at what it returns. -/
theorem C98_silent (dict : List Byte → Option (List α)) (guess : List Byte → Option (List β)) :
    speedReport dict guess none = some none ∧
    ∀ text : List Nat, WordsOf text [] → speedReport dict guess (some text) = some none := by
  refine ⟨rfl, fun text h => ?_⟩
  rw [speedReport, (C98_words text []).1 h]
  rfl

/-! ### The words in code page 1251 and in UTF-8 -/

theorem letter_fits {c : Nat} (h : RusLetter c) : pyText [c] = utf8Enc ((cyrByte c).getD 0) ∧ utf8Known ((cyrByte c).getD 0) ∧
    (cyrByte c).getD 0 ≠ 0 ∧ (cyrByte c).getD 0 < 256 ∧ rusTab.ctype ((cyrByte c).getD 0) ≠ ctDlm := by
  have all : ∀ i < 0x60, RusLetter (0x401 + i) → pyText [0x401 + i] = utf8Enc ((cyrByte (0x401 + i)).getD 0) ∧ utf8Known ((cyrByte (0x401 + i)).getD 0) ∧
    (cyrByte (0x401 + i)).getD 0 ≠ 0 ∧ (cyrByte (0x401 + i)).getD 0 < 256 ∧ rusTab.ctype ((cyrByte (0x401 + i)).getD 0) ≠ ctDlm := by
    unfold RusLetter; decide +kernel
  obtain ⟨i, rfl⟩ : ∃ i, c = 0x401 + i := ⟨c - 0x401, by unfold RusLetter at h; omega⟩
  exact all i (by unfold RusLetter at h; omega) h

theorem word_fits {w : List Nat} (h : ∀ c ∈ w, RusLetter c) : pyText w = inPage utf8Enc (in1251 w) ∧ (∀ b ∈ in1251 w, utf8Known b) ∧ Text (in1251 w) ∧
    (wordParts rusTab (in1251 w)).length ≤ 8 ∧ (in1251 w).length = w.length := by
  refine ⟨?_, ?_, ?_, ?_, by simp [in1251]⟩
  · simp only [pyText, inPage, in1251, List.flatMap_map]
    exact List.flatMap_congr fun c hc => by simpa [pyText] using (letter_fits (h c hc)).1
  · intro b hb
    obtain ⟨c, hc, rfl⟩ := List.mem_map.1 hb
    exact (letter_fits (h c hc)).2.1
  · intro b hb
    obtain ⟨c, hc, rfl⟩ := List.mem_map.1 hb
    exact ⟨(letter_fits (h c hc)).2.2.1, (letter_fits (h c hc)).2.2.2.1⟩
  · have : (wordParts rusTab (in1251 w)).length ≤ 1 := by
      clear * - h
      induction w with
      | nil => simp [in1251, wordParts]
      | cons c w ih =>
        have ih := ih fun x hx => h x (by simp [hx])
        rw [in1251, List.map_cons, wordParts, if_neg (letter_fits (h c (by simp))).2.2.2.2]
        rw [in1251] at ih
        split
        · simp
        · rename_i p ps hp
          rw [hp] at ih
          simpa using ih
    omega

theorem WordsOf.letters {text : List Nat} {ws : List (List Nat)} (h : WordsOf text ws) : ∀ w ∈ ws, ∀ c ∈ w, RusLetter c := by
  induction h with
  | none => simp
  | word gap w rest ws _ _ h3 _ _ ih =>
    intro x hx
    rcases List.mem_cons.1 hx with rfl | hx
    · exact h3
    · exact ih x hx

/-! ### With the libraries -/

variable {A : List Byte} {D : RusDict} {st : RusState} {ω : Type} [LinearOrder ω]

open Classical in
/-- **C98** With the Russian dictionary and the Russian guesser, both opened in UTF-8: a text with the words `ws` is reported with their number and the number of those
of more than one letter that are a form of an article, whatever the capitals, or for which the guesser has a lemma.
Missing: words of 48 letters and more; words at risk because of a suffix (C43); answers that do not fit into the buffers of the Python class; the limits of
`C39_report_partial`. -/
theorem C98_known_partial {P : Page} (hP : P.Ok utf8Enc utf8Known) (h : RusOk A D st) (junk : List Byte)
    (Q : FuzzyPage) (hQ : Q.Ok rusTab utf8Enc utf8Known) (R : FuzzyRank ω) (cs : List FuzzyClass) (hok : FuzzyOk R rusFuzzy cs)
    (t : PTree) (ht : t.WF) (hh : t.Holds (fuzzyMap cs)) (sort : List (FuzzyStem ω) → List (FuzzyStem ω))
    (hsort : ∀ l, (sort l).Perm l ∧ (sort l).Pairwise fun a b => b.weight ≤ a.weight) (b : Byte) (bf junk2 : List Byte)
    (lx : List Lemm) (sx : List (FuzzyStem ω)) (sb : List Byte) (gr : List Gram) (hlx : lx.length = 32) (hsx : sx.length = 32) (hsb : sb.length = 2048)
    (hgr : gr.length = 512) (text : List Nat) (ws : List (List Nat)) (hws : WordsOf text ws)
    (lemmas : List Nat → List FuzzyLemma)
    (hlem : ∀ w, lemmas w = fuzzyLemmas (fuzzyFits rusFuzzy (in1251 w) 2) cs ((in1251 w).map rusTab.lower))
    (hshort : ∀ w ∈ ws, 1 < w.length → w.length < 48)
    (hdict : ∀ w ∈ ws, 1 < w.length → D.SuffixSafe ((in1251 w).map rusTab.lower) ∧ D.HasDict ((in1251 w).map rusTab.lower) 2 ∧
      ∀ (H : List RusReading) (F : RusReading → List (List Byte)), D.Readings (rusAdmits (in1251 w) 2) ((in1251 w).map rusTab.lower) H → (∀ r ∈ H, D.DictForms r.art r.first 2 (F r)) →
        (∃ B, lemmEnd (some 32) (some B) (some 512) [] (H.map fun r => r.step (F r)) = .done) ∧
        (packed ((lemmGroups true (H.map fun r => r.step (F r))).map fun g => inPage utf8Enc g.1.text)).length < 2048)
    (hguess : ∀ w ∈ ws, 1 < w.length → (lemmas w).length ≤ 32 ∧ (fuzzyGrams cs (lemmas w)).length ≤ 512 ∧
      (packed ((lemmas w).map fun x => inPage utf8Enc (fuzzyText rusFuzzy cs ((in1251 w).map rusTab.lower) x))).length < 2048 ∧
      ∀ x ∈ lemmas w, x.ccstem + (classOf cs x.cls).normal.length < 64 ∧ FuzzyStops rusFuzzy junk2 (x.ccstem + (classOf cs x.cls).normal.length)) :
    speedReport (fun p => pyLemmatize (rusLemmatizeIn P (st.images D.mtab) junk p) lx sb gr 2)
        (fun p => pyStems (fun o s g f => fuzzyLemmatizeIn Q rusFuzzy (fuzzyImages cs t) R sort (b :: bf) junk2 p o s g f) sx sb gr 2) (some text) =
      some (if ws = [] then none
        else some (ws.length, ws.countP fun w => decide (1 < w.length ∧ ((∃ a ∈ D.arts, D.HasForm a ((in1251 w).map rusTab.lower)) ∨ lemmas w ≠ [])))) := by
  simp only [speedReport]
  rw [(C98_words text ws).1 hws]
  by_cases h0 : ws = []
  · simp [h0]
  rw [if_neg (by simpa [List.length_eq_zero_iff] using h0), if_neg h0,
    speedKnown_count fun w => (∃ a ∈ D.arts, D.HasForm a ((in1251 w).map rusTab.lower)) ∨ lemmas w ≠ []]
  · rfl
  intro w hw h1
  obtain ⟨e1, e2, e3, e4, e5⟩ := word_fits (hws.letters w hw)
  obtain ⟨d1, d2, d3⟩ := hdict w hw h1
  obtain ⟨g1, g2, g3, g4⟩ := hguess w hw h1
  have hsh := hshort w hw h1
  -- the dictionary
  obtain ⟨H, k1, F, k2, k3⟩ := C65_code_page_partial hP h (in1251 w) junk 2 2 (by decide) e2
    (by intro hn; have := congrArg List.length hn; rw [e5] at this; simp at this; simp [this] at h1) (by omega) e4 fun _ => d2
  obtain ⟨-, k4⟩ := k3 lx sb gr hlx hsb hgr
  obtain ⟨⟨B, hB⟩, hroom⟩ := d3 H F k1 (k2 (by decide))
  have k5 := ((k4 (by decide) B).1 hB).1 hroom
  -- the guesser
  have m1 := (C67_code_page_partial Q utf8Enc utf8Known R rusFuzzy (.inl rfl) hQ cs hok t ht hh (in1251 w) e3 e2 (by omega) e4 sort hsort b bf junk2
    sx sb gr 2 2 (by decide) hsx hsb hgr (lemmas w) (hlem w) (fun x hx _ => (g4 x hx).2)).2 (by decide)
  obtain ⟨ls, m2, m3, -⟩ := m1.1 ⟨g1, fun x hx => (g4 x hx).1, fun _ => g2⟩ g3
  rw [e1]
  refine ⟨_, ls, k5, m2, or_congr ?_ ?_⟩
  · rw [ne_eq, List.map_eq_nil_iff, ← ne_eq, lemmGroups_ne, ne_eq, List.map_eq_nil_iff]
    constructor
    · rintro ⟨a, ha, x, e, g, hr, hword⟩ rfl
      have := k1.all d1 a ha (by simp [rusAdmits]) x e g hr hword
      simp only [List.filter_nil, List.length_nil] at this
      have := List.count_pos_iff.2 ha
      omega
    · intro hne
      obtain ⟨r, H', rfl⟩ := List.exists_cons_of_ne_nil hne
      have hp := (k1.proper r (by simp)).1
      exact ⟨r.art, hp.art, r.alt, r.ending, r.first, first_reads hp, hp.word⟩
  · rw [ne_eq, ne_eq, not_iff_not]
    constructor
    · intro hl
      rw [hl] at m3
      simpa using m3.length_eq
    · intro hl
      rw [hl] at m3
      simpa [eq_comm] using m3.length_eq

/-- "А сна, Столов!" -/
def speedText : List Nat := [0x410, 32, 0x441, 0x43d, 0x430, 44, 32, 0x421, 0x442, 0x43e, 0x43b, 0x43e, 0x432, 33]

/-- The words of the text. -/
example : WordsOf speedText [[0x410], [0x441, 0x43d, 0x430], [0x421, 0x442, 0x43e, 0x43b, 0x43e, 0x432]] := (C98_words _ _).2 (by decide)

/-- A text of three words, of which the first has one letter, the second is in the dictionary and the third is guessed. -/
theorem report_three {dict : List Byte → Option (List α)} {guess : List Byte → Option (List β)} {text w1 w2 w3 : List Nat} {q : List Byte} {l : List α}
    {g : List β} (h0 : findRuns [] text = [w1, w2, w3]) (h1 : w1.length ≤ 1 ∧ 1 < w2.length ∧ 1 < w3.length) (hq : pyText w3 = q)
    (l1 : dict (pyText w2) = some l) (l2 : l.length ≠ 0) (d1 : dict q = some []) (g1 : guess q = some g) (g2 : g.length ≠ 0) :
    speedReport dict guess (some text) = some (some (3, 2)) := by
  obtain ⟨a, b, c⟩ := h1
  have l3 : l ≠ [] := by rintro rfl; simp at l2
  have g3 : g ≠ [] := by rintro rfl; simp at g2
  simp [speedReport, h0, speedKnown, hq, l1, l3, d1, g1, g3, Nat.not_lt.2 a, b, c]

/-- Three words, of which "сна" is in the dictionary and "Столов" is guessed; "А" is not asked for.  Words in the Latin alphabet are no words. -/
example : speedReport (fun p => pyLemmatize (rusLemmatizeIn utf8Page (rusSampleState.images rusSample.mtab) [] p) (junkLemms 32) (junkBytes 2048) (junkGrams 512) 2)
      (fun p => pyStems (fun o s g f => fuzzyLemmatizeIn utf8Fuzzy rusFuzzy (fuzzyImages fuzzySample fuzzySampleTree) sampleRank sampleSort [0] (List.replicate 64 0)
        p o s g f) (List.replicate 32 ⟨none, 0, 0, none, 0, 0⟩) (List.replicate 2048 1) (junkGrams 512) 2) (some speedText) = some (some (3, 2)) ∧
    speedReport (α := Nat) (β := Nat) (fun _ => some [1]) (fun _ => none) (some [115, 111, 110]) = some none := by
  refine ⟨?_, by decide⟩
  have e1 : findRuns [] speedText = [[0x410], [0x441, 0x43d, 0x430], [0x421, 0x442, 0x43e, 0x43b, 0x43e, 0x432]] := by decide
  have e2 : pyText [0x421, 0x442, 0x43e, 0x43b, 0x43e, 0x432] = inPage utf8Enc stolov := by decide
  have some_of : ∀ {γ : Type} (x : Option (List γ)), (x.map List.length).getD 0 ≠ 0 → ∃ l, x = some l ∧ l.length ≠ 0 := by
    intro γ x hx
    cases x with
    | none => simp at hx
    | some l => exact ⟨l, rfl, hx⟩
  obtain ⟨g, g1, g2⟩ := some_of (pyStems (fun o s g f => fuzzyLemmatizeIn utf8Fuzzy rusFuzzy (fuzzyImages fuzzySample fuzzySampleTree) sampleRank sampleSort [0]
      (List.replicate 64 0) (inPage utf8Enc stolov) o s g f) (List.replicate 32 ⟨none, 0, 0, none, 0, 0⟩) (List.replicate 2048 1) (junkGrams 512) 2) (by
    simp only [pyStems]
    rw [fuzzyLemmatizeIn, fuzzyCanonicIn_eq (P := utf8Fuzzy.page) utf8Page_ok stolov (by decide) (by decide)]
    decide +kernel)
  obtain ⟨l, l1, l2⟩ := some_of (pyLemmatize (rusLemmatizeIn utf8Page (rusSampleState.images rusSample.mtab) [] (pyText [0x441, 0x43d, 0x430])) (junkLemms 32)
      (junkBytes 2048) (junkGrams 512) 2) (by decide +kernel)
  have d1 : pyLemmatize (rusLemmatizeIn utf8Page (rusSampleState.images rusSample.mtab) [] (inPage utf8Enc stolov)) (junkLemms 32)
      (junkBytes 2048) (junkGrams 512) 2 = some [] := by decide +kernel
  exact report_three e1 (by decide) e2 l1 l2 d1 g1 g2

/-- "голов" -/
def golov : List Nat := [0x433, 0x43e, 0x43b, 0x43e, 0x432]

/-- The hypotheses of `C98_known_partial` are met by the samples and the text "голов", a word the dictionary does not know and the guesser does; the theorem says
that it is counted. -/
example : speedReport
    (fun p => pyLemmatize (rusLemmatizeIn utf8Page (rusSampleState.images rusSample.mtab) [] p) (junkLemms 32) (junkBytes 2048) (junkGrams 512) 2)
    (fun p => pyStems (fun o s g f => fuzzyLemmatizeIn utf8Fuzzy rusFuzzy (fuzzyImages fuzzySample fuzzySampleTree) sampleRank sampleSort [0] (List.replicate 64 0)
      p o s g f) (List.replicate 32 ⟨none, 0, 0, none, 0, 0⟩) (junkBytes 2048) (junkGrams 512) 2) (some golov) = some (some (1, 1)) := by
  have e0 : in1251 golov = [227, 238, 235, 238, 226] := by decide +kernel
  have hL : fuzzyLemmas (fuzzyFits rusFuzzy (in1251 golov) 2) fuzzySample ((in1251 golov).map rusTab.lower) ≠ [] := by rw [e0]; decide +kernel
  have h := C98_known_partial utf8Page_ok rusSample_ok [] utf8Fuzzy C87_utf8_ok sampleRank fuzzySample fuzzySample_ok fuzzySampleTree fuzzySample_wf
    fuzzySample_holds sampleSort sampleSort_ok 0 [] (List.replicate 64 0) (junkLemms 32) (List.replicate 32 ⟨none, 0, 0, none, 0, 0⟩) (junkBytes 2048)
    (junkGrams 512) (by decide) (by decide) (List.length_replicate ..) (List.length_replicate ..) golov [golov] ((C98_words _ _).2 (by decide))
    (fun w => fuzzyLemmas (fuzzyFits rusFuzzy (in1251 w) 2) fuzzySample ((in1251 w).map rusTab.lower)) (fun _ => rfl) (by decide)
    (fun w hw _ => by
      obtain rfl : w = golov := by simpa using hw
      refine ⟨by rw [e0]; intro a ha hw; exact absurd hw ((by decide +kernel : ∀ a ∈ rusSample.arts, [227, 238, 235, 238, 226].map rusTab.lower ≠ a.stem ++ a.post) a ha),
        rusSample_hasDict _ _, fun H F hH _ => ?_⟩
      -- no article begins with this letter
      have hH0 : H = [] := by
        cases H with
        | nil => rfl
        | cons r H =>
          have hp := (hH.proper r (by simp)).1
          have hword := congrArg List.head? hp.word
          have hst : ∀ a ∈ rusSample.arts, a.stem.head? ≠ some 227 ∧ a.stem ≠ [] := by decide
          have := hst _ hp.art
          rw [List.append_assoc, List.append_assoc, List.head?_append_of_ne_nil _ this.2, e0] at hword
          exact absurd hword.symm this.1
      subst hH0
      exact ⟨⟨0, rfl⟩, by show (0 : Nat) < 2048; decide⟩)
    (fun w hw _ => by
      obtain rfl : w = golov := by simpa using hw
      have hn : ∀ x ∈ fuzzyLemmas (fuzzyFits rusFuzzy (in1251 golov) 2) fuzzySample ((in1251 golov).map rusTab.lower),
          x.ccstem + (classOf fuzzySample x.cls).normal.length < 64 := by rw [e0]; decide +kernel
      refine ⟨by rw [e0]; decide +kernel, by rw [e0]; decide +kernel, by rw [e0]; decide +kernel, fun x hx => ⟨hn x hx, fun _ => ⟨0, ?_, .inl rfl⟩⟩⟩
      have := hn x hx
      rw [List.drop_replicate, List.mem_replicate]
      exact ⟨by omega, rfl⟩)
  rw [h, if_neg (by simp), List.countP_cons, if_pos (by simp only [decide_eq_true_eq]; exact ⟨by decide, .inr hL⟩)]
  rfl

end Libmorph
