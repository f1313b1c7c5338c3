import Verif.Lemmas.Bench
import Verif.Props.C84
import Verif.Props.C12Rus
import Verif.Props.C11
import Verif.Props.C90
import Verif.Props.C91
/-
C92: the programs benchmark and wildcards.
-/
namespace Libmorph
open Libmorph.Spec

variable {A : List Byte} {D : RusDict} {st : RusState}

/-! ### The words -/

/-- **C92** The words of a text: `GetWords` gives, in the order of the text, exactly the stretches of two letters and more with no letter before or behind. -/
theorem C92_words (s : List Byte) (hs : ∀ c ∈ s, c < 256) :
    ∃ ps : List (List Nat × List Nat), getWords s = ps.map Prod.snd ∧ (ps.Pairwise fun p q => p.1.length + p.2.length < q.1.length) ∧
      ∀ x w, (x, w) ∈ ps ↔ WordAt s x w := getWordsN_eq _ s hs (Nat.lt_succ_self _)

theorem getWords_letters {s : List Byte} (hs : ∀ c ∈ s, c < 256) {w : List Byte} (hw : w ∈ getWords s) :
    2 ≤ w.length ∧ ∀ c ∈ w, TextLetter c ∧ c < 256 := by
  obtain ⟨ps, h1, -, h3⟩ := C92_words s hs
  rw [h1] at hw
  obtain ⟨⟨x, w'⟩, hp, rfl⟩ := List.mem_map.1 hw
  obtain ⟨⟨y, hy, -⟩, -, k2, k3⟩ := (h3 _ _).1 hp
  exact ⟨k2, fun c hc => ⟨k3 c hc, hs c (by rw [hy]; simp [hc])⟩⟩

theorem letters_one_part (T : CharTab) (hT : ∀ b < 256, (65 ≤ b ∧ b ≤ 90) ∨ (97 ≤ b ∧ b ≤ 122) ∨ 128 ≤ b → T.ctype b ≠ ctDlm) {w : List Byte}
    (hw : ∀ c ∈ w, TextLetter c ∧ c < 256) : (wordParts T w).length ≤ 8 := by
  rw [wordParts_length]
  have : dlmCount T w = 0 := by
    rw [dlmCount, List.length_eq_zero_iff, List.filter_eq_nil_iff]
    intro c hc
    simpa using hT c (hw c hc).2 (hw c hc).1
  omega

theorem rusTab_letters : ∀ b < 256, (65 ≤ b ∧ b ≤ 90) ∨ (97 ≤ b ∧ b ≤ 122) ∨ 128 ≤ b → rusTab.ctype b ≠ ctDlm := by decide +kernel
theorem engTab_letters : ∀ b < 256, (65 ≤ b ∧ b ≤ 90) ∨ (97 ≤ b ∧ b ≤ 122) ∨ 128 ≤ b → engTab.ctype b ≠ ctDlm := by decide +kernel

/-! ### The count -/

/-- What the program counts as known for a dictionary whose forms are `forms`: a form in small letters - or a word of 48 bytes and more. -/
def CountedKnown (forms : List Byte → Prop) (w : List Byte) : Prop := 48 ≤ w.length ∨ forms w

open Classical in
/-- The report of the program: a hundred times the words, a hundred times those that are counted as known. -/
noncomputable def benchReport (forms : List Byte → Prop) (text : List Byte) (ms : Nat) : BenchReport :=
  ⟨100 * (getWords text).length, 100 * ((getWords text).filter fun w => decide (CountedKnown forms w)).length, 100 * (getWords text).length * 1000 / ms⟩

theorem answers_known {L : List Lemm} {gs : List LemmGroup} {res : Option (Int × LemmState)} {e : LemmEnd} (h : AnswersAs (some L) none none gs res e)
    (he : e ≠ .undefined) : ∃ r s, res = some (r, s) ∧ (r ≠ 0 ↔ gs ≠ [] ∨ ∃ c, e = .code c) := by
  cases e with
  | done =>
    obtain ⟨s, h1, -, -⟩ := h
    refine ⟨_, s, h1, ?_⟩
    cases gs <;> simp <;> omega
  | code r =>
    obtain ⟨s, h1, h2, -⟩ := h
    exact ⟨r, s, h1, by have := h2.neg; simp; omega⟩
  | undefined => exact absurd rfl he

theorem lemmGroups_ne {H : List LemmStep} : lemmGroups true H ≠ [] ↔ H ≠ [] := by
  constructor
  · rintro h rfl; exact h rfl
  · intro h
    induction H using List.reverseRecOn with
    | nil => exact absurd rfl h
    | append_singleton H p ih =>
      rw [lemmGroups_snoc, joinStep]
      split
      · split <;> simp
      · simp

theorem benchmark_eq {call : List Lemm → List Byte → Option Int} {stack : Nat → List Lemm} {forms : List Byte → Prop} (text : List Byte) (ms : Nat)
    (h : ∀ w ∈ getWords text, ∀ k, ∃ r, call (stack k) w = some r ∧ (r ≠ 0 ↔ CountedKnown forms w))
    (hms : 0 < ms) (hn : 100 * (getWords text).length < 2 ^ 32) (hq : 100 * (getWords text).length * 1000 / ms < 2 ^ 32) :
    benchmark call stack ms text = some (benchReport forms text ms) := by
  classical
  have hp := benchPasses_eq (call := call) (stack := stack) (known := fun w => decide (CountedKnown forms w)) (getWords text)
    (fun w hw k => by simpa using h w hw k) 100 0 0 0 (by decide) (by decide)
  have hle : ((getWords text).filter fun w => decide (CountedKnown forms w)).length ≤ (getWords text).length := List.length_filter_le _ _
  rw [Nat.zero_add, Nat.zero_add, Nat.mod_eq_of_lt hn, Nat.mod_eq_of_lt (by omega)] at hp
  simp only [benchmark, hp, bind, Option.bind_some, if_neg (show ¬ ms = 0 by omega), if_neg (show ¬ 2 ^ 32 ≤ 100 * (getWords text).length * 1000 / ms by omega)]
  simp only [benchReport]
  congr!

/-- **C92** What the program reports with the Russian dictionary, for any text: the number of its words, how many of them are counted as known, a
hundred times each, and the words per second, whatever is on the stack. -/
theorem C92_russian (h : RusOk A D st) (text junk : List Byte) (ht : ∀ c ∈ text, c < 256) (stack : Nat → List Lemm) (hstack : ∀ k, (stack k).length = 32)
    (hsafe : ∀ w ∈ getWords text, D.SuffixSafe (w.map rusTab.lower)) (ms : Nat) (hms : 0 < ms) (hn : 100 * (getWords text).length < 2 ^ 32)
    (hq : 100 * (getWords text).length * 1000 / ms < 2 ^ 32) :
    benchmark (fun L w => (rusLemmatize (st.images D.mtab) junk w (some L) none none 2).map Prod.fst) stack ms text =
      some (benchReport (fun w => ∃ a ∈ D.arts, D.HasForm a (w.map rusTab.lower)) text ms) := by
  refine benchmark_eq text ms (fun w hw k => ?_) hms hn hq
  obtain ⟨h2, hl⟩ := getWords_letters ht hw
  have hparts := letters_one_part rusTab rusTab_letters hl
  by_cases hlen : w.length < 48
  · obtain ⟨H, hH, F, -, hA⟩ := C90_russian h w 2 (by rintro rfl; simp at h2) hlen hparts
    have := hA junk (some (stack k)) none none (by simp)
    obtain ⟨r, s, h1, h3⟩ := answers_known this (C90_defined _ _ _ _ (.inr rfl))
    refine ⟨r, by rw [h1]; rfl, h3.trans ?_⟩
    have hHne : (H ≠ []) ↔ ∃ a ∈ D.arts, D.HasForm a (w.map rusTab.lower) := by
      constructor
      · intro hne
        obtain ⟨q, hq⟩ := List.exists_mem_of_ne_nil _ hne
        obtain ⟨p, -⟩ := hH.proper q hq
        obtain ⟨g, hg⟩ := List.exists_mem_of_ne_nil _ p.some_
        exact ⟨q.art, p.art, q.alt, q.ending, g, (p.grams g).1 hg, p.word⟩
      · rintro ⟨a, ha, x, e, g, hr, hword⟩ rfl
        have := hH.all (hsafe w hw) a ha (by simp [rusAdmits]) x e g hr hword
        simp only [List.filter_nil, List.length_nil] at this
        have := List.count_pos_iff.2 ha
        omega
    rw [CountedKnown, ← hHne]
    constructor
    · rintro (hg | ⟨c, hc⟩)
      · right
        rintro rfl
        exact hg rfl
      · right
        rintro rfl
        cases hc
    · rintro (hg | hg)
      · omega
      · left
        exact lemmGroups_ne.2 (by simpa using hg)
  · refine ⟨WORDBUFF_FAILED, ?_, by simp [CountedKnown, WORDBUFF_FAILED]; omega⟩
    have := (C14_rus_too_long_partial (st.images D.mtab) junk w 2 (by omega) (by omega)).2.1 (some (stack k)) none none
    simp only [this, Option.map_some]

/-- **C92** What the program reports with the English dictionary. -/
theorem C92_english {as : List Article} (h : EngOk A as) (text junk : List Byte) (ht : ∀ c ∈ text, c < 256) (stack : Nat → List Lemm)
    (hsafe : ∀ w ∈ getWords text, SuffixSafe as (w.map engTab.lower)) (ms : Nat) (hms : 0 < ms) (hn : 100 * (getWords text).length < 2 ^ 32)
    (hq : 100 * (getWords text).length * 1000 / ms < 2 ^ 32) :
    benchmark (fun L w => (lemmatize (engBuild as).images junk w (some L) none none 2).map Prod.fst) stack ms text =
      some (benchReport (fun w => ∃ a ∈ as, a.HasForm (w.map engTab.lower)) text ms) := by
  refine benchmark_eq text ms (fun w hw k => ?_) hms hn hq
  obtain ⟨h2, hl⟩ := getWords_letters ht hw
  have hparts := letters_one_part engTab engTab_letters hl
  by_cases hlen : w.length < 48
  · obtain ⟨H, hH, hA⟩ := C90_english h w 2 (by rintro rfl; simp at h2) hlen hparts
    have := hA junk (some (stack k)) none none (by simp)
    obtain ⟨r, s, h1, h3⟩ := answers_known this (C90_defined _ _ _ _ (.inr rfl))
    refine ⟨r, by rw [h1]; rfl, h3.trans ?_⟩
    have hHne : (H ≠ []) ↔ ∃ a ∈ as, a.HasForm (w.map engTab.lower) := by
      trans Matches as w 2 ≠ []
      · rw [← List.length_pos_iff, ← List.length_pos_iff, (hH.full (hsafe w hw)).length_eq]
      · rw [Matches_ne_nil]
        simp [admits]
    rw [CountedKnown, ← hHne]
    constructor
    · rintro (hg | ⟨c, hc⟩)
      · right
        rintro rfl
        exact hg rfl
      · right
        rintro rfl
        cases hc
    · rintro (hg | hg)
      · omega
      · left
        exact lemmGroups_ne.2 (by simpa using hg)
  · refine ⟨WORDBUFF_FAILED, ?_, by simp [CountedKnown, WORDBUFF_FAILED]; omega⟩
    have := (C14_too_long_partial (engBuild as).images junk w 2 (by omega) (by omega)).2.1 (some (stack k)) none none
    simp only [this, Option.map_some]

/-- **C92** refuted for long words: a word of 48 letters and more, which the dictionary refuses, is counted as known. -/
theorem C92_long_counterexample (im : RusImages) (junk w : List Byte) (hw : ∀ c ∈ w, TextLetter c ∧ c < 256) (hl : 48 ≤ w.length) (stack : Nat → List Lemm)
    (ms : Nat) (hms : 100000 ≤ ms) : rusCheck im junk w 2 = some WORDBUFF_FAILED ∧
    benchmark (fun L w => (rusLemmatize im junk w (some L) none none 2).map Prod.fst) stack ms w = some ⟨100, 100, 100000 / ms⟩ := by
  have hparts := letters_one_part rusTab rusTab_letters hw
  have hlong := C14_rus_too_long_partial im junk w 2 hl (by omega)
  refine ⟨hlong.1, ?_⟩
  have hwords : getWords w = [w] := by
    have h0 : w.dropWhile (fun c => !isAlphaExt c) = w := by
      cases w with
      | nil => rfl
      | cons c w => rw [List.dropWhile_cons, (isAlphaExt_iff (hw c (by simp)).2).2 (hw c (by simp)).1]; rfl
    have h1 : ∀ t : List Nat, (∀ c ∈ t, TextLetter c ∧ c < 256) → t.takeWhile isAlphaExt = t ∧ t.dropWhile isAlphaExt = [] := by
      intro t ht
      induction t with
      | nil => exact ⟨rfl, rfl⟩
      | cons c t ih =>
        have hc := (isAlphaExt_iff (ht c (by simp)).2).2 (ht c (by simp)).1
        obtain ⟨i1, i2⟩ := ih fun c hc => ht c (by simp [hc])
        simp [List.takeWhile_cons, List.dropWhile_cons, hc, i1, i2]
    cases w with
    | nil => simp at hl
    | cons c w =>
      obtain ⟨i1, i2⟩ := h1 w fun c hc => hw c (by simp [hc])
      rw [getWords, getWordsN, h0]
      simp only [i1, i2]
      rw [if_pos (by simp only [List.length_cons] at hl ⊢; omega)]
      cases w with
      | nil => simp at hl
      | cons d w => rfl
  have := benchmark_eq (forms := fun _ => True) (call := fun L w => (rusLemmatize im junk w (some L) none none 2).map Prod.fst) (stack := stack) w ms
    (by
      rw [hwords]
      intro v hv k
      rw [List.mem_singleton.1 hv]
      exact ⟨WORDBUFF_FAILED, by simp only [hlong.2.1, Option.map_some], by simp [CountedKnown, WORDBUFF_FAILED]⟩)
    (by omega) (by rw [hwords]; simp) (by rw [hwords]; exact Nat.lt_of_le_of_lt (Nat.div_le_self _ _) (by simp))
  rw [this]
  simp [benchReport, hwords, CountedKnown]

/-- **C92** refuted for short texts: when no millisecond has passed, a number that is infinite or none is converted. -/
theorem C92_instant (call : List Lemm → List Byte → Option Int) (stack : Nat → List Lemm) (text : List Byte) : benchmark call stack 0 text = none := by
  simp only [benchmark]
  cases benchPasses call stack (getWords text) 100 (0, 0, 0) <;> rfl

/-! ### `main` of benchmark -/

/-- The program with the Russian library at one path. -/
def benchProgram (path : List Byte) (files : List Byte → Except (Nat × List Byte) (List Byte)) (run : ApiInst → List Byte → Option BenchReport)
    (print : BenchReport → List Byte) (args : List (List Byte)) : Option ToolRun :=
  benchMain libmorphMagic [] (fun p => if p = path then some rusToolLibrary else none) files run print args

/-- **C92** refuted for the program as it is shipped: the colon between the prefix and the code page is missing, so with any name of a code page, and
without one, nothing is measured: there is a message on the standard error. -/
theorem C92_main_counterexample (path fn file : List Byte) (files : List Byte → Except (Nat × List Byte) (List Byte))
    (run : ApiInst → List Byte → Option BenchReport) (print : BenchReport → List Byte) (more : List (List Byte)) (hz : 0 ∉ fn)
    (h : ∀ name enc, fn = name ++ 58 :: enc → 58 ∉ name → enc.head? ≠ some 58) :
    ∃ msg, msg ≠ [] ∧ benchProgram path files run print (path :: fn :: file :: more) = some ⟨[], msg, msg.length % 256⟩ := by
  simp only [benchProgram, benchMain, if_true]
  generalize henc : (if 58 ∈ fn then (fn.dropWhile (· ≠ 58)).drop 1 else asciiBytes "utf-8") = enc
  have hhead : enc.head? ≠ some 58 ∧ 0 ∉ enc := by
    by_cases hin : 58 ∈ fn
    · rw [if_pos hin] at henc
      have hsplit := List.takeWhile_append_dropWhile (p := fun c : Nat => decide (c ≠ 58)) (l := fn)
      have ha : 58 ∉ fn.takeWhile (fun c : Nat => decide (c ≠ 58)) := fun hm => by
        have := takeWhile_pass _ _ _ hm
        simp at this
      generalize fn.takeWhile (fun c : Nat => decide (c ≠ 58)) = a at hsplit ha
      generalize hd : fn.dropWhile (fun c : Nat => decide (c ≠ 58)) = d at hsplit henc
      obtain ⟨b, rfl⟩ : ∃ b, d = 58 :: b := by
        cases d with
        | nil => rw [List.append_nil] at hsplit; rw [hsplit] at ha; exact absurd hin ha
        | cons c b =>
          have := dropWhile_first _ _ c (by rw [hd]; rfl)
          exact ⟨b, by simp at this; rw [this]⟩
      have e := hsplit.symm
      rw [List.drop_succ_cons, List.drop_zero] at henc
      rw [← henc]
      exact ⟨h a b e ha, fun hb => hz (by rw [e]; simp [hb])⟩
    · rw [if_neg hin] at henc
      rw [← henc]; exact ⟨by decide, by decide⟩
  by_cases he : enc = []
  · rw [if_pos he]
    exact ⟨_, by decide, rfl⟩
  · rw [if_neg he]
    generalize fn.takeWhile (· ≠ 58) = nm
    by_cases hn : nm = asciiBytes "mlmaruGetAPI"
    · simp only [rusToolLibrary, if_pos hn]
      have hr := (C32_refused (.inl rfl) (asciiBytes libmorphMagic ++ enc) [] true (by
        rintro ⟨t, ht⟩
        have e1 : asciiBytes (libmorphMagic ++ ":") = asciiBytes libmorphMagic ++ [58] := by decide +kernel
        rw [e1, List.append_assoc] at ht
        have := List.append_cancel_left ht
        rw [← this] at hhead
        exact hhead.1 rfl)).1
      rw [cstr] at hr
      simp only [hr, bind, Option.bind_some]
      exact ⟨_, by decide, rfl⟩
    · simp only [rusToolLibrary, if_neg hn]
      refine ⟨_, ?_, rfl⟩
      intro h0
      have := congrArg List.length h0
      have e : (asciiBytes "Error: could not find function '").length = 32 := by decide
      simp only [List.length_append, e] at this
      simp at this

/-- **C92** With two colons the program is run: with the text of the file, for the object of the code page. -/
theorem C92_main (path file text : List Byte) (files : List Byte → Except (Nat × List Byte) (List Byte))
    (run : ApiInst → List Byte → Option BenchReport) (print : BenchReport → List Byte) (more : List (List Byte)) (hf : files file = .ok text) :
    benchProgram path files run print (path :: asciiBytes "mlmaruGetAPI::1251" :: file :: more) = (run .cp1251 text).map (fun r => ⟨print r, [], 0⟩) ∧
    benchProgram path files run print (path :: asciiBytes "mlmaruGetAPI::utf-8" :: file :: more) = (run .utf8 text).map (fun r => ⟨print r, [], 0⟩) := by
  have key : ∀ fn enc i, fn.takeWhile (· ≠ 58) = asciiBytes "mlmaruGetAPI" → 58 ∈ fn → (fn.dropWhile (· ≠ 58)).drop 1 = enc → enc ≠ [] →
      rusGetAPI libmorphMagic (some (asciiBytes libmorphMagic ++ enc ++ [0])) true = some (0, .inst i) →
      benchProgram path files run print (path :: fn :: file :: more) = (run i text).map fun r => ⟨print r, [], 0⟩ := by
    intro fn enc i k1 k2 k3 k4 k5
    simp only [benchProgram, benchMain, if_true, k1, if_pos k2, k3, if_neg k4, rusToolLibrary, k5, bind, Option.bind_some, hf]
    cases run i text <;> rfl
  exact ⟨key _ (asciiBytes ":1251") .cp1251 (by decide) (by decide) (by decide) (by decide) (by decide +kernel),
    key _ (asciiBytes ":utf-8") .utf8 (by decide) (by decide) (by decide) (by decide) (by decide +kernel)⟩

/-! ### The wildcard search in a code page -/

/-- What a search finds in a compiled dictionary has lexeme ids other than 0. -/
theorem rusFound_ids (h : RusOk A D st) (hw : RusWildOk D) (tail smatch T : List Byte) (htail : tail ≠ []) (hbuf : smatch.length = 48)
    {V : List (Nat × List Byte × Gram)} (hV : rusFound (st.images D.mtab) tail smatch T = some V) : ∀ x ∈ V, x.1 ≠ 0 := by
  let reg : Nat × StrMatch → Unit → Option Unit := fun p s => if p.1 = 0 then none else some s
  let l := D.arts.map fun a => (a.stem, st.entryFor D a)
  have himg : (st.images D.mtab).stemtree = stemImage (fileAll l) := by
    have := h.entries
    simp only [RusState.images, l]
    rw [← this]
  have hmem : ∀ k e, (k, e) ∈ l → ∃ a ∈ D.arts, k = a.stem ∧ e = st.entryFor D a := by
    intro k e hk
    obtain ⟨a, ha, h1⟩ := List.mem_map.1 hk
    simp only [Prod.mk.injEq] at h1
    exact ⟨a, ha, h1.1.symm, h1.2.symm⟩
  have hcoll : ∀ a ∈ D.arts, ∀ r, ∃ H : List WildHit, wildCollect (st.images D.mtab) (st.entryFor D a) a.stem r = H.map WildHit.report ∧
      (∀ x ∈ H, x.art = a) ∧ Emits 48 reg a.stem (rusWildTarget (st.images D.mtab) (regOf reg) (st.entryFor D a).nlexid (st.entryFor D a).oclass r
        (st.entryFor D a).stpost a.stem.length) (H.map WildHit.report) := by
    intro a ha r
    obtain ⟨H, h1, h2, -⟩ := rusTarget_emits h hw ha r
    exact ⟨H, collect_emits (by have := hw.stems a ha; omega) (h1 _ _), fun x hx => ((h2 x).1 hx).1, h1 _ _⟩
  obtain ⟨L, l1, -, -, -⟩ := wildScan_dict (cap := 48) (reg := reg) h.dict (target := rusWildTarget (st.images D.mtab) (regOf reg))
    (EV := fun e k r => wildCollect (st.images D.mtab) e k r)
    (by
      intro k e r hk
      obtain ⟨a, ha, rfl, rfl⟩ := hmem k e hk
      obtain ⟨H, h1, -, h3⟩ := hcoll a ha r
      rw [h1]; exact h3)
    (by
      rintro ⟨k, e⟩ hk
      obtain ⟨a, ha, rfl, rfl⟩ := hmem k e hk
      exact hw.stems a ha)
    (by omega) tail htail T
  have hrun := l1 smatch () hbuf (List.nil_prefix)
  have hE : ∀ E : List (Nat × StrMatch), (∀ e ∈ E, e.1 ≠ 0) → E.foldlM (fun s e => reg e s) () = some () := by
    intro E
    induction E with
    | nil => intro _; rfl
    | cons e E ih =>
      intro he
      have h0 : e.1 ≠ 0 := he e (by simp)
      rw [List.foldlM_cons]
      simp only [reg, if_neg h0, bind, Option.bind_some]
      exact ih fun e h => he e (by simp [h])
  rw [hE _ (by
    intro e he
    obtain ⟨v, -, he⟩ := List.mem_flatMap.1 he
    obtain ⟨en, hen, he⟩ := List.mem_flatMap.1 he
    have hen := (filedUnder_perm l v.1).mem_iff.1 (List.mem_of_mem_filter hen)
    obtain ⟨⟨k, en'⟩, hk, rfl⟩ := List.mem_map.1 hen
    obtain ⟨hk1, hk2⟩ := List.mem_filter.1 hk
    obtain ⟨a, ha, rfl, rfl⟩ := hmem _ _ hk1
    have hk2 : a.stem = v.1 := by simpa using hk2
    obtain ⟨H, h1, h2, -⟩ := hcoll a ha v.2
    rw [← hk2, h1] at he
    obtain ⟨x, hx, rfl⟩ := List.mem_map.1 he
    show x.art.id ≠ 0
    rw [h2 x hx]; exact hw.ids a ha)] at hrun
  obtain ⟨buf', r1, -, -⟩ := hrun
  obtain ⟨V', e, v1, v2⟩ := rusFound_eq (st.images D.mtab) tail smatch T
  have hreg : regOf reg = foundReg fun (a : Nat × List Byte × Gram) (s : Unit) => if a.1 = 0 then none else some s := rfl
  rw [← himg, hreg, v1] at r1
  rw [hV] at v2
  cases e with
  | none => cases v2
  | some e =>
    have : V = V' := by simpa using v2
    subst this
    clear hV v2 v1
    have hall : ∀ V : List (Nat × List Byte × Gram), (regAll (fun a (s : Unit) => if a.1 = 0 then none else some s) V ()).isSome → ∀ x ∈ V, x.1 ≠ 0 := by
      intro V
      induction V with
      | nil => intro _ x hx; cases hx
      | cons y V ih =>
        intro hs x hx
        rw [regAll] at hs
        by_cases h0 : y.1 = 0
        · simp [h0] at hs
        · simp only [if_neg h0, bind, Option.bind_some] at hs
          rcases List.mem_cons.1 hx with rfl | hx
          · exact h0
          · exact ih hs x hx
    refine hall V ?_
    rcases hr : regAll (fun (a : Nat × List Byte × Gram) (s : Unit) => if a.1 = 0 then none else some s) V () with _ | s
    · rw [hr] at r1; cases r1
    · rfl

variable {P : Page} {enc : Byte → List Byte} {known : Byte → Prop}

/-- The room for the forms of a lexeme in a code page: each takes 95 bytes at most and has no zero; all together, each with a zero, fit the array. -/
def RusDict.PageRoom (D : RusDict) (enc : Byte → List Byte) : Prop :=
  ∀ a ∈ D.arts, (∀ x e g, D.Reads a x e g → (inPage enc (WildHit.mk a x e g).report.2.text).length ≤ 95 ∧ 0 ∉ inPage enc (WildHit.mk a x e g).report.2.text) ∧
    ∀ l : List (List Byte × List Byte × FlexInfo), l.Nodup → (∀ q ∈ l, D.Reads a q.1 q.2.1 q.2.2) →
      (l.map fun q => (inPage enc (WildHit.mk a q.1 q.2.1 q.2.2).report.2.text).length + 1).sum ≤ 256 * 96

theorem filter_call {β : Type} (C : List (Nat × List β)) (hC : (C.map Prod.fst).Nodup) (c : Nat × List β) (hc : c ∈ C) :
    (C.flatMap fun c => c.2.map fun m => (c.1, m)).filter (fun p => p.1 = c.1) = c.2.map fun m => (c.1, m) := by
  induction C with
  | nil => cases hc
  | cons d C ih =>
    rw [List.map_cons, List.nodup_cons] at hC
    rw [List.flatMap_cons, List.filter_append]
    have hall : ∀ (d : Nat × List β), d.1 = c.1 → (d.2.map fun m => (d.1, m)).filter (fun p => p.1 = c.1) = d.2.map fun m => (d.1, m) := by
      intro d hd
      rw [List.filter_eq_self]
      intro p hp
      obtain ⟨m, -, rfl⟩ := List.mem_map.1 hp
      simpa using hd
    rcases List.mem_cons.1 hc with rfl | hc
    · rw [hall c rfl]
      have : (C.flatMap fun c => c.2.map fun m => (c.1, m)).filter (fun p => p.1 = c.1) = [] := by
        rw [List.filter_eq_nil_iff]
        intro p hp
        obtain ⟨e, he, hp⟩ := List.mem_flatMap.1 hp
        obtain ⟨m, -, rfl⟩ := List.mem_map.1 hp
        intro hk
        exact hC.1 (List.mem_map.2 ⟨e, he, by simpa using hk⟩)
      rw [this, List.append_nil]
    · have hne : d.1 ≠ c.1 := fun hk => hC.1 (List.mem_map.2 ⟨c, hc, hk.symm⟩)
      have : (d.2.map fun m => (d.1, m)).filter (fun p => p.1 = c.1) = [] := by
        rw [List.filter_eq_nil_iff]
        intro p hp
        obtain ⟨m, -, rfl⟩ := List.mem_map.1 hp
        simpa using hne
      rw [this, List.nil_append]
      exact ih hC.2 hc

/-- The forms of each call fit. -/
theorem RusDict.PageRoom.fits (hroom : D.PageRoom enc) (hids : (D.arts.map RusArticle.id).Nodup) {T : List Byte} {C : List (Nat × List StrMatch)} {R : List WildHit}
    (h : D.WildOutcome T C R) (hR : R.Nodup) (hC : (C.map Prod.fst).Nodup) :
    ∀ c ∈ C, (∀ m ∈ c.2, (inPage enc m.text).length ≤ 95 ∧ 0 ∉ inPage enc m.text) ∧ matchBytes (convMatches enc c.2) ≤ 256 * 96 := by
  intro c hc
  let F := R.filter fun x => x.report.1 = c.1
  have hF : F.map WildHit.report = c.2.map fun m => (c.1, m) := by
    have := filter_call C hC c hc
    rw [h.reported, List.filter_map] at this
    exact this
  obtain ⟨m0, hm0⟩ := List.exists_mem_of_ne_nil _ (h.nonempty c hc)
  have hx : ∀ x ∈ F, D.WildFound T x ∧ x.art.id = c.1 := fun x hx => by
    obtain ⟨k1, k2⟩ := List.mem_filter.1 hx
    exact ⟨(h.found x).1 k1, by simpa [WildHit.report] using k2⟩
  obtain ⟨x0, hx0⟩ : ∃ x0, x0 ∈ F := by
    have : (c.1, m0) ∈ F.map WildHit.report := by rw [hF]; exact List.mem_map.2 ⟨m0, hm0, rfl⟩
    obtain ⟨x, hx, -⟩ := List.mem_map.1 this
    exact ⟨x, hx⟩
  have hart : ∀ x ∈ F, x.art = x0.art := fun x k =>
    List.inj_on_of_nodup_map hids (hx x k).1.art (hx x0 hx0).1.art ((hx x k).2.trans (hx x0 hx0).2.symm)
  obtain ⟨r1, r2⟩ := hroom x0.art (hx x0 hx0).1.art
  have hmk : ∀ x ∈ F, WildHit.mk x0.art x.alt x.ending x.gram = x := fun x k => by rw [← hart x k]
  have htexts : c.2 = F.map fun x => x.report.2 := by
    have := congrArg (List.map Prod.snd) hF
    simpa [Function.comp_def] using this.symm
  refine ⟨?_, ?_⟩
  · intro m hm
    rw [htexts] at hm
    obtain ⟨x, k, rfl⟩ := List.mem_map.1 hm
    have := r1 x.alt x.ending x.gram (by rw [← hart x k]; exact (hx x k).1.reads)
    rwa [hmk x k] at this
  · have := r2 (F.map fun x => (x.alt, x.ending, x.gram)) (by
      refine List.Nodup.map_on ?_ (hR.filter _)
      intro x k y k' e
      simp only [Prod.mk.injEq] at e
      rw [← hmk x k, ← hmk y k', e.1, e.2.1, e.2.2]) (by
      intro q hq
      obtain ⟨x, k, rfl⟩ := List.mem_map.1 hq
      show D.Reads x0.art x.alt x.ending x.gram
      rw [← hart x k]; exact (hx x k).1.reads)
    rw [List.map_map] at this
    rw [matchBytes, convMatches, htexts]
    simp only [List.map_map]
    have e : (F.map ((fun m : StrMatch => m.text.length + 1) ∘ (fun m : StrMatch => (⟨inPage enc m.text, m.id⟩ : StrMatch)) ∘ fun x => x.report.2)) =
        F.map ((fun q : List Byte × List Byte × FlexInfo => (inPage enc (WildHit.mk x0.art q.1 q.2.1 q.2.2).report.2.text).length + 1) ∘
          fun x => (x.alt, x.ending, x.gram)) := by
      refine List.map_congr_left ?_
      intro x k
      simp only [Function.comp_apply, hmk x k]
    rw [e]; exact this

/-- **C84** FindMatch in a code page, for a compiled dictionary: the client gets exactly the forms that fit, converted, one call for each lexeme. -/
theorem C84_find_match_russian (hP : P.Ok enc known) (h : RusOk A D st) (hw : RusWildOk D) (hids : (D.arts.map RusArticle.id).Nodup) (hfew : D.FewReadings)
    (tail smatch : List Byte) (htail : tail ≠ []) (hbuf : smatch.length = 48) (client : List (Nat × List StrMatch) → Int)
    (t : List Byte) (hne : t ≠ []) (hk : ∀ b ∈ t, known b) (hl : (inPage enc t).length < 48) (hparts : (wordParts rusTab t).length ≤ 8)
    (hstar : StarLast (t.map rusTab.lower)) (hroom : D.PageRoom enc) :
    ∃ C R, D.WildOutcome (t.map rusTab.lower) C R ∧ R.Nodup ∧ (C.map Prod.fst).Nodup ∧
      rusFindMatchIn P (st.images D.mtab) tail smatch client (inPage enc t) = some (if C = [] then 0 else client (convCalls enc C), convCalls enc C) := by
  have hle := hP.length_le t
  obtain ⟨C, R, h1, h2, h3, h4⟩ := (C31_rus_exact_partial h hw tail smatch htail hbuf (fun _ => 0) t hne (by omega) hparts).2 hstar hids hfew
  exact ⟨C, R, h2, h3, h4, (C84_find_match hP (st.images D.mtab) tail smatch t hk hl (fun low sch V _ hV => rusFound_ids h hw tail smatch low htail hbuf hV)
    (fun _ => 0) client _ C h1 fun c hc =>
      ⟨fun m hm => ((hroom.fits hids h2 h3 h4 c hc).1 m hm).1, (hroom.fits hids h2 h3 h4 c hc).2⟩).2⟩

/-! ### wildcards -/

theorem takeWhile_self {α} {p : α → Bool} {l : List α} (h : ∀ c ∈ l, p c = true) : l.takeWhile p = l := by
  induction l with
  | nil => rfl
  | cons c l ih => rw [List.takeWhile_cons, if_pos (h c (by simp)), ih fun c hc => h c (by simp [hc])]

/-- What is printed for a template: lexemes with one form each, the lexemes of all the forms that are found. -/
structure RusDict.Picks (D : RusDict) (T : List Byte) (ps : List (Nat × List Byte)) : Prop where
  once : (ps.map Prod.fst).Nodup
  found : ∀ p ∈ ps, ∃ x, D.WildFound T x ∧ x.art.id = p.1 ∧ x.report.2.text = p.2
  all : ∀ x, D.WildFound T x → x.art.id ∈ ps.map Prod.fst

/-- A line for each form, with a tab before it. -/
def wildLines (enc : Byte → List Byte) (ps : List (Nat × List Byte)) : List Byte := ps.flatMap fun p => 9 :: inPage enc p.2 ++ [10]

theorem wildFgets_line (t rest : List Byte) : ∀ (room : Nat) (cur : List Byte), 10 ∉ t → t.length < room →
    wildFgets (t ++ 10 :: rest) room cur = (cur ++ t ++ [10]) :: wildFgets rest 0xff [] := by
  induction t with
  | nil => intro room cur _ _; simp [wildFgets]
  | cons c t ih =>
    intro room cur h hr
    simp only [List.length_cons] at hr
    rw [List.cons_append, wildFgets, if_neg (by
      rintro (rfl | h1)
      · simp at h
      · omega), ih (room - 1) _ (by intro hm; exact h (by simp [hm])) (by omega)]
    simp

theorem wildFgets_lines (ts : List (List Byte)) (h : ∀ t ∈ ts, 10 ∉ t ∧ t.length < 255) :
    wildFgets (ts.flatMap fun t => t ++ [10]) 0xff [] = ts.map fun t => t ++ [10] := by
  induction ts with
  | nil => rfl
  | cons t ts ih =>
    rw [List.flatMap_cons, List.append_assoc, List.singleton_append, wildFgets_line t _ 0xff [] (h t (by simp)).1 (h t (by simp)).2,
      ih fun t ht => h t (by simp [ht])]
    simp

theorem wildTrim_line (t : List Byte) (h0 : 0 ∉ t) (hl : ∀ c, t.getLast? = some c → 32 ≤ c) : wildTrim (t ++ [10]) = t := by
  have h1 : (t ++ [10]).takeWhile (· ≠ 0) = t ++ [10] := by
    refine takeWhile_self ?_
    intro c hc
    simp only [List.mem_append, List.mem_singleton] at hc
    simp only [ne_eq, decide_not, Bool.not_eq_eq_eq_not, Bool.not_true, decide_eq_false_iff_not]
    rintro rfl
    rcases hc with hc | hc
    · exact h0 hc
    · cases hc
  rw [wildTrim, h1, List.reverse_append]
  simp only [List.reverse_singleton, List.singleton_append]
  rw [List.dropWhile_cons, if_pos (by decide)]
  have : t.reverse.dropWhile (fun x => decide (x < 32)) = t.reverse := by
    rcases ht : t.reverse with _ | ⟨c, r⟩
    · rfl
    · have : t.getLast? = some c := by rw [List.getLast?_eq_head?_reverse, ht]; rfl
      have := hl c this
      rw [List.dropWhile_cons, if_neg (by simp; omega)]
  rw [this, List.reverse_reverse]

/-- The forms shown for calls. -/
theorem wildShow_eq (enc : Byte → List Byte) (C : List (Nat × List StrMatch)) (hC : ∀ c ∈ C, c.2 ≠ [] ∧ ∀ m ∈ c.2, 0 ∉ inPage enc m.text) :
    ∃ ps : List (Nat × List Byte), wildShow (convCalls enc C) = some (wildLines enc ps) ∧ ps.map Prod.fst = C.map Prod.fst ∧
      ∀ p ∈ ps, ∃ c ∈ C, c.1 = p.1 ∧ ∃ m ∈ c.2, m.text = p.2 := by
  induction C with
  | nil => exact ⟨[], rfl, rfl, by simp⟩
  | cons c C ih =>
    obtain ⟨ps, h1, h2, h3⟩ := ih fun c hc => hC c (by simp [hc])
    obtain ⟨k1, k2⟩ := hC c (by simp)
    obtain ⟨m, ms, hm⟩ := List.exists_cons_of_ne_nil k1
    refine ⟨(c.1, m.text) :: ps, ?_, by simp [h2], ?_⟩
    · have : (inPage enc m.text).takeWhile (fun x => decide (x ≠ 0)) = inPage enc m.text := by
        refine takeWhile_self ?_
        intro b hb
        have := k2 m (by simp [hm])
        simp only [ne_eq, decide_not, Bool.not_eq_eq_eq_not, Bool.not_true, decide_eq_false_iff_not]
        rintro rfl; exact this hb
      have h1 : wildShow (List.map (fun c => (c.1, convMatches enc c.2)) C) = _ := h1
      simp only [convCalls, List.map_cons, wildShow, convMatches, hm, List.head?_cons, bind, Option.bind_some] at h1 ⊢
      rw [h1]
      simp only [Option.bind_some, this]
      rfl
    · intro p hp
      rcases List.mem_cons.1 hp with rfl | hp
      · exact ⟨c, by simp, rfl, m, by simp [hm], rfl⟩
      · obtain ⟨c', hc', rest⟩ := h3 p hp
        exact ⟨c', by simp [hc'], rest⟩

/-- The limits for a template in a code page. -/
structure PageTemplate (enc : Byte → List Byte) (known : Byte → Prop) (t : List Byte) : Prop where
  nonempty : t ≠ []
  known : ∀ b ∈ t, known b
  short : (inPage enc t).length < 48
  parts : (wordParts rusTab t).length ≤ 8
  star : StarLast (t.map rusTab.lower)
  printable : (∀ b ∈ inPage enc t, b ≠ 0 ∧ b ≠ 10) ∧ ∀ c, (inPage enc t).getLast? = some c → 32 ≤ c

/-- **C92** The program wildcards with an object: for lines with templates it prints, for each template in turn, one form that fits of every lexeme that
has one, each on a line. -/
theorem C92_wildcards (hP : P.Ok enc known) (h : RusOk A D st) (hw : RusWildOk D) (hids : (D.arts.map RusArticle.id).Nodup) (hfew : D.FewReadings)
    (tail smatch : List Byte) (htail : tail ≠ []) (hbuf : smatch.length = 48) (ts : List (List Byte)) (hts : ∀ t ∈ ts, PageTemplate enc known t)
    (hroom : D.PageRoom enc)
    (pages : ApiInst → Page) (hpage : pages .utf8 = P) :
    ∃ pss : List (List (Nat × List Byte)), List.Forall₂ (fun t ps => D.Picks (t.map rusTab.lower) ps) ts pss ∧
      wildcardsMain (fun i t => rusFindMatchIn (pages i) (st.images D.mtab) tail smatch (fun _ => 1) t) (asciiBytes (libmorphMagic ++ ":utf-8") ++ [0])
        (ts.flatMap fun t => inPage enc t ++ [10]) = some (pss.flatMap (wildLines enc)) := by
  have hobj : loadMorpho (asciiBytes (libmorphMagic ++ ":utf-8") ++ [0]) = some (some .utf8) := by decide +kernel
  simp only [wildcardsMain, hobj, bind, Option.bind_some, hpage]
  have hlines : wildFgets (ts.flatMap fun t => inPage enc t ++ [10]) 0xff [] = ts.map fun t => inPage enc t ++ [10] := by
    have := wildFgets_lines (ts.map (inPage enc)) (by
      intro t ht
      obtain ⟨t, ht', rfl⟩ := List.mem_map.1 ht
      replace ht := ht'
      exact ⟨fun hm => ((hts t ht).printable.1 10 hm).2 rfl, by have := (hts t ht).short; omega⟩)
    rw [List.flatMap_map, List.map_map] at this
    exact this
  rw [hlines]
  clear hlines
  induction ts with
  | nil => exact ⟨[], .nil, rfl⟩
  | cons t ts ih =>
    obtain ⟨pss, p1, p2⟩ := ih fun t ht => hts t (by simp [ht])
    have ht := hts t (by simp)
    obtain ⟨C, R, c1, c2, c3, c4⟩ := C84_find_match_russian hP h hw hids hfew tail smatch htail hbuf (fun _ => 1) t ht.nonempty ht.known ht.short ht.parts ht.star hroom
    obtain ⟨ps, s1, s2, s3⟩ := wildShow_eq enc C fun c hc => ⟨c1.nonempty c hc, fun m hm => ((hroom.fits hids c1 c2 c3 c hc).1 m hm).2⟩
    have mem_iff : ∀ c m, (∃ d ∈ C, d.1 = c ∧ m ∈ d.2) ↔ ∃ x ∈ R, x.report = (c, m) := by
      intro c m
      have : (c, m) ∈ (C.flatMap fun c => c.2.map fun m => (c.1, m)) ↔ (c, m) ∈ R.map WildHit.report := by rw [c1.reported]
      simp only [List.mem_flatMap, List.mem_map, Prod.mk.injEq] at this
      constructor
      · rintro ⟨d, hd, rfl, hm⟩
        exact this.1 ⟨d, hd, m, hm, rfl, rfl⟩
      · intro hx
        obtain ⟨d, hd, m', hm, rfl, rfl⟩ := this.2 hx
        exact ⟨d, hd, rfl, hm⟩
    refine ⟨ps :: pss, .cons ⟨s2 ▸ c3, ?_, ?_⟩ p1, ?_⟩
    · intro p hp
      obtain ⟨c, hc, e1, m, hm, e2⟩ := s3 p hp
      obtain ⟨x, hx, ex⟩ := (mem_iff p.1 m).1 ⟨c, hc, e1, hm⟩
      exact ⟨x, (c1.found x).1 hx, congrArg Prod.fst ex, by rw [ex]; exact e2⟩
    · intro x hx
      obtain ⟨d, hd, e, -⟩ := (mem_iff x.art.id x.report.2).2 ⟨x, (c1.found x).2 hx, rfl⟩
      rw [s2]
      exact List.mem_map.2 ⟨d, hd, e⟩
    · have htne : inPage enc t ≠ [] := by
        intro h0
        have := hP.length_le t
        rw [h0] at this
        exact ht.nonempty (List.length_eq_zero_iff.1 (by simpa using this))
      have p2 : wildLoop _ (List.map (fun t => inPage enc t ++ [10]) ts) = _ := p2
      simp only [List.map_cons, wildLoop, wildTrim_line (inPage enc t) (fun hm => (ht.printable.1 0 hm).1 rfl) ht.printable.2, if_neg htne, c4, bind, Option.bind_some, s1, p2]
      rfl

/-- **C92** refuted for the program as it is shipped: it passes the name without the prefix, gets no object and calls it for the first line that is
not empty. -/
theorem C92_wildcards_counterexample (find : ApiInst → List Byte → Option (Int × List (Nat × List StrMatch))) (t rest : List Byte) (ht : t ≠ [])
    (h : ∀ b ∈ t, b ≠ 0 ∧ b ≠ 10) (hl : ∀ c, t.getLast? = some c → 32 ≤ c) (hs : t.length < 255) :
    wildcardsMain find (asciiBytes "utf-8" ++ [0]) (t ++ 10 :: rest) = none := by
  have hobj : loadMorpho (asciiBytes "utf-8" ++ [0]) = some none := by decide +kernel
  simp only [wildcardsMain, hobj, bind, Option.bind_some]
  rw [wildFgets_line t rest 0xff [] (fun hm => (h 10 hm).2 rfl) hs, List.nil_append, wildLoop,
    wildTrim_line t (fun hm => (h 0 hm).1 rfl) hl]
  simp only [if_neg ht, bind, Option.bind_none]

/-! ### The hypotheses are met -/

/-- "такси, зимой; а кино" with two of the words in the dictionary: the hypotheses of `C92_russian` are met, and the numbers are right. -/
example : benchmark (fun L w => (rusLemmatize (gameDictState.images gameDict.mtab) [] w (some L) none none 2).map Prod.fst) (fun _ => junkLemms 32) 20
    [242, 224, 234, 241, 232, 44, 32, 199, 232, 236, 238, 233, 59, 32, 224, 32, 234, 232, 237, 238] =
      some (benchReport (fun w => ∃ a ∈ gameDict.arts, gameDict.HasForm a (w.map rusTab.lower))
        [242, 224, 234, 241, 232, 44, 32, 199, 232, 236, 238, 233, 59, 32, 224, 32, 234, 232, 237, 238] 20) :=
  C92_russian gameDict_ok _ [] (by decide) _ (fun _ => by decide) (fun _ _ => gameDict.suffixSafe_of_none (by decide) _) 20 (by decide)
    (by decide) (by decide)

example : getWords [242, 224, 234, 241, 232, 44, 32, 199, 232, 236, 238, 233, 59, 32, 224, 32, 234, 232, 237, 238] =
    [[242, 224, 234, 241, 232], [199, 232, 236, 238, 233], [234, 232, 237, 238]] := by decide

example : benchmark (fun L w => (rusLemmatize (gameDictState.images gameDict.mtab) [] w (some L) none none 2).map Prod.fst) (fun _ => junkLemms 32) 20
    [242, 224, 234, 241, 232, 44, 32, 199, 232, 236, 238, 233, 59, 32, 224, 32, 234, 232, 237, 238] = some ⟨300, 200, 15000⟩ := by decide +kernel

theorem gameDict_room : gameDict.PageRoom utf8Enc := by
  intro a ha
  have hx := gameDict_plain a ha
  have h1 : ∀ a ∈ gameDict.arts, (inPage utf8Enc a.stem).length ≤ 95 ∧ 0 ∉ inPage utf8Enc a.stem := by decide +kernel
  refine ⟨fun x e g _ => by simpa only [WildHit.report, if_neg hx] using h1 a ha, fun l hl hr => ?_⟩
  have : l.length ≤ 1 := by
    match l, hl, hr with
    | [], _, _ => simp
    | [_], _, _ => simp
    | q :: r :: l, hl, hr =>
      have h1 := hr q (by simp)
      have h2 := hr r (by simp)
      rw [RusDict.Reads, if_neg hx] at h1 h2
      have : q = r := Prod.ext (h1.1.trans h2.1.symm) (Prod.ext (h1.2.1.trans h2.2.1.symm) (h1.2.2.trans h2.2.2.symm))
      simp [this] at hl
  match l, this with
  | [], _ => simp
  | [q], _ =>
    have := (h1 a ha).1
    simp only [WildHit.report, if_neg hx, List.map_cons, List.map_nil, List.sum_cons, List.sum_nil]
    omega

/-- The templates "?а*" and "шоссе": the hypotheses of `C92_wildcards` are met in UTF-8. -/
example : ∃ pss : List (List (Nat × List Byte)), List.Forall₂ (fun t ps => gameDict.Picks (t.map rusTab.lower) ps) [[63, 224, 42], [248, 238, 241, 241, 229]] pss ∧
      wildcardsMain (fun i t => rusFindMatchIn ((fun _ => utf8Page) i) (gameDictState.images gameDict.mtab) [0] (List.replicate 48 0) (fun _ => 1) t)
        (asciiBytes (libmorphMagic ++ ":utf-8") ++ [0]) ([[63, 224, 42], [248, 238, 241, 241, 229]].flatMap fun t => inPage utf8Enc t ++ [10]) =
          some (pss.flatMap (wildLines utf8Enc)) :=
  C92_wildcards utf8Page_ok gameDict_ok gameDict_wild (by decide) gameDict_few [0] (List.replicate 48 0) (by decide) (by rw [List.length_replicate]) _
    (by
      intro t ht
      simp only [List.mem_cons, List.not_mem_nil, or_false] at ht
      rcases ht with rfl | rfl
      · exact ⟨by decide, by decide, by decide +kernel, by decide +kernel, by rw [show ([63, 224, 42] : List Nat).map rusTab.lower = [63, 224, 42] by decide +kernel]; simp [StarLast], by decide +kernel, fun c hc => by
          rw [show (inPage utf8Enc [63, 224, 42]).getLast? = some 42 by decide +kernel] at hc; cases hc; decide⟩
      · exact ⟨by decide, by decide, by decide +kernel, by decide +kernel, by rw [show ([248, 238, 241, 241, 229] : List Nat).map rusTab.lower = [248, 238, 241, 241, 229] by decide +kernel]; simp [StarLast], by decide +kernel, fun c hc => by
          rw [show (inPage utf8Enc [248, 238, 241, 241, 229]).getLast? = some 0xb5 by decide +kernel] at hc; cases hc; decide⟩) gameDict_room _ rfl

end Libmorph
