import Verif.Props.C81
import Verif.Lemmas.Text
/-
C81.  The numbers of the lines: the tool and the compiler read the same ones.  Examples.
-/
namespace Libmorph
open Spec

theorem firstMark_line {line s b t x y : List Byte} (hline : line = x ++ s ++ y) (hx : Blanks x) (hf : FirstMark lidMark s b t) :
    FirstMark lidMark line (x ++ b) (t ++ y) := by
  obtain ⟨h1, h2⟩ := hf
  refine ⟨by rw [hline, h1]; simp, ?_⟩
  intro B a hB
  by_contra hc
  rw [List.length_append] at hc
  have hlen : lidMark.length = 4 := rfl
  have e : x ++ s ++ y = B ++ lidMark ++ a := by rw [← hline, hB]
  have hsl : s.length = b.length + 4 + t.length := by rw [h1]; simp [lidMark]; omega
  by_cases hlt : B.length < x.length
  · have g := congrArg (fun l => l[B.length]?) e
    rw [List.append_assoc, List.getElem?_append_left hlt, List.append_assoc B, List.getElem?_append_right (Nat.le_refl _),
      Nat.sub_self] at g
    have : x[B.length]? = some 76 := by rw [g]; rfl
    have := hx 76 (List.mem_of_getElem? this)
    exact absurd this (by decide)
  · have hxB : B = x ++ B.drop x.length := by
      have g := congrArg (List.take x.length) e
      rw [List.append_assoc, List.take_left, List.append_assoc B, List.take_append_of_le_length (by omega)] at g
      conv => lhs; rw [← List.take_append_drop x.length B, ← g]
    have e2 : s ++ y = B.drop x.length ++ lidMark ++ a := by
      rw [hxB] at e
      simp only [List.append_assoc] at e
      have := List.append_cancel_left e
      simpa using this
    have hB' : (B.drop x.length).length = B.length - x.length := List.length_drop
    have e3 : s = B.drop x.length ++ lidMark ++ a.take (s.length - (B.drop x.length).length - 4) := by
      have g := congrArg (List.take s.length) e2
      rw [List.take_left, List.take_append, List.take_of_length_le (by simp [lidMark]; omega)] at g
      conv => lhs; rw [g]
      congr 2
      simp [lidMark]
      omega
    have := h2 _ _ e3
    omega

theorem getStringLid_mark {line before t : List Byte} {sep : Byte} (hf : FirstMark lidMark line (before ++ [sep]) t)
    (hsep : sep ≤ 32) (h0 : strtol0 t ≠ 0) : getStringLid line = some (strtol0 t % 2 ^ 32).toNat := by
  obtain ⟨c, rest, hl⟩ : ∃ c rest, line = c :: rest := by
    cases line with
    | nil => have := congrArg List.length hf.1; simp [lidMark] at this
    | cons c rest => exact ⟨c, rest, rfl⟩
  subst hl
  rw [getStringLid, stringLidFrom, litBytes_lid]
  obtain ⟨h1, h2⟩ := hf
  cases before with
  | nil =>
    have e : c = sep ∧ rest = lidMark ++ t := by simpa using h1
    have hs : strstrAt lidMark rest = some ([], lidMark ++ t) := by
      rw [strstrAt_some]
      exact ⟨t, rfl, by rw [e.2]; rfl, by intro b a _; simp⟩
    rw [hs]
    dsimp only
    have hc : ([] : List Byte).getLast?.getD c ≤ 0x20 := by show c ≤ 32; omega
    have hd : (lidMark ++ t).drop 4 = t := rfl
    rw [if_pos hc, if_pos (by rw [hd]; exact h0), hd]
  | cons d ds =>
    have e : c = d ∧ rest = ds ++ [sep] ++ lidMark ++ t := by simpa using h1
    have hs : strstrAt lidMark rest = some (ds ++ [sep], lidMark ++ t) := by
      rw [strstrAt_some]
      refine ⟨t, rfl, e.2, ?_⟩
      intro b a hb
      have := h2 (c :: b) a (by rw [hb]; simp)
      simpa using this
    rw [hs]
    dsimp only
    have hc : (ds ++ [sep]).getLast?.getD c ≤ 0x20 := by simpa using hsep
    have hd : (lidMark ++ t).drop 4 = t := rfl
    rw [if_pos hc, if_pos (by rw [hd]; exact h0), hd]

theorem strtol0_decimal (n : Nat) (skip t : List Byte) (h0 : 0 < n) (hn : n < 2 ^ 32) (hs : ∀ c ∈ skip, c = 32 ∨ c = 9)
    (ht : ∀ c, t.head? = some c → ¬ (48 ≤ c ∧ c ≤ 57)) : strtol0 (skip ++ decimal n ++ t) = n := by
  obtain ⟨c, d, e, c1, c2⟩ := decimal_head n h0
  have e1 : (skip ++ decimal n ++ t).dropWhile isSpaceC = decimal n ++ t := by
    refine ((split_while (p := isSpaceC) (x := skip) (y := decimal n ++ t)).2 ⟨by rw [List.append_assoc], ?_, ?_⟩).2
    · intro b hb
      rcases hs b hb with rfl | rfl <;> decide
    · intro b hb
      rw [e] at hb
      simp only [List.cons_append, List.head?_cons, Option.some.injEq] at hb
      subst hb
      simp only [isSpaceC, Bool.or_eq_false_iff, decide_eq_false_iff_not, Bool.and_eq_false_iff]
      omega
  have hd : (decimal n ++ t).head? = some c := by rw [e]; rfl
  have f : readDigits 10 (decimal n ++ t) 0 = n := by rw [readDigits_decimal, readDigits_stop t n ht]
  rw [strtol0]
  simp only [e1, hd, Option.some.injEq]
  rw [if_neg (by omega : ¬ (c = 45 ∨ c = 43))]
  simp only [hd, Option.some.injEq]
  rw [if_neg (by omega : ¬ (c = 48 ∧ _)), if_neg (by omega : ¬ c = 48), f, if_neg (by omega), if_neg (by omega)]

/-- A line whose first "LID:" stands after a space or a tab and is followed by a decimal number: the tool takes this number,
and so does the compiler, if the line is an article (the tool counts comments, too). -/
theorem C81_line (line s skip rest : List Byte) (n : Nat) (hs : Trimmed line s) (hid : IdText s (skip ++ decimal n ++ rest))
    (hskip : ∀ c ∈ skip, c = 32 ∨ c = 9) (hrest : ∀ c, rest.head? = some c → ¬ (48 ≤ c ∧ c ≤ 57)) (h0 : 0 < n) (hn : n < 2 ^ 32) :
    getStringLid line = some n ∧ ∀ a, engLine line = some (.article a) → a.id = n := by
  constructor
  · obtain ⟨x, y, h1, h2, h3, _⟩ := hs
    obtain ⟨before, sep, hf, hsep⟩ := hid
    have hm := firstMark_line h1 h2 hf
    rw [← List.append_assoc] at hm
    have hst : strtol0 (skip ++ decimal n ++ rest ++ y) = n := by
      rw [List.append_assoc _ rest y]
      apply strtol0_decimal n skip _ h0 hn hskip
      intro c hc
      cases rest with
      | nil =>
        have : c ∈ y := by
          cases y with
          | nil => simp at hc
          | cons d ds => simp at hc; simp [hc]
        have h32 : c ≤ 32 := h3 c this
        omega
      | cons d ds => exact hrest c (by simpa using hc)
    rw [getStringLid_mark hm (by omega) (by rw [hst]; omega), hst]
    congr 1
    omega
  · intro a ha
    obtain ⟨s', t', g1, _, g3, g4, _⟩ := (engLine_article line a).1 ha
    have es : s' = s := by rw [← (trimLine_iff line s').2 g1, ← (trimLine_iff line s).2 hs]
    subst es
    obtain ⟨b1, p1, f1, _⟩ := hid
    obtain ⟨b2, p2, f2, _⟩ := g3
    have l1 := f1.2 _ _ f2.1
    have l2 := f2.2 _ _ f1.1
    have he := f1.1.symm.trans f2.1
    have : t' = skip ++ decimal n ++ rest := by
      have hh := List.append_inj he (by simp only [List.length_append] at l1 l2 ⊢; omega)
      exact hh.2.symm
    rw [← g4, this]
    exact lidNumber_decimal n skip rest h0 hn hskip hrest

/-! Examples. -/

/-- The smallest number is 64: right, with the hole 66..69 and 71; 72 and 73 are used: one more "hole" 74. -/
example : getHoles (litBytes "aa\tA LID:64\nbb A LID:0x41\ncc A LID:70 x\n//dd A LID:73\nee N LID:72\nff A LID:65\n") =
    some ([65], .lexemes 64 73 [(66, 69), (71, 71), (74, 74)]) := by decide +kernel

/-- The full property is false: with the numbers 1 and 3 the tool sees no lexemes. -/
theorem C81_counterexample : getHoles (litBytes "aa A LID:1\nbb A LID:3\n") = some ([], .noLexemes) := by decide +kernel

/-- The full property is false: with the numbers 32 and 33 the tool reports a hole behind the largest one. -/
theorem C81_counterexample_behind : getHoles (litBytes "aa A LID:32\nbb A LID:33\n") = some ([], .lexemes 32 33 [(34, 34)]) := by
  decide +kernel

/-- A mark without a number at the end of a file without a newline: the tool reads behind the text. -/
theorem C81_reads_behind : getHoles (litBytes "aa A LID:") = none := by decide +kernel

example : Trimmed (litBytes " abc|s N LID:17\n") (litBytes "abc|s N LID:17") ∧
    IdText (litBytes "abc|s N LID:17") ([] ++ decimal 17 ++ []) := by
  refine ⟨(trimLine_iff _ _).1 (by decide +kernel), litBytes "abc|s N", 32, ?_, Or.inr rfl⟩
  have h : strstrAt lidMark (litBytes "abc|s N LID:17") = some (litBytes "abc|s N" ++ [32], lidMark ++ decimal 17) := by
    decide +kernel
  obtain ⟨a, h1, h2⟩ := (strstrAt_some _ _ _ _).1 h
  have : a = decimal 17 := (List.append_cancel_left h1).symm
  rw [this] at h2
  simpa using h2

example : IsLeast (usedIds [64, 65, 70, 73, 72, 65]) 64 ∧ IsLargest (usedIds [64, 65, 70, 73, 72, 65]) 73 := by
  constructor <;> exact ⟨by decide, by decide⟩

example : (holesLines 24 (litBytes "aa A LID:64\nbb A LID:66\n")).mapM getStringLid = some [64, 66] := by decide +kernel

end Libmorph
