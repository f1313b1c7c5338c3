import Verif.Props.C89
import Verif.Props.C81Text
import Mathlib.Tactic.ByContra
/-
C89: marked lexemes, whatever the file.
-/
namespace Libmorph
open Spec

/-- The value of a row of decimal digits. -/
def digitsValue (ds : List Byte) : Nat := ds.foldl (fun v d => v * 10 + (d - 48)) 0

/-- What a text says as a number with a sign: blanks of C, perhaps a sign, the digits up to the first other character.  A number of 2^64 or more counts as 2^64 - 1,
and a minus takes the rest from 2^64. -/
structure SignedNumber (t : List Byte) (n : Nat) : Prop where
  parts : ∃ blanks sign ds rest, t = blanks ++ sign ++ ds ++ rest ∧ (∀ b ∈ blanks, b ∈ [32, 9, 10, 11, 12, 13]) ∧ (sign = [] ∨ sign = [43] ∨ sign = [45]) ∧
    (∀ d ∈ ds, 48 ≤ d ∧ d ≤ 57) ∧ (∀ c, rest.head? = some c → ¬ (48 ≤ c ∧ c ≤ 57)) ∧
    (sign = [] → ds = [] → ∀ c, rest.head? = some c → c ∉ [32, 9, 10, 11, 12, 13, 43, 45]) ∧
    n = if 2 ^ 64 ≤ digitsValue ds then 2 ^ 64 - 1 else if sign = [45] then (2 ^ 64 - digitsValue ds) % 2 ^ 64 else digitsValue ds

theorem isSpaceC_iff (b : Byte) : isSpaceC b = Bool.true ↔ b ∈ [32, 9, 10, 11, 12, 13] := by
  simp [isSpaceC]; omega

theorem readDigits_run : ∀ (ds rest : List Byte) (v : Nat), (∀ d ∈ ds, 48 ≤ d ∧ d ≤ 57) → (∀ c, rest.head? = some c → ¬ (48 ≤ c ∧ c ≤ 57)) →
    readDigits 10 (ds ++ rest) v = ds.foldl (fun v d => v * 10 + (d - 48)) v
  | [], rest, v, _, hr => by
    rw [List.nil_append]
    cases rest with
    | nil => rfl
    | cons c rest =>
      have := hr c rfl
      rw [readDigits, digitVal, if_neg (by simpa using this)]
      repeat' split
      all_goals first | rfl | skip
      all_goals (rename_i h1 h2; split at h1 <;> simp at h1 <;> omega)
  | d :: ds, rest, v, hd, hr => by
    have h := hd d (by simp)
    have e : digitVal d = some (d - 48) := by rw [digitVal, if_pos (by simpa using h)]
    rw [List.cons_append, readDigits, e]
    simp only
    rw [if_pos (by omega), readDigits_run ds rest _ (fun x hx => hd x (by simp [hx])) hr, List.foldl_cons]

theorem span_digits (t : List Byte) : ∃ ds rest, t = ds ++ rest ∧ (∀ d ∈ ds, 48 ≤ d ∧ d ≤ 57) ∧ ∀ c, rest.head? = some c → ¬ (48 ≤ c ∧ c ≤ 57) := by
  induction t with
  | nil => exact ⟨[], [], rfl, by simp, by simp⟩
  | cons x t ih =>
    by_cases h : 48 ≤ x ∧ x ≤ 57
    · obtain ⟨ds, rest, e, h1, h2⟩ := ih
      exact ⟨x :: ds, rest, by rw [e]; rfl, by simp only [List.mem_cons, forall_eq_or_imp]; exact ⟨h, h1⟩, h2⟩
    · exact ⟨[], x :: t, rfl, by simp, by simpa using h⟩

theorem span_blanks (t : List Byte) : ∃ bs rest, t = bs ++ rest ∧ (∀ b ∈ bs, b ∈ [32, 9, 10, 11, 12, 13]) ∧ ∀ c, rest.head? = some c → c ∉ [32, 9, 10, 11, 12, 13] := by
  induction t with
  | nil => exact ⟨[], [], rfl, by simp, by simp⟩
  | cons x t ih =>
    by_cases h : x ∈ [32, 9, 10, 11, 12, 13]
    · obtain ⟨ds, rest, e, h1, h2⟩ := ih
      exact ⟨x :: ds, rest, by rw [e]; rfl, by rw [List.forall_mem_cons]; exact ⟨h, h1⟩, h2⟩
    · exact ⟨[], x :: t, rfl, by simp, by intro c hc; simp only [List.head?_cons, Option.some.injEq] at hc; rw [← hc]; exact h⟩

/-- **C89** The number of a mark, whatever is behind "LID:". -/
theorem C89_any_number (t : List Byte) (n : Nat) : SignedNumber t n ↔ n = strtoul10 t := by
  have key : ∀ m, SignedNumber t m → m = strtoul10 t := by
    rintro m ⟨blanks, sign, ds, rest, rfl, hb, hs, hd, hr, hz, rfl⟩
    have hstart : (blanks ++ sign ++ ds ++ rest).dropWhile isSpaceC = sign ++ ds ++ rest := by
      rw [List.append_assoc, List.append_assoc, List.dropWhile_append_of_pos (fun b hb' => (isSpaceC_iff b).2 (hb b hb')), ← List.append_assoc]
      have hc : ∀ c, (sign ++ ds ++ rest).head? = some c → isSpaceC c = Bool.false := by
        intro c h
        have : ¬ isSpaceC c = Bool.true := by
          rw [isSpaceC_iff]
          rcases hs with rfl | rfl | rfl
          · cases ds with
            | nil =>
              have := hz rfl rfl c (by simpa using h)
              intro hm; exact this (by simp at hm ⊢; omega)
            | cons d ds =>
              have := hd d (by simp)
              simp at h; subst h; simp; omega
          · simp at h; subst h; decide
          · simp at h; subst h; decide
        simpa using this
      generalize sign ++ ds ++ rest = u at hc ⊢
      cases u with
      | nil => rfl
      | cons x u => rw [List.dropWhile_cons_of_neg]; simp [hc x (by simp)]
    rw [strtoul10, hstart]
    have hneg : (sign ++ ds ++ rest).head? = some 45 ↔ sign = [45] := by
      rcases hs with rfl | rfl | rfl
      · simp only [List.nil_append, List.nil_eq, reduceCtorEq, iff_false]
        cases ds with
        | nil =>
          intro h
          exact hz rfl rfl 45 (by simpa using h) (by decide)
        | cons d ds =>
          have := hd d (by simp)
          intro h; simp at h; omega
      · simp
      · simp
    have hpos : (sign ++ ds ++ rest).head? = some 43 ↔ sign = [43] := by
      rcases hs with rfl | rfl | rfl
      · simp only [List.nil_append, List.nil_eq, reduceCtorEq, iff_false]
        cases ds with
        | nil =>
          intro h
          exact hz rfl rfl 43 (by simpa using h) (by decide)
        | cons d ds =>
          have := hd d (by simp)
          intro h; simp at h; omega
      · simp
      · simp
    have hdrop : (if (sign ++ ds ++ rest).head? = some 45 ∨ (sign ++ ds ++ rest).head? = some 43 then (sign ++ ds ++ rest).drop 1 else sign ++ ds ++ rest) = ds ++ rest := by
      have h : ((sign ++ ds ++ rest).head? = some 45 ∨ (sign ++ ds ++ rest).head? = some 43) ↔ (sign = [45] ∨ sign = [43]) := or_congr hneg hpos
      by_cases k : sign = [45] ∨ sign = [43]
      · rw [if_pos (h.2 k)]
        rcases k with rfl | rfl <;> simp
      · rw [if_neg (fun q => k (h.1 q))]
        rcases hs with rfl | rfl | rfl <;> simp at k ⊢
    rw [hdrop, readDigits_run ds rest 0 hd hr]
    show (if 2 ^ 64 ≤ digitsValue ds then _ else _) = if digitsValue ds ≥ 2 ^ 64 then 2 ^ 64 - 1 else if (sign ++ ds ++ rest).head? = some 45 then (2 ^ 64 - digitsValue ds) % 2 ^ 64 else digitsValue ds
    simp only [hneg, ge_iff_le]
  refine ⟨key n, ?_⟩
  suffices ∃ m, SignedNumber t m by
    obtain ⟨m, hm⟩ := this
    intro h
    rw [h, ← key m hm]; exact hm
  obtain ⟨bs, u, e1, h1, h2⟩ := span_blanks t
  by_cases hs : u.head? = some 43 ∨ u.head? = some 45
  · obtain ⟨c, v, rfl, hc⟩ : ∃ c v, u = c :: v ∧ (c = 43 ∨ c = 45) := by
      cases u with
      | nil => simp at hs
      | cons c v => exact ⟨c, v, rfl, by simpa using hs⟩
    obtain ⟨ds, rest, e2, h3, h4⟩ := span_digits v
    refine ⟨_, bs, [c], ds, rest, by rw [e1, e2]; simp, h1, ?_, h3, h4, by simp, rfl⟩
    rcases hc with rfl | rfl <;> simp
  · obtain ⟨ds, rest, e2, h3, h4⟩ := span_digits u
    refine ⟨_, bs, [], ds, rest, by rw [e1, e2]; simp, h1, by simp, h3, h4, ?_, rfl⟩
    rintro - rfl c hc hm
    rw [List.nil_append] at e2
    have a1 := h2 c (by rw [e2]; exact hc)
    have a2 : c ≠ 43 := fun h0 => hs (.inl (by rw [e2, hc, h0]))
    have a3 : c ≠ 45 := fun h0 => hs (.inr (by rw [e2, hc, h0]))
    simp at hm a1
    omega

/-- What a line says, whatever the line. -/
theorem markLine_any (l : List Byte) (b : Bool) (n : Nat) : markLine l = some (b, n) ↔
    (b = Bool.true ∧ Contains (litBytes "---") l ∨ b = Bool.false ∧ Contains (litBytes "+++") l ∧ ¬ Contains (litBytes "---") l) ∧
      ∃ before after, FirstMark lidMark l before after ∧ SignedNumber after n := by
  have c1 := contains_iff (litBytes "---") l
  have c2 := contains_iff (litBytes "+++") l
  have hlid : ∀ v : Nat, (∃ bf f, strstrAt (litBytes "LID:") l = some (bf, f) ∧ v = strtoul10 (f.drop 4)) ↔ ∃ before after, FirstMark lidMark l before after ∧ SignedNumber after v := by
    intro v
    constructor
    · rintro ⟨bf, f, h, rfl⟩
      obtain ⟨a, rfl, hm⟩ := (strstrAt_some _ _ _ _).1 h
      exact ⟨bf, a, hm, by rw [C89_any_number]; simp [litBytes]⟩
    · rintro ⟨bf, a, hm, hn⟩
      rw [C89_any_number] at hn
      exact ⟨bf, _, (strstrAt_some _ _ _ _).2 ⟨a, rfl, hm⟩, by rw [hn]; simp [litBytes]⟩
  rw [markLine]
  rw [← hlid]
  generalize (strstrAt (litBytes "---") l).isSome = x1 at *
  generalize (strstrAt (litBytes "+++") l).isSome = x2 at *
  rw [← c1, ← c2]
  cases h3 : strstrAt (litBytes "LID:") l with
  | none => simp
  | some p =>
    obtain ⟨bf, f⟩ := p
    cases x1 <;> cases x2 <;> cases b <;> simp [eq_comm]

/-- **C89** The lexemes marked by a file, whatever the file: its portions of up to 0x3ff bytes are the lines, each up to its first zero byte; banned are the numbers
in lines with "---", selected those in lines with "+++" and no "---". -/
theorem C89_any_file (file : List Byte) : ∃ ps, Portions 0x3ff file ps ∧ (∀ qs, Portions 0x3ff file qs → qs = ps) ∧
    ∀ b n, (b, n) ∈ fileMarks file ↔ ∃ p ∈ ps,
      (b = Bool.true ∧ Contains (litBytes "---") (p.takeWhile (· ≠ 0)) ∨
        b = Bool.false ∧ Contains (litBytes "+++") (p.takeWhile (· ≠ 0)) ∧ ¬ Contains (litBytes "---") (p.takeWhile (· ≠ 0))) ∧
      ∃ before after, FirstMark lidMark (p.takeWhile (· ≠ 0)) before after ∧ SignedNumber after n := by
  obtain ⟨ps, h1, h2, h3⟩ := C81_file_lines file
  refine ⟨ps, h1, h2, fun b n => ?_⟩
  rw [fileMarks, h3]
  simp only [List.mem_filterMap, List.mem_map]
  constructor
  · rintro ⟨_, ⟨p, hp, rfl⟩, hm⟩
    exact ⟨p, hp, (markLine_any _ b n).1 hm⟩
  · rintro ⟨p, hp, hm⟩
    exact ⟨_, ⟨p, hp, rfl⟩, (markLine_any _ b n).2 hm⟩

/-- A minus: "LID:-2 ---" bans 2^64 - 2. -/
example : SignedNumber (litBytes "-2 ---") (2 ^ 64 - 2) := by rw [C89_any_number]; decide +kernel
example : ¬ SignedNumber (litBytes "7x") 8 := by rw [C89_any_number]; decide +kernel

end Libmorph
