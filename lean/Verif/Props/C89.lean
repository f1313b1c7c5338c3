import Verif.Model.Marks
import Verif.Props.C88
import Verif.Lemmas.Text
import Verif.Lemmas.EngText
import Verif.Props.C79Dump
/-
C89: marked lexemes.
-/
namespace Libmorph
open Libmorph.Spec

/-- `mark` stands somewhere in the line. -/
def Contains (mark line : List Byte) : Prop := ∃ before after, line = before ++ mark ++ after

/-- The number behind the first "LID:" of the line, read by `number`. -/
def LineLid (number : List Byte → Nat) (line : List Byte) (n : Nat) : Prop := ∃ before after, FirstMark lidMark line before after ∧ n = number after

theorem isPrefixOf_snoc {m s : List Byte} (h10 : 10 ∉ m) : m.isPrefixOf (s ++ [10]) = m.isPrefixOf s := by
  induction m generalizing s with
  | nil => simp
  | cons x m ih =>
    cases s with
    | nil => simp at h10 ⊢; simp [List.isPrefixOf]; omega
    | cons y s => simp at h10; simp [List.isPrefixOf, ih h10.2]

theorem strstrAt_snoc {m : List Byte} (h10 : 10 ∉ m) (hne : m ≠ []) : ∀ s : List Byte, strstrAt m (s ++ [10]) = (strstrAt m s).map fun p => (p.1, p.2 ++ [10])
  | [] => by
    have h1 := isPrefixOf_snoc (s := []) h10
    simp only [List.nil_append] at h1
    have h2 : m.isPrefixOf [] = false := by cases m <;> simp_all [List.isPrefixOf]
    rw [h2] at h1
    simp [strstrAt, h1, h2]
  | c :: s => by
    have h1 := isPrefixOf_snoc (s := c :: s) h10
    have ih := strstrAt_snoc h10 hne s
    rw [List.cons_append] at h1
    rw [List.cons_append, strstrAt, h1, strstrAt, ih]
    split
    · simp
    · rw [Option.map_map, Option.map_map]; rfl

theorem contains_iff (m s : List Byte) : (strstrAt m s).isSome = Bool.true ↔ Contains m s := by
  rw [Option.isSome_iff_ne_none, Ne, strstrAt_none]
  simp [Contains]

theorem noZero_take : ∀ {t : List Byte}, 0 ∉ t → t.takeWhile (· ≠ 0) = t
  | [], _ => rfl
  | x :: t, h => by
    simp at h
    rw [List.takeWhile_cons_of_pos (by simpa using fun h0 => h.1 h0.symm), noZero_take h.2]

theorem holesLines_file : ∀ (lines : List (List Byte)) (fuel : Nat), (fileOf lines).length ≤ fuel → (∀ l ∈ lines, 10 ∉ l ∧ 0 ∉ l ∧ l.length ≤ 1022) →
    holesLines fuel (fileOf lines) = lines.map (· ++ [10])
  | [], fuel, _, _ => by
    cases fuel <;> simp [fileOf, holesLines]
  | l :: lines, fuel, hf, h => by
    obtain ⟨h1, h2, h3⟩ := h l (by simp)
    have e : fileOf (l :: lines) = l ++ 10 :: fileOf lines := by simp [fileOf]
    rw [e] at hf ⊢
    simp at hf
    obtain ⟨fuel, rfl⟩ : ∃ k, fuel = k + 1 := ⟨fuel - 1, by omega⟩
    rw [holesLines, if_neg (by simp), (fgetsOne_line 0x3ff l _ h1).1 (by omega)]
    have hz : (l ++ [10]).takeWhile (· ≠ 0) = l ++ [10] := by
      refine noZero_take fun h0 => ?_
      simp at h0
      exact h2 h0
    rw [hz, holesLines_file lines fuel (by omega) fun l hl => h l (by simp [hl])]
    rfl

/-- What a line that ends with a newline says. -/
theorem markLine_iff (l : List Byte) (h10 : 10 ∉ l) (b : Bool) (n : Nat) : markLine (l ++ [10]) = some (b, n) ↔
    (b = Bool.true ∧ Contains (litBytes "---") l ∨ b = Bool.false ∧ Contains (litBytes "+++") l ∧ ¬ Contains (litBytes "---") l) ∧
      LineLid (fun t => strtoul10 (t ++ [10])) l n := by
  have e1 := strstrAt_snoc (m := litBytes "---") (by decide) (by decide) l
  have e2 := strstrAt_snoc (m := litBytes "+++") (by decide) (by decide) l
  have e3 := strstrAt_snoc (m := litBytes "LID:") (by decide) (by decide) l
  have c1 := contains_iff (litBytes "---") l
  have c2 := contains_iff (litBytes "+++") l
  rw [markLine, e1, e2, e3]
  simp only [Option.isSome_map]
  have hlid : ∀ v : Nat, (∃ bf f, strstrAt (litBytes "LID:") l = some (bf, f) ∧ v = strtoul10 ((f ++ [10]).drop 4)) ↔ LineLid (fun t => strtoul10 (t ++ [10])) l v := by
    intro v
    constructor
    · rintro ⟨bf, f, h, rfl⟩
      obtain ⟨a, rfl, hm⟩ := (strstrAt_some _ _ _ _).1 h
      exact ⟨bf, a, hm, by simp [litBytes]⟩
    · rintro ⟨bf, a, hm, rfl⟩
      exact ⟨bf, _, (strstrAt_some _ _ _ _).2 ⟨a, rfl, hm⟩, by simp [litBytes]⟩
  rw [← hlid]
  generalize (strstrAt (litBytes "---") l).isSome = x1 at *
  generalize (strstrAt (litBytes "+++") l).isSome = x2 at *
  rw [← c1, ← c2]
  cases h3 : strstrAt (litBytes "LID:") l with
  | none => simp
  | some p =>
    obtain ⟨bf, f⟩ := p
    cases x1 <;> cases x2 <;> cases b <;> simp [eq_comm]

/-- **C89** The lexemes marked by a file: banned are the numbers in lines with "---", selected those in lines with "+++" and no "---". -/
theorem C89_marks_partial (lines : List (List Byte)) (h : ∀ l ∈ lines, 10 ∉ l ∧ 0 ∉ l ∧ l.length ≤ 1022) (n : Nat) :
    ((Bool.true, n) ∈ fileMarks (fileOf lines) ↔ ∃ l ∈ lines, Contains (litBytes "---") l ∧ LineLid (fun t => strtoul10 (t ++ [10])) l n) ∧
    ((Bool.false, n) ∈ fileMarks (fileOf lines) ↔ ∃ l ∈ lines, Contains (litBytes "+++") l ∧ ¬ Contains (litBytes "---") l ∧
      LineLid (fun t => strtoul10 (t ++ [10])) l n) := by
  rw [fileMarks, holesLines_file lines _ (Nat.le_refl _) h]
  simp only [List.mem_filterMap, List.mem_map]
  constructor
  · constructor
    · rintro ⟨_, ⟨l, hl, rfl⟩, hm⟩
      obtain ⟨h1, h2⟩ := (markLine_iff l (h l hl).1 _ _).1 hm
      exact ⟨l, hl, by simpa using h1, h2⟩
    · rintro ⟨l, hl, h1, h2⟩
      exact ⟨_, ⟨l, hl, rfl⟩, (markLine_iff l (h l hl).1 _ _).2 ⟨.inl ⟨rfl, h1⟩, h2⟩⟩
  · constructor
    · rintro ⟨_, ⟨l, hl, rfl⟩, hm⟩
      obtain ⟨h1, h2⟩ := (markLine_iff l (h l hl).1 _ _).1 hm
      simp at h1
      exact ⟨l, hl, h1.1, h1.2, h2⟩
    · rintro ⟨l, hl, h1, h1', h2⟩
      exact ⟨_, ⟨l, hl, rfl⟩, (markLine_iff l (h l hl).1 _ _).2 ⟨.inr ⟨rfl, h1, h1'⟩, h2⟩⟩

/-- **C89** The number is a decimal one, after blanks of C (space, tab, line feed, vertical tab, form feed, carriage return); what is behind it does not matter. -/
theorem C89_number (blanks t : List Byte) (hb : ∀ b ∈ blanks, b ∈ [32, 9, 10, 11, 12, 13]) (n : Nat) (hn : n < 2 ^ 64) (ht : ∀ c, t.head? = some c → ¬ (48 ≤ c ∧ c ≤ 57)) :
    strtoul10 (blanks ++ Spec.decimal n ++ t) = n := by
  have hd : ∃ d r, Spec.decimal n ++ t = d :: r ∧ 48 ≤ d ∧ d ≤ 57 := by
    by_cases h0 : n = 0
    · subst h0
      exact ⟨48, t, by rw [decimal_small (by decide)]; rfl, by omega, by omega⟩
    · obtain ⟨c, u, e, h1, h2⟩ := decimal_head n (by omega)
      exact ⟨c, u ++ t, by rw [e]; rfl, by omega, h2⟩
  obtain ⟨d, r, e, h1, h2⟩ := hd
  have hs : (blanks ++ Spec.decimal n ++ t).dropWhile isSpaceC = Spec.decimal n ++ t := by
    have hb' : ∀ b ∈ blanks, isSpaceC b = Bool.true := by
      intro b h
      have h6 : ∀ b ∈ ([32, 9, 10, 11, 12, 13] : List Byte), isSpaceC b = Bool.true := by decide
      exact h6 b (hb b h)
    rw [List.append_assoc, List.dropWhile_append_of_pos hb', e, List.dropWhile_cons_of_neg]
    simp [isSpaceC]; omega
  simp only [strtoul10]
  rw [hs]
  have hno : ¬ ((Spec.decimal n ++ t).head? = some 45 ∨ (Spec.decimal n ++ t).head? = some 43) := by rw [e]; simp; omega
  have hno' : ¬ ((Spec.decimal n ++ t).head? = some 45) := fun h => hno (.inl h)
  rw [if_neg hno, readDigits_decimal, readDigits_stop t n ht, if_neg (by omega), if_neg hno']

/-- **C89** Banned lexemes count for nothing: the tool does what it would do if the limits did not contain them. -/
theorem C89_banned (T : ClassTool) (low : Byte → Byte) (M : Morpho) (buffer : List Byte) (sel ban : Nat → Bool) : ∀ (xs : List Nat) (m : ClassMap),
    loadAll T low M buffer sel ban xs m = loadAll T low M buffer sel (fun _ => Bool.false) (xs.filter fun x => !ban x) m
  | [], m => rfl
  | x :: xs, m => by
    rw [loadAll, loadLexeme]
    cases hb : ban x with
    | true => simp [hb, Ran.bind, C89_banned T low M buffer sel ban xs m]
    | false =>
      rw [List.filter_cons_of_pos (by simp [hb]), loadAll, loadLexeme]
      simp only [Bool.false_eq_true, if_false]
      congr 1
      funext m
      exact C89_banned T low M buffer sel ban xs m

/-- **C89** All files count, in any order; the first that cannot be opened ends the program with the length of the message for a status. -/
theorem C89_files (args : List (List Byte × Option (List Byte))) :
    ((∀ a ∈ args, a.2 ≠ none) → ∃ marks, argsMarks args = .ok marks ∧ ∀ x, x ∈ marks ↔ ∃ a ∈ args, ∃ t, a.2 = some t ∧ x ∈ fileMarks t) ∧
    (∀ pre path post, args = pre ++ (path, none) :: post → (∀ a ∈ pre, a.2 ≠ none) → argsMarks args = .error (28 + path.length)) := by
  constructor
  · induction args with
    | nil => intro _; exact ⟨[], rfl, by simp⟩
    | cons a args ih =>
      intro h
      obtain ⟨p, t⟩ := a
      cases t with
      | none => exact absurd rfl (h (p, none) (by simp))
      | some t =>
        obtain ⟨marks, h1, h2⟩ := ih fun a ha => h a (by simp [ha])
        refine ⟨fileMarks t ++ marks, by rw [argsMarks, h1]; rfl, ?_⟩
        intro x
        rw [List.mem_append, h2]
        simp
  · intro pre path post
    induction pre generalizing args with
    | nil => rintro rfl _; rfl
    | cons a pre ih =>
      rintro rfl h
      obtain ⟨p, t⟩ := a
      cases t with
      | none => exact absurd rfl (h (p, none) (by simp))
      | some t => rw [List.cons_append, argsMarks, ih _ rfl fun a ha => h a (by simp [ha])]; rfl

/-- **C89** A path of 228 letters that cannot be opened: exit status 0, as after success, and no text. -/
theorem C89_silent (T : ClassTool) (low : Byte → Byte) (M : Morpho) (buffer : List Byte) (sort : ClassMap → ClassMap) (limits : List (Nat × Nat))
    (conv : List Byte → List Byte) (path : List Byte) (hp : path.length = 228) : makeClassesMain T low M buffer sort limits conv [(path, none)] = .exit 0 := by
  have := (C89_files [(path, none)]).2 [] path [] rfl (by simp)
  rw [makeClassesMain, this, hp]

/-- **C89** A line of 1023 bytes or more is read in pieces, and a mark that is not in the piece of the number is not seen: "LID:" in the first 1023 bytes
without a mark there, the mark behind. -/
theorem C89_cut (a b : List Byte) (ha : a.length = 1023) (h10 : 10 ∉ a) (h0 : 0 ∉ a) (h1 : ¬ Contains (litBytes "---") a) (h2 : ¬ Contains (litBytes "+++") a)
    (hb : ¬ Contains (litBytes "LID:") b) (hb10 : 10 ∉ b) (hb0 : 0 ∉ b) (hbl : b.length ≤ 1022) : fileMarks (fileOf [a ++ b]) = [] := by
  have e : fileOf [a ++ b] = (a ++ b) ++ 10 :: [] := by simp [fileOf]
  have e1 := (fgetsOne_line 0x3ff (a ++ b) [] (by simp [h10, hb10])).2 (by simp; omega)
  rw [List.take_append_of_le_length (by omega), List.drop_append_of_le_length (by omega), List.take_of_length_le (by omega),
    List.drop_of_length_le (by omega), List.nil_append] at e1
  have e2 := (fgetsOne_line 0x3ff b [] hb10).1 (by omega)
  have m1 : markLine a = none := by
    have c1 : (strstrAt (litBytes "---") a).isSome = Bool.false := by simpa using mt (contains_iff _ _).1 h1
    have c2 : (strstrAt (litBytes "+++") a).isSome = Bool.false := by simpa using mt (contains_iff _ _).1 h2
    rw [markLine, c1, c2]
    rfl
  have m2 : markLine (b ++ [10]) = none := by
    cases hm : markLine (b ++ [10]) with
    | none => rfl
    | some p =>
      obtain ⟨x, n⟩ := p
      obtain ⟨-, bf, af, hf, -⟩ := (markLine_iff b hb10 x n).1 hm
      exact absurd ⟨bf, af, hf.1⟩ hb
  rw [fileMarks, e]
  obtain ⟨k, hk⟩ : ∃ k, ((a ++ b) ++ 10 :: []).length = k + 3 := ⟨((a ++ b) ++ 10 :: []).length - 3, by simp; omega⟩
  rw [hk, holesLines, if_neg (by simp), e1]
  simp only
  rw [holesLines, if_neg (by simp), e2, noZero_take h0, noZero_take (by simpa using hb0)]
  simp [holesLines, m1, m2]

/-- Two marked lines. -/
def markedFile : List Byte := fileOf [[99, 105, 110, 103, 32] ++ litBytes "LID: 2 ---", [99, 116, 114, 32] ++ litBytes "LID:3 +++"]

theorem C89_example_marks : fileMarks markedFile = [(Bool.true, 2), (Bool.false, 3)] := by decide +kernel

/-- **C89** With these marks the tools give the class of C88. -/
theorem C89_example : ∃ text, makeClassesMain rusTool asciiLow mixMorpho (List.replicate 100 0) byWeight [(1, 5)] toUtf8 [([120], some markedFile)] = .ran (.done text) ∧
    loadClasses Json.readLax fromUtf8 text = .ok [boyClass] := by
  have hm : argsMarks [([120], some markedFile)] = .ok [(Bool.true, 2), (Bool.false, 3)] := by
    rw [argsMarks, argsMarks, C89_example_marks]; rfl
  have h3 : (fun x : Nat => decide ((Bool.false, x) ∈ [(Bool.true, 2), (Bool.false, 3)])) = fun x => x == 3 := by
    funext x; by_cases h : x = 3 <;> simp [h]
  have h2 : (fun x : Nat => decide ((Bool.true, x) ∈ [(Bool.true, 2), (Bool.false, 3)])) = fun x => x == 2 := by
    funext x; by_cases h : x = 2 <;> simp [h]
  have he := C88_example
  rw [makeClassesMain, hm]
  simp only
  rw [h2, h3]
  generalize makeClassesText rusTool asciiLow mixMorpho (List.replicate 100 0) (fun x => x == 3) (fun x => x == 2) byWeight [(1, 5)] toUtf8 = r at he ⊢
  rcases r with _ | _ | t
  · exact absurd he (by decide +kernel)
  · exact absurd he (by decide +kernel)
  · exact ⟨t, rfl, he⟩

end Libmorph
