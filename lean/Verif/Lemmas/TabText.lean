import Verif.Model.TabText
import Verif.Spec.TabText
import Verif.Lemmas.EngText
import Verif.Lemmas.Ich
/-
The sources of tables: lines, texts, files.
-/
namespace Libmorph
open Spec

theorem slashes : litBytes "//" = [47, 47] := by decide +kernel

theorem cut_blank (c : Byte) (h : isBlank c = true) (s : List Byte) : cutComment (some c) s = cutComment none s := by
  cases s with
  | nil => rfl
  | cons d s => simp [cutComment, h]

theorem cut_drop (s : List Byte) : (cutComment none s).dropWhile isBlank = cutComment none (s.dropWhile isBlank) := by
  induction s with
  | nil => rfl
  | cons c s ih =>
    by_cases h : isBlank c = true
    · have : ¬ (litBytes "//").isPrefixOf (c :: s) = true := by
        rw [slashes, isPrefixOf_iff]
        rintro ⟨a, e⟩
        simp only [List.cons_append, List.cons.injEq] at e
        rw [e.1] at h; exact absurd h (by decide)
      rw [List.dropWhile_cons_of_pos h, cutComment, if_neg (fun h => this h.1), List.dropWhile_cons_of_pos h, cut_blank c h, ih]
    · rw [List.dropWhile_cons_of_neg h]
      cases hc : cutComment none (c :: s) with
      | nil => rfl
      | cons d t =>
        rw [cutComment] at hc
        split at hc
        · simp at hc
        · simp only [List.cons.injEq] at hc
          rw [List.dropWhile_cons_of_neg (by rw [← hc.1]; exact h)]

theorem cleanLine_eq (l : List Byte) : cleanLine l = trimLine (cutComment none l) := by
  rw [cleanLine, trimLine, cut_drop]

/-- `cutComment` with the byte before. -/
theorem cut_spec : ∀ (s : List Byte) (prev : Option Byte),
    (∃ rest, s = cutComment prev s ++ 47 :: 47 :: rest ∧ (∀ c, (prev.toList ++ cutComment prev s).getLast? = some c → Blank c) ∧
        ∀ m rest, s = m ++ 47 :: 47 :: rest → (∀ c, (prev.toList ++ m).getLast? = some c → Blank c) → (cutComment prev s).length ≤ m.length) ∨
      (cutComment prev s = s ∧ ∀ m rest, s = m ++ 47 :: 47 :: rest → ¬ ∀ c, (prev.toList ++ m).getLast? = some c → Blank c)
  | [], prev => by
    right
    refine ⟨rfl, ?_⟩
    intro m rest h
    cases m <;> simp at h
  | c :: s, prev => by
    have hp : (prev = none ∨ (prev.any isBlank) = true) ↔ ∀ c, (prev.toList ++ []).getLast? = some c → Blank c := by
      cases prev <;> simp [isBlank_iff]
    by_cases h : (litBytes "//").isPrefixOf (c :: s) = true ∧ (prev = none ∨ (prev.any isBlank) = true)
    · left
      rw [cutComment, if_pos h]
      have h1 := h.1
      rw [slashes, isPrefixOf_iff] at h1
      obtain ⟨a, e⟩ := h1
      exact ⟨a, by simpa using e, hp.1 h.2, fun m rest _ _ => Nat.zero_le _⟩
    · rw [cutComment, if_neg h]
      have key : ∀ m rest, c :: s = m ++ 47 :: 47 :: rest → (∀ c, (prev.toList ++ m).getLast? = some c → Blank c) →
          ∃ m', m = c :: m' ∧ s = m' ++ 47 :: 47 :: rest ∧ ∀ x, ((some c).toList ++ m').getLast? = some x → Blank x := by
        intro m rest e hb
        cases m with
        | nil =>
          refine (h ⟨?_, hp.2 hb⟩).elim
          rw [slashes, isPrefixOf_iff]
          exact ⟨rest, by simpa using e⟩
        | cons d m =>
          simp only [List.cons_append, List.cons.injEq] at e
          obtain ⟨rfl, e⟩ := e
          refine ⟨m, rfl, e, fun x hx => hb x ?_⟩
          cases prev with
          | none => simpa using hx
          | some p => simpa [List.getLast?_cons_cons] using hx
      rcases cut_spec s (some c) with ⟨rest, e1, e2, e3⟩ | ⟨e1, e2⟩
      · left
        refine ⟨rest, ?_, ?_, ?_⟩
        · rw [List.cons_append, ← e1]
        · intro x hx
          refine e2 x ?_
          cases prev with
          | none => simpa using hx
          | some p => simpa [List.getLast?_cons_cons] using hx
        · intro m r em hb
          obtain ⟨m', rfl, e', hb'⟩ := key m r em hb
          have := e3 m' r e' hb'
          simp; omega
      · right
        refine ⟨by rw [e1], ?_⟩
        intro m r em hb
        obtain ⟨m', rfl, e', hb'⟩ := key m r em hb
        exact e2 m' r e' hb'

theorem Uncommented_iff (l m : List Byte) : cutComment none l = m ↔ Uncommented l m := by
  have h := cut_spec l none
  simp only [Option.toList_none, List.nil_append] at h
  constructor
  · rintro rfl
    rcases h with ⟨rest, h1, h2, h3⟩ | ⟨h1, h2⟩
    · exact Or.inl ⟨⟨rest, h1, h2⟩, fun m' ⟨r, h4, h5⟩ => h3 m' r h4 h5⟩
    · exact Or.inr ⟨fun ⟨m', r, h3, h4⟩ => h2 m' r h3 h4, h1⟩
  · rintro (⟨⟨r, e1, e2⟩, e3⟩ | ⟨e1, rfl⟩)
    · rcases h with ⟨rest, h1, h2, h3⟩ | ⟨h1, h2⟩
      · have a := h3 m r e1 e2
        have b := e3 _ ⟨rest, h1, h2⟩
        have : l.take m.length = m := by rw [e1]; simp
        rw [← this, Nat.le_antisymm b a]
        generalize cutComment none l = x at h1
        rw [h1]; simp
      · exact (h2 m r e1 e2).elim
    · rcases h with ⟨rest, h1, h2, h3⟩ | ⟨h1, h2⟩
      · exact (e1 ⟨_, rest, h1, h2⟩).elim
      · exact h1

theorem cleanLine_iff (l t : List Byte) : cleanLine l = t ↔ ∃ m, Uncommented l m ∧ Trimmed m t := by
  rw [cleanLine_eq, trimLine_iff]
  constructor
  · intro h; exact ⟨_, (Uncommented_iff _ _).1 rfl, h⟩
  · rintro ⟨m, h1, h2⟩; rw [(Uncommented_iff _ _).2 h1]; exact h2

theorem cut_newline : ∀ (l : List Byte) (prev : Option Byte), cutComment prev (l ++ [10]) = cutComment prev l ∨ cutComment prev (l ++ [10]) = cutComment prev l ++ [10]
  | [], prev => by
    right
    simp [cutComment, slashes, List.isPrefixOf]
  | c :: s, prev => by
    have hp : (litBytes "//").isPrefixOf (c :: s ++ [10]) = (litBytes "//").isPrefixOf (c :: s) := by
      rw [slashes]
      cases s with
      | nil => simp [List.isPrefixOf]
      | cons d s => simp [List.isPrefixOf]
    rw [List.cons_append] at hp ⊢
    rw [cutComment, cutComment, hp]
    split
    · exact Or.inl rfl
    · rcases cut_newline s (some c) with h | h <;> rw [h]
      · exact Or.inl rfl
      · exact Or.inr rfl

theorem cleanLine_newline (l : List Byte) : cleanLine (l ++ [10]) = cleanLine l := by
  rw [cleanLine_eq, cleanLine_eq]
  rcases cut_newline l none with h | h <;> rw [h]
  rw [trimLine_iff, Trimmed_newline, ← trimLine_iff]

theorem tabFgets_line (rest : List Byte) : ∀ (l : List Byte) (room : Nat) (cur : List Byte), 10 ∉ l → l.length < room →
    tabFgets (l ++ 10 :: rest) room cur = (cur ++ l ++ [10]) :: tabFgets rest 0xfff []
  | [], room, cur, _, _ => by rw [List.nil_append, tabFgets, if_pos (Or.inl rfl)]; simp
  | c :: l, room, cur, h, hr => by
    simp only [List.mem_cons, not_or] at h
    simp only [List.length_cons] at hr
    rw [List.cons_append, tabFgets, if_neg (by rintro (h0 | h0) <;> omega), tabFgets_line rest l _ _ h.2 (by omega)]
    simp

theorem tabFgets_last : ∀ (l : List Byte) (room : Nat) (cur : List Byte), 10 ∉ l → l.length < room → cur ++ l ≠ [] →
    tabFgets l room cur = [cur ++ l]
  | [], room, cur, _, _, hne => by rw [tabFgets, if_neg (by simpa using hne)]; simp
  | c :: l, room, cur, h, hr, _ => by
    simp only [List.mem_cons, not_or] at h
    simp only [List.length_cons] at hr
    rw [tabFgets, if_neg (by rintro (h0 | h0) <;> omega), tabFgets_last l _ _ h.2 (by omega) (by simp)]
    simp

theorem tabFgets_file (rest : List Byte) (lines : List (List Byte)) (h : ∀ l ∈ lines, 10 ∉ l ∧ l.length < 0xfff) :
    tabFgets (fileOf lines ++ rest) 0xfff [] = lines.map (· ++ [10]) ++ tabFgets rest 0xfff [] := by
  induction lines with
  | nil => rfl
  | cons l lines ih =>
    have hl := h l (by simp)
    have e : fileOf (l :: lines) ++ rest = l ++ 10 :: (fileOf lines ++ rest) := by simp [fileOf]
    rw [e, tabFgets_line _ l _ _ hl.1 hl.2, ih fun l hl => h l (by simp [hl])]
    simp

theorem takeWhile_all {α : Type} {p : α → Bool} {l : List α} (h : ∀ x ∈ l, p x = true) : l.takeWhile p = l := by
  induction l with
  | nil => rfl
  | cons a l ih => rw [List.takeWhile_cons_of_pos (h a (by simp)), ih fun x hx => h x (by simp [hx])]

theorem takeWhile_ne (l : List Byte) (h : 0 ∉ l) : l.takeWhile (· ≠ 0) = l := by
  refine takeWhile_all fun c hc => ?_
  simp only [ne_eq, decide_not, Bool.not_eq_true', decide_eq_false_iff_not]
  rintro rfl; exact h hc

theorem clean_lines {file : List Byte} {lines : List (List Byte)} (h : IsFile file lines) :
    (tabFgets file 0xfff []).map (fun l => cleanLine (l.takeWhile (· ≠ 0))) = lines.map cleanLine := by
  obtain ⟨h0, h1⟩ := h
  have hm : ∀ ls : List (List Byte), (∀ l ∈ ls, 0 ∉ l) → (ls.map (· ++ [10])).map (fun l => cleanLine (l.takeWhile (· ≠ 0))) = ls.map cleanLine := by
    intro ls hls
    rw [List.map_map]
    refine List.map_congr_left fun l hl => ?_
    simp only [Function.comp]
    rw [takeWhile_ne _ (by simp [hls l hl]), cleanLine_newline]
  rcases h1 with rfl | ⟨first, last, rfl, hne, rfl⟩
  · have := tabFgets_file [] lines fun l hl => ⟨(h0 l hl).1, (h0 l hl).2.2⟩
    simp only [List.append_nil, tabFgets, if_true] at this
    rw [this, hm _ fun l hl => (h0 l hl).2.1]
  · rw [tabFgets_file last first fun l hl => ⟨(h0 l (by simp [hl])).1, (h0 l (by simp [hl])).2.2⟩,
      tabFgets_last last _ _ (h0 last (by simp)).1 (h0 last (by simp)).2.2 (by simpa using hne), List.map_append,
      hm _ fun l hl => (h0 l (by simp [hl])).2.1, List.map_append]
    simp only [List.map_cons, List.map_nil, List.nil_append]
    rw [takeWhile_ne _ (h0 last (by simp)).2.1]

theorem forall₂_map_left' {α β : Type} (f : α → β) (l : List α) : ∀ l', List.Forall₂ (fun a b => f a = b) l l' ↔ l' = l.map f := by
  induction l with
  | nil => intro l'; constructor
           · intro h; cases h; rfl
           · rintro rfl; exact .nil
  | cons a l ih =>
    intro l'
    constructor
    · intro h
      cases h with
      | cons h1 h2 => rw [(ih _).1 h2, ← h1]; rfl
    · rintro rfl
      exact .cons rfl ((ih _).2 rfl)

theorem srcTexts_eq {conv : List Byte → List Byte} (hconv : ∀ t, t ≠ [] → conv t ≠ []) {file : List Byte} {lines : List (List Byte)} (h : IsFile file lines) :
    srcTexts conv file = ((lines.map cleanLine).filter (· ≠ [])).map conv := by
  rw [srcTexts, clean_lines h, takeWhile_all]
  intro x hx
  rw [List.mem_map] at hx
  obtain ⟨t, ht, rfl⟩ := hx
  have := (List.mem_filter.1 ht).2
  simp only [decide_not, Bool.not_eq_true', decide_eq_false_iff_not, ne_eq] at this ⊢
  exact hconv t this

/-- The texts of a file. -/
theorem srcTexts_iff {conv : List Byte → List Byte} (hconv : ∀ t, t ≠ [] → conv t ≠ []) {file : List Byte} (h : ∃ lines, IsFile file lines)
    (ts : List (List Byte)) : srcTexts conv file = ts ↔ TextsOf conv file ts := by
  have e : ∀ l t : List Byte, (∃ m, Uncommented l m ∧ Trimmed m t) = (cleanLine l = t) := fun l t => propext (cleanLine_iff l t).symm
  constructor
  · rintro rfl
    obtain ⟨lines, h⟩ := h
    refine ⟨lines, lines.map cleanLine, h, ?_, srcTexts_eq hconv h⟩
    simp only [e]
    exact (forall₂_map_left' _ _ _).2 rfl
  · rintro ⟨lines, texts, h1, h2, rfl⟩
    simp only [e] at h2
    rw [(forall₂_map_left' _ _ _).1 h2, srcTexts_eq hconv h1]

/-! ### Commands and files -/

theorem hasCommand_iff (cmd s r : List Byte) : hasCommand cmd s = some r ↔ ∃ sep, s = cmd ++ sep :: r ∧ Blank sep := by
  rw [hasCommand]
  constructor
  · intro h
    split at h
    · rename_i hp
      rw [isPrefixOf_iff] at hp
      obtain ⟨a, rfl⟩ := hp
      rw [List.drop_left] at h
      split at h
      · split at h
        · rename_i hb; cases h; exact ⟨_, rfl, (isBlank_iff _).1 hb⟩
        · simp at h
      · simp at h
    · simp at h
  · rintro ⟨sep, rfl, hb⟩
    rw [if_pos ((isPrefixOf_iff _ _).2 ⟨_, rfl⟩), List.drop_left]
    simp [(isBlank_iff _).2 hb]

/-- A list of commands no one of which, with a blank, begins another. -/
def CmdsOk (cmds : List (List Byte)) : Prop := ∀ c ∈ cmds, Solid c

theorem hasCommand_unique {c c' s r r' : List Byte} (h : Solid c) (h' : Solid c') (e : hasCommand c s = some r) (e' : hasCommand c' s = some r') :
    c = c' ∧ r = r' := by
  rw [hasCommand_iff] at e e'
  obtain ⟨sep, rfl, hb⟩ := e
  obtain ⟨sep', e', hb'⟩ := e'
  have a := (solid_split (s := c ++ sep :: r) (x := c) (y := sep :: r)).2 ⟨rfl, h, by intro x hx; simp at hx; subst hx; exact hb⟩
  have b := (solid_split (s := c ++ sep :: r) (x := c') (y := sep' :: r')).2 ⟨e', h', by intro x hx; simp at hx; subst hx; exact hb'⟩
  refine ⟨a.1.symm.trans b.1, ?_⟩
  have := a.2.symm.trans b.2
  simp only [List.cons.injEq] at this
  exact this.2

theorem anyCommand_iff {cmds : List (List Byte)} (h : CmdsOk cmds) (s r : List Byte) : anyCommand cmds s = some r ↔ ∃ c ∈ cmds, hasCommand c s = some r := by
  rw [anyCommand]
  constructor
  · intro e
    exact List.exists_of_findSome?_eq_some e
  · rintro ⟨c, hc, e⟩
    cases h1 : cmds.findSome? fun c => hasCommand c s with
    | none =>
      rw [List.findSome?_eq_none_iff] at h1
      rw [h1 c hc] at e; simp at e
    | some r' =>
      obtain ⟨c', hc', e'⟩ := List.exists_of_findSome?_eq_some h1
      rw [(hasCommand_unique (h c hc) (h c' hc') e e').2]

theorem command_iff {cmds : List (List Byte)} (h : CmdsOk cmds) (t x : List Byte) :
    (∃ r, anyCommand cmds t = some r ∧ trimLine r = x ∧ trimLine r ≠ []) ↔ CommandText cmds t x := by
  simp only [anyCommand_iff h, hasCommand_iff, CommandText, trimLine_iff]
  constructor
  · rintro ⟨r, ⟨c, hc, sep, rfl, hb⟩, ht, hne⟩
    refine ⟨c, hc, sep, r, rfl, hb, ht, ?_⟩
    rw [← (trimLine_iff _ _).2 ht]; exact hne
  · rintro ⟨c, hc, sep, r, rfl, hb, ht, hne⟩
    refine ⟨r, ⟨c, hc, sep, rfl, hb⟩, ht, ?_⟩
    rw [(trimLine_iff _ _).2 ht]; exact hne

theorem beside_iff (path name p : List Byte) : folderOf path ++ name = p ↔ Beside path name p := by
  have key : ∀ dir base : List Byte, path = dir ++ base → (∀ c, dir.getLast? = some c → c = 47 ∨ c = 92) → 47 ∉ base → 92 ∉ base → folderOf path = dir := by
    rintro dir base rfl hd h1 h2
    have := (split_while (p := fun c => decide (c ≠ 47) && decide (c ≠ 92)) (s := (dir ++ base).reverse) (x := base.reverse) (y := dir.reverse)).2
      ⟨by simp, ?_, ?_⟩
    · rw [folderOf, this.2, List.reverse_reverse]
    · intro c hc
      rw [List.mem_reverse] at hc
      simp only [ne_eq, decide_not, Bool.and_eq_true, Bool.not_eq_true', decide_eq_false_iff_not]
      exact ⟨by rintro rfl; exact h1 hc, by rintro rfl; exact h2 hc⟩
    · intro c hc
      rw [List.head?_reverse] at hc
      rcases hd c hc with rfl | rfl <;> rfl
  constructor
  · rintro rfl
    have := (split_while (p := fun c => decide (c ≠ 47) && decide (c ≠ 92)) (s := path.reverse)).1 ⟨rfl, rfl⟩
    obtain ⟨h1, h2, h3⟩ := this
    have e : path = folderOf path ++ (path.reverse.takeWhile (fun c => decide (c ≠ 47) && decide (c ≠ 92))).reverse := by
      have := congrArg List.reverse h1
      rw [List.reverse_reverse, List.reverse_append] at this
      exact this
    refine ⟨_, _, e, ?_, ?_, ?_, rfl⟩
    · intro c hc
      rw [folderOf, List.getLast?_reverse] at hc
      have := h3 c hc
      simp only [ne_eq, decide_not, Bool.and_eq_false_iff, Bool.not_eq_false', decide_eq_true_eq] at this
      exact this
    · intro hc
      have := h2 47 (List.mem_reverse.1 hc)
      simp at this
    · intro hc
      have := h2 92 (List.mem_reverse.1 hc)
      simp at this
  · rintro ⟨dir, base, h1, h2, h3, h4, rfl⟩
    rw [key dir base h1 h2 h3 h4]

end Libmorph
