import Verif.Model.EngText
import Verif.Spec.EngText
/-
Splitting texts.
-/
namespace Libmorph
open Spec

theorem split_while {p : Byte → Bool} {s x y : List Byte} :
    (s.takeWhile p = x ∧ s.dropWhile p = y) ↔ s = x ++ y ∧ (∀ c ∈ x, p c = true) ∧ ∀ c, y.head? = some c → p c = false := by
  constructor
  · rintro ⟨rfl, rfl⟩
    refine ⟨(List.takeWhile_append_dropWhile).symm, ?_, ?_⟩
    · intro c hc
      induction s with
      | nil => simp at hc
      | cons a s ih =>
        by_cases h : p a = true
        · rw [List.takeWhile_cons_of_pos h] at hc
          rcases List.mem_cons.1 hc with rfl | hc
          · exact h
          · exact ih hc
        · rw [List.takeWhile_cons_of_neg h] at hc; simp at hc
    intro c hc
    induction s with
    | nil => simp at hc
    | cons a s ih =>
      by_cases h : p a = true
      · rw [List.dropWhile_cons_of_pos h] at hc; exact ih hc
      · rw [List.dropWhile_cons_of_neg h] at hc
        simp only [List.head?_cons, Option.some.injEq] at hc
        subst hc; simpa using h
  · rintro ⟨rfl, h1, h2⟩
    have e1 : y.takeWhile p = [] ∧ y.dropWhile p = y := by
      cases y with
      | nil => simp
      | cons c y =>
        have := h2 c rfl
        simp [this]
    rw [List.takeWhile_append_of_pos h1, List.dropWhile_append_of_pos h1, e1.1, e1.2]
    simp

theorem isPrefixOf_iff (m s : List Byte) : m.isPrefixOf s = true ↔ ∃ a, s = m ++ a := by
  rw [List.isPrefixOf_iff_prefix]
  exact ⟨fun ⟨a, h⟩ => ⟨a, h.symm⟩, fun ⟨a, h⟩ => ⟨a, h.symm⟩⟩

theorem strstrAt_none (m : List Byte) : ∀ s, strstrAt m s = none ↔ ∀ b a, s ≠ b ++ m ++ a
  | [] => by
    rw [strstrAt]
    by_cases h : m.isPrefixOf [] = true
    · rw [if_pos h]
      obtain ⟨a, ha⟩ := (isPrefixOf_iff _ _).1 h
      refine ⟨fun h => (by simp at h), fun h2 => absurd ha (by simpa using h2 [] a)⟩
    · rw [if_neg h]
      refine ⟨fun _ b a e => h ((isPrefixOf_iff _ _).2 ⟨a, ?_⟩), fun _ => rfl⟩
      have : b = [] := by
        have := congrArg List.length e
        simp at this
        exact List.eq_nil_of_length_eq_zero (by omega)
      simpa [this] using e
  | c :: s => by
    rw [strstrAt]
    by_cases h : m.isPrefixOf (c :: s) = true
    · rw [if_pos h]
      obtain ⟨a, ha⟩ := (isPrefixOf_iff _ _).1 h
      refine ⟨fun h => (by simp at h), fun h2 => absurd ha (by simpa using h2 [] a)⟩
    · rw [if_neg h, Option.map_eq_none_iff, strstrAt_none m s]
      constructor
      · intro h1 b a e
        cases b with
        | nil => exact h ((isPrefixOf_iff _ _).2 ⟨a, by simpa using e⟩)
        | cons x b =>
          simp only [List.cons_append, List.cons.injEq] at e
          exact h1 b a e.2
      · intro h1 b a e
        exact h1 (c :: b) a (by simp [e])

theorem strstrAt_first (m : List Byte) : ∀ s b f, strstrAt m s = some (b, f) → ∃ a, f = m ++ a ∧ FirstMark m s b a
  | [], b, f, h => by
    rw [strstrAt] at h
    split at h
    · rename_i hp
      simp only [Option.some.injEq, Prod.mk.injEq] at h
      obtain ⟨rfl, rfl⟩ := h
      obtain ⟨a, ha⟩ := (isPrefixOf_iff _ _).1 hp
      exact ⟨a, ha, by simpa using ha, fun _ _ _ => Nat.zero_le _⟩
    · simp at h
  | c :: s, b, f, h => by
    rw [strstrAt] at h
    split at h
    · rename_i hp
      simp only [Option.some.injEq, Prod.mk.injEq] at h
      obtain ⟨rfl, rfl⟩ := h
      obtain ⟨a, ha⟩ := (isPrefixOf_iff _ _).1 hp
      exact ⟨a, ha, by simpa using ha, fun _ _ _ => Nat.zero_le _⟩
    · rename_i hp
      obtain ⟨⟨b', f'⟩, h1, h2⟩ := Option.map_eq_some_iff.1 h
      simp only [Prod.mk.injEq] at h2
      obtain ⟨rfl, rfl⟩ := h2
      obtain ⟨a, rfl, h3, h4⟩ := strstrAt_first m s b' f' h1
      refine ⟨a, rfl, by simp [h3], ?_⟩
      intro b a' e
      cases b with
      | nil => exact absurd ((isPrefixOf_iff _ _).2 ⟨a', by simpa using e⟩) hp
      | cons x b =>
        simp only [List.cons_append, List.cons.injEq] at e
        have := h4 b a' e.2
        simpa using this

theorem FirstMark_unique {m s b a b' a' : List Byte} (h : FirstMark m s b a) (h' : FirstMark m s b' a') : b = b' ∧ a = a' := by
  have h1 := h.2 _ _ h'.1
  have h2 := h'.2 _ _ h.1
  have e := h.1.symm.trans h'.1
  have e1 : b = b' := by
    have := congrArg (List.take b.length) e
    rw [List.append_assoc, List.append_assoc, List.take_left] at this
    rw [show b.length = b'.length by omega, List.take_left] at this
    exact this
  subst e1
  simpa using e

theorem strstrAt_some (m s b f : List Byte) : strstrAt m s = some (b, f) ↔ ∃ a, f = m ++ a ∧ FirstMark m s b a := by
  refine ⟨strstrAt_first m s b f, ?_⟩
  rintro ⟨a, rfl, h⟩
  cases hc : strstrAt m s with
  | none => exact absurd h.1 ((strstrAt_none m s).1 hc _ _)
  | some q =>
    obtain ⟨b', f'⟩ := q
    obtain ⟨a', rfl, h'⟩ := strstrAt_first m s b' f' hc
    obtain ⟨rfl, rfl⟩ := FirstMark_unique h h'
    rfl

theorem isBlank_iff (c : Byte) : isBlank c = true ↔ Blank c := by simp [isBlank, Blank]

theorem isBlank_false (c : Byte) : isBlank c = false ↔ ¬ Blank c := by rw [← isBlank_iff]; simp

/-- The trimmed text. -/
theorem trimLine_iff (line s : List Byte) : trimLine line = s ↔ Trimmed line s := by
  have key : Trimmed line (trimLine line) := by
    obtain ⟨h1, h2, h3⟩ := (split_while (p := isBlank) (s := line)).1 ⟨rfl, rfl⟩
    obtain ⟨k1, k2, k3⟩ := (split_while (p := isBlank) (s := (line.dropWhile isBlank).reverse)).1 ⟨rfl, rfl⟩
    have e : line.dropWhile isBlank = trimLine line ++ ((line.dropWhile isBlank).reverse.takeWhile isBlank).reverse := by
      have := congrArg List.reverse k1
      rw [List.reverse_reverse, List.reverse_append] at this
      exact this
    refine ⟨line.takeWhile isBlank, ((line.dropWhile isBlank).reverse.takeWhile isBlank).reverse, ?_, fun c hc => (isBlank_iff c).1 (h2 c hc), fun c hc => (isBlank_iff c).1 (k2 c (List.mem_reverse.1 hc)), ?_, ?_⟩
    · rw [List.append_assoc, ← e]; exact h1
    · intro c hc
      refine (isBlank_false c).1 (h3 c ?_)
      rw [e, List.head?_append, hc]; rfl
    · intro c hc
      refine (isBlank_false c).1 (k3 c ?_)
      rw [trimLine, List.getLast?_reverse] at hc
      exact hc
  constructor
  · rintro rfl; exact key
  · rintro ⟨x, y, h1, h2, h3, h4, h5⟩
    have e1 : (x ++ (s ++ y)).dropWhile isBlank = if s = [] then [] else s ++ y := by
      by_cases hs : s = []
      · subst hs
        rw [if_pos rfl]
        refine (split_while (x := x ++ ([] ++ y)) (y := [])).2 ⟨by simp, ?_, by simp⟩ |>.2
        intro c hc
        simp only [List.nil_append, List.mem_append] at hc
        exact (isBlank_iff c).2 (hc.elim (h2 c) (h3 c))
      · rw [if_neg hs]
        refine (split_while (x := x) (y := s ++ y)).2 ⟨rfl, fun c hc => (isBlank_iff c).2 (h2 c hc), ?_⟩ |>.2
        intro c hc
        obtain ⟨d, s', rfl⟩ := List.exists_cons_of_ne_nil hs
        exact (isBlank_false c).2 (h4 c (by simpa using hc))
    rw [trimLine, h1, List.append_assoc, e1]
    by_cases hs : s = []
    · simp [hs]
    · rw [if_neg hs, List.reverse_append]
      have := (split_while (p := isBlank) (x := y.reverse) (y := s.reverse) (s := y.reverse ++ s.reverse)).2
        ⟨rfl, fun c hc => (isBlank_iff c).2 (h3 c (List.mem_reverse.1 hc)), fun c hc => (isBlank_false c).2 (h5 c (by simpa using hc))⟩
      rw [this.2, List.reverse_reverse]

end Libmorph
