import Verif.Lemmas.RusText
import Verif.Lemmas.RusBounds
import Mathlib.Data.Nat.Bitwise
/-
Cutting off the ending of a headword.
-/
namespace Libmorph
open Libmorph.Spec

theorem hasTail_iff (s tail : List Byte) (h : tail.length < 16) : hasTail s tail = true ↔ tail <:+ s := by
  have e : tail.length &&& 0x0f = tail.length := by
    rw [show (0x0f : Nat) = 2 ^ 4 - 1 from rfl, Nat.and_two_pow_sub_one_eq_mod, Nat.mod_eq_of_lt h]
  rw [hasTail, e, List.take_length]
  simp only [Bool.and_eq_true, decide_eq_true_eq]
  constructor
  · rintro ⟨h1, h2⟩
    exact ⟨s.take (s.length - tail.length), by conv => { lhs; arg 2; rw [← h2] }; exact List.take_append_drop _ _⟩
  · rintro ⟨b, rfl⟩
    simp

theorem cutBack_suffix (b e : List Byte) : cutBack (b ++ e) e.length = some b := (cutBack_iff _ _ _).2 ⟨e, rfl, rfl⟩

/-- What the lines of a table do, when failed recursive calls leave the word as it is. -/
theorem stripItems_loop (descend : Nat → List Byte → Option (Bool × List Byte)) (lv : Nat → Nat) (gr k : Nat) (R : CItem → Prop) (s : List Byte) :
    ∀ l : List CItem,
      (∀ i ∈ l, ¬ R i → gr &&& lv k ≠ i.gr &&& lv k ∨ (gr &&& lv k = 0 ∧ lv k ≠ 0xffff)) →
      (∀ i ∈ l, R i → gr &&& lv k = i.gr &&& lv k ∧ ¬ (gr &&& lv k = 0 ∧ lv k ≠ 0xffff) ∧ i.flex.length < 16) →
      (∀ i ∈ l, R i → k < 2 → i.flags &&& 0x80 ≠ 0 → descend i.next s = some (false, s)) →
      (∃ l1 i l2 b, l = l1 ++ i :: l2 ∧ R i ∧ ¬ (k < 2 ∧ i.flags &&& 0x80 ≠ 0) ∧ s = b ++ i.flex ∧
        (∀ j ∈ l1, R j → ¬ (k < 2 ∧ j.flags &&& 0x80 ≠ 0) → ¬ j.flex <:+ s) ∧ stripItems descend lv gr k l s = some (true, b)) ∨
      ((∀ j ∈ l, R j → ¬ (k < 2 ∧ j.flags &&& 0x80 ≠ 0) → ¬ j.flex <:+ s) ∧ stripItems descend lv gr k l s = some (false, s))
  | [], _, _, _ => Or.inr ⟨by simp, rfl⟩
  | i :: l, h1, h2, h3 => by
    have ih := stripItems_loop descend lv gr k R s l (fun j hj => h1 j (by simp [hj])) (fun j hj => h2 j (by simp [hj]))
      (fun j hj => h3 j (by simp [hj]))
    have lift : (¬ (R i ∧ ¬ (k < 2 ∧ i.flags &&& 0x80 ≠ 0) ∧ i.flex <:+ s)) → stripItems descend lv gr k (i :: l) s = stripItems descend lv gr k l s →
        (∃ l1 i' l2 b, i :: l = l1 ++ i' :: l2 ∧ R i' ∧ ¬ (k < 2 ∧ i'.flags &&& 0x80 ≠ 0) ∧ s = b ++ i'.flex ∧
          (∀ j ∈ l1, R j → ¬ (k < 2 ∧ j.flags &&& 0x80 ≠ 0) → ¬ j.flex <:+ s) ∧ stripItems descend lv gr k (i :: l) s = some (true, b)) ∨
        ((∀ j ∈ i :: l, R j → ¬ (k < 2 ∧ j.flags &&& 0x80 ≠ 0) → ¬ j.flex <:+ s) ∧ stripItems descend lv gr k (i :: l) s = some (false, s)) := by
      intro hi e
      rw [e]
      rcases ih with ⟨l1, i', l2, b, e1, e2, e3, e4, e5, e6⟩ | ⟨e1, e2⟩
      · refine Or.inl ⟨i :: l1, i', l2, b, by rw [e1]; rfl, e2, e3, e4, ?_, e6⟩
        intro j hj hr hk
        rcases List.mem_cons.1 hj with rfl | hj
        · exact fun ht => hi ⟨hr, hk, ht⟩
        · exact e5 j hj hr hk
      · refine Or.inr ⟨?_, e2⟩
        intro j hj hr hk
        rcases List.mem_cons.1 hj with rfl | hj
        · exact fun ht => hi ⟨hr, hk, ht⟩
        · exact e1 j hj hr hk
    by_cases hR : R i
    · obtain ⟨a1, a2, a3⟩ := h2 i (by simp) hR
      by_cases hk : k < 2 ∧ i.flags &&& 0x80 ≠ 0
      · apply lift (fun h => h.2.1 hk)
        rw [stripItems, if_neg (not_not_intro a1), if_neg a2, if_pos hk, h3 i (by simp) hR hk.1 hk.2]
        simp
      · by_cases ht : i.flex <:+ s
        · left
          obtain ⟨b, rfl⟩ := ht
          refine ⟨[], i, l, b, rfl, hR, hk, rfl, by simp, ?_⟩
          rw [stripItems, if_neg (not_not_intro a1), if_neg a2, if_neg hk, if_pos ((hasTail_iff _ _ a3).2 ⟨b, rfl⟩), cutBack_suffix]
          rfl
        · apply lift (fun h => ht h.2.2)
          rw [stripItems, if_neg (not_not_intro a1), if_neg a2, if_neg hk, if_neg (fun h => ht ((hasTail_iff _ _ a3).1 h))]
    · apply lift (fun h => hR h.1)
      rw [stripItems]
      rcases h1 i (by simp) hR with h | h
      · rw [if_pos h]
      · by_cases h' : gr &&& lv k ≠ i.gr &&& lv k
        · rw [if_pos h']
        · rw [if_neg h', if_pos h]

theorem stripItems_skip (descend : Nat → List Byte → Option (Bool × List Byte)) (lv : Nat → Nat) (gr k : Nat) (s : List Byte) (m : List CItem) :
    ∀ l : List CItem, (∀ i ∈ l, gr &&& lv k ≠ i.gr &&& lv k ∨ (gr &&& lv k = 0 ∧ lv k ≠ 0xffff)) →
      stripItems descend lv gr k (l ++ m) s = stripItems descend lv gr k m s
  | [], _ => rfl
  | i :: l, h => by
    have ih := stripItems_skip descend lv gr k s m l fun j hj => h j (by simp [hj])
    rw [List.cons_append, stripItems, ih]
    rcases h i (by simp) with h | h
    · rw [if_pos h]
    · by_cases h' : gr &&& lv k ≠ i.gr &&& lv k
      · rw [if_pos h']
      · rw [if_neg h', if_pos h]

theorem readCItems_length : ∀ (n : Nat) (p : List Byte) (l : List CItem), readCItems n p = some l → l.length = n
  | 0, p, l, h => by simp [readCItems] at h; simp [← h]
  | n + 1, p, l, h => by
    simp only [readCItems, Option.bind_eq_bind, Option.bind_eq_some_iff, Option.pure_def, Option.some.injEq, Prod.exists] at h
    obtain ⟨i, q, _, l', h', rfl⟩ := h
    simp [readCItems_length n q l' h']

theorem compactTable7_small {ftab : List Byte} {t : Nat} {l : List CItem} (h : compactTable ftab t = some l) (hl : l.length < 128) :
    compactTable7 ftab t = some l := by
  rw [← h]
  apply compactTable7_eq
  intro n p e
  rw [compactTable, e] at h
  rw [readCItems_length n p l h] at hl
  exact hl

theorem readCItem_gr {p : List Byte} {i : CItem} {q : List Byte} (hb : ∀ b ∈ p, b < 256) (h : readCItem p = some (i, q)) :
    i.gr < 65536 ∧ ∀ b ∈ q, b < 256 := by
  match p, h with
  | [], h => simp [readCItem, getbyte] at h
  | [a], h => simp [readCItem, getbyte, getword16] at h
  | [a, b], h => simp [readCItem, getbyte, getword16] at h
  | [a, b, c], h => simp [readCItem, getbyte, getword16] at h
  | a :: b :: c :: n :: p, h =>
    have hbl := hb b (by simp)
    have hcl := hb c (by simp)
    have hgr : b ||| c <<< 8 < 65536 := by
      rw [show (65536 : Nat) = 2 ^ 16 from rfl]
      apply Nat.or_lt_two_pow (by omega)
      rw [Nat.shiftLeft_eq]; omega
    have hp : ∀ x ∈ p, x < 256 := fun x hx => hb x (by simp [hx])
    simp only [readCItem, getbyte, getword16, Option.bind_eq_bind, Option.bind_some] at h
    split at h
    · simp at h
    split at h
    · have hd : ∀ x ∈ p.drop n, x < 256 := fun x hx => hp x (List.mem_of_mem_drop hx)
      revert h hd
      generalize p.drop n = r
      intro h hd
      match r, h, hd with
      | [], h, hd => simp at h
      | [x], h, hd => simp at h
      | x :: y :: r, h, hd =>
        simp only [Option.bind_some, Option.pure_def, Option.some.injEq, Prod.mk.injEq] at h
        obtain ⟨rfl, rfl⟩ := h
        exact ⟨hgr, fun z hz => hd z (by simp [hz])⟩
    · simp only [Option.pure_def, Option.some.injEq, Prod.mk.injEq] at h
      obtain ⟨rfl, rfl⟩ := h
      exact ⟨hgr, fun x hx => hp x (List.mem_of_mem_drop hx)⟩

theorem readCItems_gr : ∀ (n : Nat) (p : List Byte) (l : List CItem), (∀ b ∈ p, b < 256) → readCItems n p = some l → ∀ i ∈ l, i.gr < 65536
  | 0, p, l, _, h => by simp only [readCItems, Option.some.injEq] at h; subst h; simp
  | n + 1, p, l, hb, h => by
    simp only [readCItems, Option.bind_eq_bind, Option.bind_eq_some_iff, Option.pure_def, Option.some.injEq, Prod.exists] at h
    obtain ⟨i, q, hi, l', h', rfl⟩ := h
    obtain ⟨h1, h2⟩ := readCItem_gr hb hi
    intro j hj
    rcases List.mem_cons.1 hj with rfl | hj
    · exact h1
    · exact readCItems_gr n q l' h2 h' j hj

theorem compactTable_gr {ftab : List Byte} (hb : ∀ b ∈ ftab, b < 256) {t : Nat} {l : List CItem} (h : compactTable ftab t = some l) :
    ∀ i ∈ l, i.gr < 65536 := by
  simp only [compactTable, Option.bind_eq_bind, Option.bind_eq_some_iff, Prod.exists] at h
  obtain ⟨n, p, hp, h⟩ := h
  have hd : ∀ b ∈ ftab.drop (t <<< 1), b < 256 := fun b hb' => hb b (List.mem_of_mem_drop hb')
  apply readCItems_gr n p l ?_ h
  revert hp hd
  generalize ftab.drop (t <<< 1) = r
  intro hp hd
  cases r with
  | nil => simp [getbyte] at hp
  | cons x r =>
    simp only [getbyte, Option.some.injEq, Prod.mk.injEq] at hp
    obtain ⟨rfl, rfl⟩ := hp
    exact fun b hb' => hd b (by simp [hb'])

theorem and_ffff {x : Nat} (h : x < 65536) : x &&& 0xffff = x := by
  rw [show (0xffff : Nat) = 2 ^ 16 - 1 from rfl, Nat.and_two_pow_sub_one_eq_mod, Nat.mod_eq_of_lt h]

theorem and_7f (x : Nat) : x &&& 0x7f = x % 128 := by
  rw [show (0x7f : Nat) = 2 ^ 7 - 1 from rfl, Nat.and_two_pow_sub_one_eq_mod]

theorem and_8000 (x : Nat) : x &&& 0x8000 = 0 ∨ x &&& 0x8000 = 0x8000 := by
  rw [show (0x8000 : Nat) = 2 ^ 15 from rfl, Nat.and_two_pow]
  cases x.testBit 15 <;> simp

/-! ### Nouns and the like -/

theorem noun_strip {ftab : List Byte} (hb : ∀ b ∈ ftab, b < 256) {t q : Nat} (hq : q < 65536) (hs : NounShape ftab t q) (d : Nat) (s : List Byte) :
    (∃ b g, HeadEnding ftab t False q s b g ∧ stripStr ftab nounLevels q (d + 2) t 0 s = some (true, b)) ∨
    ((¬ ∃ b g, HeadEnding ftab t False q s b g) ∧ stripStr ftab nounLevels q (d + 2) t 0 s = some (false, s)) := by
  obtain ⟨l, hl, hn⟩ := hs.small
  have hgr := compactTable_gr hb hl
  have l0 : nounLevels 0 = 0xffff := rfl
  have nest : ∀ i ∈ l, i.gr = q → (0 : Nat) < 2 → i.flags &&& 0x80 ≠ 0 → stripStr ftab nounLevels q (d + 1) i.next 0 s = some (false, s) := by
    intro i hi hq' _ hf
    obtain ⟨⟨m, hm, hmn⟩, hno⟩ := hs.onward i ⟨l, hl, hi⟩ hq' hf
    have e := stripItems_skip (fun t s => stripStr ftab nounLevels q d t 0 s) nounLevels q 0 s [] m fun j hj => by
      left
      rw [l0, and_ffff hq, and_ffff (compactTable_gr hb hm j hj)]
      exact fun e => hno j ⟨m, hm, hj⟩ e.symm
    rw [List.append_nil] at e
    rw [stripStr, compactTable7_small hm hmn]
    simp only [Option.bind_eq_bind, Option.bind_some, e, stripItems]
    simp [upLevels, nounLevels]
  have key := stripItems_loop (fun t s => stripStr ftab nounLevels q (d + 1) t 0 s) nounLevels q 0 (fun i => i.gr = q) s l
    (fun i hi hr => Or.inl (by rw [l0, and_ffff hq, and_ffff (hgr i hi)]; exact fun e => hr e.symm))
    (fun i hi hr => ⟨by rw [l0, hr], fun h => h.2 rfl, hs.short i ⟨l, hl, hi⟩ hr⟩) nest
  have unf : ∀ r, stripItems (fun t s => stripStr ftab nounLevels q (d + 1) t 0 s) nounLevels q 0 l s = some r →
      stripStr ftab nounLevels q (d + 2) t 0 s = some r := by
    intro r hr
    rw [stripStr, compactTable7_small hl hn]
    simp only [Option.bind_eq_bind, Option.bind_some, hr]
    obtain ⟨ok, s'⟩ := r
    cases ok <;> simp [upLevels, nounLevels]
  have conv : ∀ j e g, LineEnding ftab False q j e g ↔ j.gr = q ∧ j.flags &&& 0x80 = 0 ∧ e = j.flex ∧ g = ⟨j.gr, j.flags⟩ := by
    intro j e g
    simp [LineEnding]
  rcases key with ⟨l1, i, l2, b, e1, e2, e3, e4, e5, e6⟩ | ⟨e1, e2⟩
  · left
    have h0 : i.flags &&& 0x80 = 0 := Classical.byContradiction fun h => e3 ⟨by decide, h⟩
    refine ⟨b, ⟨i.gr, i.flags⟩, ⟨l1, i, l2, i.flex, by rw [hl, e1], (conv _ _ _).2 ⟨e2, h0, rfl, rfl⟩, e4, ?_⟩, unf _ e6⟩
    intro j hj e' g' h
    obtain ⟨a1, a2, rfl, _⟩ := (conv _ _ _).1 h
    exact e5 j hj a1 (fun h => h.2 a2)
  · right
    refine ⟨?_, unf _ e2⟩
    rintro ⟨b, g, l1, i, l2, e, h1, h2, h3, _⟩
    obtain ⟨a1, a2, rfl, _⟩ := (conv _ _ _).1 h2
    rw [hl, Option.some.injEq] at h1
    exact e1 i (by rw [h1]; simp) a1 (fun h => h.2 a2) ⟨b, h3.symm⟩

/-! ### Verbs -/

theorem verb_level1 (descend : Nat → List Byte → Option (Bool × List Byte)) (l : List CItem) (s : List Byte) :
    stripItems descend verbLevels 0x8001 1 l s = some (false, s) := by
  have := stripItems_skip descend verbLevels 0x8001 1 s [] l fun i _ => Or.inr (by decide)
  rw [List.append_nil] at this
  rw [this]; rfl

/-- At the third level only reflexive lines count. -/
theorem verb_up {ftab : List Byte} {t : Nat} {l : List CItem} (hl : compactTable7 ftab t = some l) (d : Nat) (s : List Byte) {r : Bool × List Byte}
    (h2 : stripItems (fun t s => stripStr ftab verbLevels 0x8001 d t 2 s) verbLevels 0x8001 2 l s = some r) :
    stripStr ftab verbLevels 0x8001 (d + 2) t 1 s = some r := by
  rw [stripStr, hl]
  simp only [Option.bind_eq_bind, Option.bind_some, verb_level1]
  rw [if_neg (by simp), if_pos (by decide), stripStr, hl]
  simp only [Option.bind_eq_bind, Option.bind_some, h2]
  obtain ⟨ok, s'⟩ := r
  cases ok <;> simp

theorem verb_strip {ftab : List Byte} {t : Nat} (hs : VerbShape ftab t) (q : Nat) (d : Nat) (s : List Byte) :
    (∃ b g, HeadEnding ftab t True q s b g ∧ stripStr ftab verbLevels 0x8001 (d + 5) t 0 s = some (true, b)) ∨
    ((¬ ∃ b g, HeadEnding ftab t True q s b g) ∧ ∃ s', stripStr ftab verbLevels 0x8001 (d + 5) t 0 s = some (false, s')) := by
  obtain ⟨l, hl, hn⟩ := hs.small
  have hl7 := compactTable7_small hl hn
  have l0 : verbLevels 0 = 0x7f := rfl
  have l2 : verbLevels 2 = 0x8000 := rfl
  have g0 : (0x8001 : Nat) &&& 0x7f = 1 := by decide
  have g2 : (0x8001 : Nat) &&& 0x8000 = 0x8000 := by decide
  have conv : ∀ j e g, LineEnding ftab True q j e g ↔ (j.gr % 128 = 1 ∧ j.flags &&& 0x80 = 0 ∧ e = j.flex ∧ g = ⟨j.gr, j.flags⟩) ∨
      (j.gr % 128 = 1 ∧ j.flags &&& 0x80 ≠ 0 ∧ ∃ r, InTable ftab j.next r ∧ r.gr &&& 0x8000 ≠ 0 ∧ e = j.flex ++ r.flex ∧
        g = ⟨j.gr ||| r.gr, j.flags &&& r.flags⟩) := by
    intro j e g
    simp [LineEnding]
  -- after a failure at the first level nothing is found
  have fin : ∀ s1 s2, stripItems (fun t s => stripStr ftab verbLevels 0x8001 (d + 4) t 0 s) verbLevels 0x8001 0 l s1 = some (false, s2) →
      stripStr ftab verbLevels 0x8001 (d + 5) t 0 s1 = some (false, s2) := by
    intro s1 s2 h
    have h2 := stripItems_skip (fun t s => stripStr ftab verbLevels 0x8001 (d + 2) t 2 s) verbLevels 0x8001 2 s2 [] l fun i hi => by
      left; rw [l2, g2, hs.active i ⟨l, hl, hi⟩]; decide
    rw [List.append_nil] at h2
    have := verb_up hl7 (d + 2) s2 (h2.trans rfl)
    rw [stripStr, hl7]
    simp only [Option.bind_eq_bind, Option.bind_some, h]
    rw [if_neg (by simp), if_pos (by decide)]
    exact this
  have fint : ∀ s1 s2, stripItems (fun t s => stripStr ftab verbLevels 0x8001 (d + 4) t 0 s) verbLevels 0x8001 0 l s1 = some (true, s2) →
      stripStr ftab verbLevels 0x8001 (d + 5) t 0 s1 = some (true, s2) := by
    intro s1 s2 h
    rw [stripStr, hl7]
    simp only [Option.bind_eq_bind, Option.bind_some, h]
    rfl
  by_cases hob : ∃ i, InTable ftab t i ∧ i.gr % 128 = 1 ∧ i.flags &&& 0x80 ≠ 0
  · -- one infinitive, that must go on
    obtain ⟨i, hi, hi1, hi2⟩ := hob
    obtain ⟨_, ⟨nl, hnl, hnn⟩, hr, hfree, l1, m, hlm, honly⟩ := hs.onward i hi hi1 hi2
    have hshort := hs.short i hi hi1
    rw [hl, Option.some.injEq] at hlm
    subst hlm
    have hn7 := compactTable7_small hnl hnn
    have skip1 : ∀ j ∈ l1 ++ m, (0x8001 : Nat) &&& verbLevels 0 ≠ j.gr &&& verbLevels 0 ∨ ((0x8001 : Nat) &&& verbLevels 0 = 0 ∧ verbLevels 0 ≠ 0xffff) := by
      intro j hj
      left
      rw [l0, g0, and_7f]
      exact fun e => honly j hj e.symm
    -- the table it goes on with
    have nest : ∀ r, stripItems (fun t s => stripStr ftab verbLevels 0x8001 (d + 1) t 2 s) verbLevels 0x8001 2 nl s = some r →
        stripStr ftab verbLevels 0x8001 (d + 4) i.next 0 s = some r := by
      intro r hr2
      have h0 := stripItems_skip (fun t s => stripStr ftab verbLevels 0x8001 (d + 3) t 0 s) verbLevels 0x8001 0 s [] nl fun j hj => by
        left
        rw [l0, g0, and_7f]
        exact fun e => (hr j ⟨nl, hnl, hj⟩).1 e.symm
      rw [List.append_nil] at h0
      rw [stripStr, hn7]
      simp only [Option.bind_eq_bind, Option.bind_some, h0, stripItems]
      rw [if_neg (by simp), if_pos (by decide)]
      exact verb_up hn7 (d + 1) s hr2
    have key := stripItems_loop (fun t s => stripStr ftab verbLevels 0x8001 (d + 1) t 2 s) verbLevels 0x8001 2 (fun r => r.gr &&& 0x8000 ≠ 0) s nl
      (fun r _ h => by
        left
        rw [l2, g2]
        have : r.gr &&& 0x8000 = 0 := Classical.byContradiction h
        rw [this]; decide)
      (fun r hr' h => ⟨by rw [l2, g2, (and_8000 r.gr).resolve_left h], by rw [l2, g2]; decide, ((hr r ⟨nl, hnl, hr'⟩).2 h).2.2⟩)
      (fun _ _ _ h => absurd h (by decide))
    have step : ∀ r, stripStr ftab verbLevels 0x8001 (d + 4) i.next 0 s = some r →
        stripItems (fun t s => stripStr ftab verbLevels 0x8001 (d + 4) t 0 s) verbLevels 0x8001 0 (l1 ++ i :: m) s =
          if r.1 && hasTail r.2 i.flex then (cutBack r.2 i.flex.length).map (true, ·) else some (false, r.2) := by
      intro r h
      rw [stripItems_skip _ _ _ _ _ _ l1 fun j hj => skip1 j (by simp [hj]), stripItems]
      rw [if_neg (by rw [l0, g0, and_7f, hi1]; simp), if_neg (by rw [l0, g0]; decide), if_pos ⟨by decide, hi2⟩, h]
      simp only [Option.bind_eq_bind, Option.bind_some]
      split
      · rfl
      · have := stripItems_skip (fun t s => stripStr ftab verbLevels 0x8001 (d + 4) t 0 s) verbLevels 0x8001 0 r.2 [] m fun j hj => skip1 j (by simp [hj])
        rw [List.append_nil] at this
        rw [this]; rfl
    have others : ∀ j ∈ l1 ++ m, ∀ e g, ¬ LineEnding ftab True q j e g := by
      intro j hj e g h
      rcases (conv _ _ _).1 h with h | h
      · exact honly j hj h.1
      · exact honly j hj h.1
    have none_of : (∀ r ∈ nl, r.gr &&& 0x8000 ≠ 0 → ¬ (i.flex ++ r.flex) <:+ s) → ¬ ∃ b g, HeadEnding ftab t True q s b g := by
      rintro h ⟨b, g, k1, j, k2, e, a1, a2, a3, _⟩
      rw [hl, Option.some.injEq] at a1
      have hj : j = i := by
        have : j ∈ l1 ++ i :: m := by rw [a1]; simp
        rcases List.mem_append.1 this with hj | hj
        · exact absurd a2 (others j (by simp [hj]) _ _)
        · rcases List.mem_cons.1 hj with hj | hj
          · exact hj
          · exact absurd a2 (others j (by simp [hj]) _ _)
      subst hj
      rcases (conv _ _ _).1 a2 with ⟨_, h0, _⟩ | ⟨_, _, r, ⟨nl', hnl', hr'⟩, h8, rfl, _⟩
      · exact hi2 h0
      · rw [hnl, Option.some.injEq] at hnl'
        subst hnl'
        exact h r hr' h8 ⟨b, a3.symm⟩
    rcases key with ⟨n1, r, n2, b, e1, e2, _, e4, _, e6⟩ | ⟨e1, e2⟩
    · have hrin : InTable ftab i.next r := ⟨nl, hnl, by rw [e1]; simp⟩
      have hst := step _ (nest _ e6)
      by_cases ht : i.flex <:+ b
      · left
        obtain ⟨b', rfl⟩ := ht
        refine ⟨b', ⟨i.gr ||| r.gr, i.flags &&& r.flags⟩, ⟨l1, i, m, i.flex ++ r.flex, hl, (conv _ _ _).2 (Or.inr ⟨hi1, hi2, r, hrin, e2, rfl, rfl⟩), ?_, ?_⟩, ?_⟩
        · rw [e4, List.append_assoc]
        · intro j hj e' g' h
          exact absurd h (others j (by simp [hj]) _ _)
        · apply fint
          rw [hst]
          simp only [Bool.true_and]
          rw [if_pos ((hasTail_iff _ _ hshort).2 ⟨b', rfl⟩), cutBack_suffix]
          rfl
      · right
        constructor
        · apply none_of
          rintro r' hr' h8 ⟨b', hb'⟩
          apply ht
          -- the reflexive ending is the same
          have hr'in : InTable ftab i.next r' := ⟨nl, hnl, hr'⟩
          have same : r'.flex = r.flex := by
            have h1 : r.flex <:+ s := ⟨b, e4.symm⟩
            have h2 : r'.flex <:+ s := ⟨b' ++ i.flex, by rw [← hb']; simp⟩
            rcases List.suffix_or_suffix_of_suffix h1 h2 with h | h
            · exact (hfree r r' hrin hr'in e2 h8 h).symm
            · exact hfree r' r hr'in hrin h8 e2 h
          rw [same] at hb'
          rw [← hb', ← List.append_assoc] at e4
          exact ⟨b', List.append_cancel_right e4⟩
        · exact ⟨b, fin _ _ (by rw [hst]; simp only [Bool.true_and]; rw [if_neg (fun h => ht ((hasTail_iff _ _ hshort).1 h))])⟩
    · right
      constructor
      · apply none_of
        rintro r hr' h8 ⟨b, hb⟩
        exact e1 r hr' h8 (fun h => absurd h.1 (by decide)) ⟨b ++ i.flex, by rw [← hb]; simp⟩
      · refine ⟨s, fin _ _ ?_⟩
        rw [step _ (nest _ e2)]
        simp
  · -- the infinitives stand for themselves
    have hno : ∀ j ∈ l, j.gr % 128 = 1 → j.flags &&& 0x80 = 0 := fun j hj h1 => Classical.byContradiction fun h => hob ⟨j, ⟨l, hl, hj⟩, h1, h⟩
    have key := stripItems_loop (fun t s => stripStr ftab verbLevels 0x8001 (d + 4) t 0 s) verbLevels 0x8001 0 (fun i => i.gr % 128 = 1) s l
      (fun i hi hr => Or.inl (by rw [l0, g0, and_7f]; exact fun e => hr e.symm))
      (fun i hi hr => ⟨by rw [l0, g0, and_7f, hr], by rw [l0, g0]; decide, hs.short i ⟨l, hl, hi⟩ hr⟩)
      (fun i hi hr _ h => absurd (hno i hi hr) h)
    rcases key with ⟨l1, i, l2, b, e1, e2, e3, e4, e5, e6⟩ | ⟨e1, e2⟩
    · left
      refine ⟨b, ⟨i.gr, i.flags⟩, ⟨l1, i, l2, i.flex, by rw [hl, e1], (conv _ _ _).2 (Or.inl ⟨e2, hno i (by rw [e1]; simp) e2, rfl, rfl⟩), e4, ?_⟩, fint _ _ e6⟩
      intro j hj e' g' h
      rcases (conv _ _ _).1 h with ⟨a1, a2, rfl, _⟩ | ⟨a1, a2, _⟩
      · exact e5 j hj a1 (fun h => h.2 a2)
      · exact absurd (hno j (by rw [e1]; simp [hj]) a1) a2
    · right
      refine ⟨?_, s, fin _ _ e2⟩
      rintro ⟨b, g, l1, i, l2, e, h1, h2, h3, _⟩
      rw [hl, Option.some.injEq] at h1
      have hi : i ∈ l := by rw [h1]; simp
      rcases (conv _ _ _).1 h2 with ⟨a1, a2, rfl, _⟩ | ⟨a1, a2, _⟩
      · exact e1 i hi a1 (fun h => h.2 a2) ⟨b, h3.symm⟩
      · exact absurd (hno i hi a1) a2

end Libmorph
