import Verif.Spec.RusTables
import Verif.Lemmas.EngForms
namespace Libmorph
open Spec

/-! ### The table of alternants -/

/-- Sorted, without repetition. -/
def MixSorted (l : List Mix) : Prop := l.Pairwise fun a b => bytesLt a.str b.str = true

theorem testBit_one_shift (step k : Nat) (h : step < 8) : ((1 <<< step) % 256).testBit k = decide (k = step) := by
  have h1 : (1 <<< step) % 256 = 2 ^ step := by
    rw [Nat.shiftLeft_eq, Nat.one_mul]
    apply Nat.mod_eq_of_lt
    calc 2 ^ step < 2 ^ 8 := Nat.pow_lt_pow_right (by decide) h
      _ = 256 := rfl
  rw [h1, Nat.testBit_two_pow]
  simp [eq_comm]

theorem testBit_or_shift (f step k : Nat) (hf : f < 256) (h : step < 8) :
    ((f ||| (1 <<< step)) % 256).testBit k = (f.testBit k || decide (k = step)) := by
  have h1 : (1 <<< step) < 256 := by
    rw [Nat.shiftLeft_eq, Nat.one_mul]
    calc 2 ^ step < 2 ^ 8 := Nat.pow_lt_pow_right (by decide) h
      _ = 256 := rfl
  rw [Nat.mod_eq_of_lt (Nat.or_lt_two_pow (n := 8) hf h1), Nat.testBit_or]
  congr 1
  rw [← testBit_one_shift step k h, Nat.mod_eq_of_lt h1]

theorem mem_addStep (s : List Byte) (step : Nat) (l : List Mix) :
    ∀ m ∈ addStep s step l, m.str = s ∨ m ∈ l := by
  induction l with
  | nil => intro m hm; simp only [addStep, List.mem_singleton] at hm; subst hm; exact Or.inl rfl
  | cons x l ih =>
    intro m hm
    simp only [addStep] at hm
    split at hm
    · rcases List.mem_cons.1 hm with rfl | hm
      · exact Or.inr (by simp)
      · rcases ih m hm with h | h
        · exact Or.inl h
        · exact Or.inr (by simp [h])
    · split at hm
      · rename_i heq
        rcases List.mem_cons.1 hm with rfl | hm
        · exact Or.inl heq
        · exact Or.inr (by simp [hm])
      · rcases List.mem_cons.1 hm with rfl | hm
        · exact Or.inl rfl
        · exact Or.inr hm

theorem addStep_inv (s : List Byte) (step : Nat) (hst : step < 8) (l : List Mix) (hs : MixSorted l)
    (hfl : ∀ m ∈ l, m.flags < 256) :
    MixSorted (addStep s step l) ∧ (∀ m ∈ addStep s step l, m.flags < 256) ∧
    (∃ m ∈ addStep s step l, m.str = s) ∧ (∀ m ∈ l, ∃ m' ∈ addStep s step l, m'.str = m.str) ∧
    (∀ m ∈ addStep s step l, ∀ k, m.flags.testBit k = true ↔ (m.str = s ∧ k = step) ∨ ∃ m' ∈ l, m'.str = m.str ∧ m'.flags.testBit k = true) ∧
    (addStep s step l).length ≤ l.length + 1 := by
  induction l with
  | nil =>
    refine ⟨by simp [MixSorted, addStep], ?_, ⟨⟨s, (1 <<< step) % 256⟩, by simp [addStep], rfl⟩, by simp, ?_, by simp [addStep]⟩
    · intro m hm
      simp only [addStep, List.mem_singleton] at hm
      subst hm
      exact Nat.mod_lt _ (by decide)
    · intro m hm k
      simp only [addStep, List.mem_singleton] at hm
      subst hm
      rw [testBit_one_shift step k hst]
      simp
  | cons x l ih =>
    have hs' : MixSorted l := (List.pairwise_cons.1 hs).2
    have hx := (List.pairwise_cons.1 hs).1
    obtain ⟨i1, i2, i3, i4, i5, i6⟩ := ih hs' (fun m hm => hfl m (by simp [hm]))
    simp only [addStep]
    split
    · rename_i hlt
      refine ⟨?_, ?_, ?_, ?_, ?_, by simp only [List.length_cons]; omega⟩
      · refine List.pairwise_cons.2 ⟨?_, i1⟩
        intro m hm
        rcases mem_addStep s step l m hm with h | h
        · rw [h]; exact hlt
        · exact hx m h
      · intro m hm
        rcases List.mem_cons.1 hm with rfl | hm
        · exact hfl _ (by simp)
        · exact i2 m hm
      · obtain ⟨m, h1, h2⟩ := i3
        exact ⟨m, by simp [h1], h2⟩
      · intro m hm
        rcases List.mem_cons.1 hm with rfl | hm
        · exact ⟨m, by simp, rfl⟩
        · obtain ⟨m', h1, h2⟩ := i4 m hm
          exact ⟨m', by simp [h1], h2⟩
      · intro m hm k
        rcases List.mem_cons.1 hm with rfl | hm
        · constructor
          · intro h; exact Or.inr ⟨m, by simp, rfl, h⟩
          · rintro (⟨h1, _⟩ | ⟨m', h1, h2, h3⟩)
            · rw [h1, bytesLt_irrefl] at hlt; simp at hlt
            · rcases List.mem_cons.1 h1 with rfl | h1
              · exact h3
              · have := hx m' h1
                rw [h2, bytesLt_irrefl] at this; simp at this
        · rw [i5 m hm k]
          constructor
          · rintro (h | ⟨m', h1, h2⟩)
            · exact Or.inl h
            · exact Or.inr ⟨m', by simp [h1], h2⟩
          · rintro (h | ⟨m', h1, h2, h3⟩)
            · exact Or.inl h
            · rcases List.mem_cons.1 h1 with rfl | h1
              · exfalso
                have hm0 : m ∈ addStep s step l := by assumption
                rcases mem_addStep s step l m hm0 with h | h
                · rw [h2, h, bytesLt_irrefl] at hlt; simp at hlt
                · have := hx m h
                  rw [h2, bytesLt_irrefl] at this; simp at this
              · exact Or.inr ⟨m', h1, h2, h3⟩
    · rename_i hnlt
      split
      · rename_i heq
        refine ⟨?_, ?_, ⟨_, List.mem_cons_self, heq⟩, ?_, ?_, by simp⟩
        · exact List.pairwise_cons.2 ⟨fun m hm => hx m hm, hs'⟩
        · intro m hm
          rcases List.mem_cons.1 hm with rfl | hm
          · exact Nat.mod_lt _ (by decide)
          · exact hfl m (by simp [hm])
        · intro m hm
          rcases List.mem_cons.1 hm with rfl | hm
          · exact ⟨_, List.mem_cons_self, rfl⟩
          · exact ⟨m, by simp [hm], rfl⟩
        · intro m hm k
          rcases List.mem_cons.1 hm with rfl | hm
          · simp only
            rw [testBit_or_shift _ _ _ (hfl x (by simp)) hst, Bool.or_eq_true, decide_eq_true_eq]
            constructor
            · rintro (h | h)
              · exact Or.inr ⟨x, by simp, rfl, h⟩
              · exact Or.inl ⟨heq, h⟩
            · rintro (⟨_, h⟩ | ⟨m', h1, h2, h3⟩)
              · exact Or.inr h
              · rcases List.mem_cons.1 h1 with rfl | h1
                · exact Or.inl h3
                · have := hx m' h1
                  rw [h2, bytesLt_irrefl] at this; simp at this
          · have hne := hx m hm
            constructor
            · intro h; exact Or.inr ⟨m, by simp [hm], rfl, h⟩
            · rintro (⟨h1, _⟩ | ⟨m', h1, h2, h3⟩)
              · rw [h1, heq, bytesLt_irrefl] at hne; simp at hne
              · rcases List.mem_cons.1 h1 with rfl | h1
                · rw [h2, bytesLt_irrefl] at hne; simp at hne
                · have : m' = m := by
                    have hp := hs'
                    unfold MixSorted at hp
                    rw [List.pairwise_iff_getElem] at hp
                    obtain ⟨i, hi, rfl⟩ := List.mem_iff_getElem.1 h1
                    obtain ⟨j, hj, rfl⟩ := List.mem_iff_getElem.1 hm
                    rcases Nat.lt_trichotomy i j with hij | hij | hij
                    · have := hp i j hi hj hij
                      rw [h2, bytesLt_irrefl] at this; simp at this
                    · subst hij; rfl
                    · have := hp j i hj hi hij
                      rw [h2, bytesLt_irrefl] at this; simp at this
                  rw [← this]; exact h3
      · rename_i hne
        have hlt : bytesLt s x.str = true := by
          rcases bytesLt_tri s x.str with h | h | h
          · exact h
          · rw [h] at hnlt; simp at hnlt
          · exact absurd h.symm hne
        refine ⟨?_, ?_, ⟨_, List.mem_cons_self, rfl⟩, ?_, ?_, by simp⟩
        · refine List.pairwise_cons.2 ⟨?_, hs⟩
          intro m hm
          rcases List.mem_cons.1 hm with rfl | hm
          · exact hlt
          · exact bytesLt_trans hlt (hx m hm)
        · intro m hm
          rcases List.mem_cons.1 hm with rfl | hm
          · exact Nat.mod_lt _ (by decide)
          · exact hfl m hm
        · intro m hm; exact ⟨m, by simp [hm], rfl⟩
        · intro m hm k
          have hgt : ∀ m ∈ x :: l, bytesLt s m.str = true := by
            intro m hm
            rcases List.mem_cons.1 hm with rfl | hm
            · exact hlt
            · exact bytesLt_trans hlt (hx m hm)
          rcases List.mem_cons.1 hm with rfl | hm
          · simp only
            rw [testBit_one_shift step k hst, decide_eq_true_eq]
            constructor
            · intro h; exact Or.inl ⟨by trivial, h⟩
            · rintro (⟨_, h⟩ | ⟨m', h1, h2, h3⟩)
              · exact h
              · have := hgt m' h1
                rw [h2, bytesLt_irrefl] at this; simp at this
          · constructor
            · intro h; exact Or.inr ⟨m, hm, rfl, h⟩
            · rintro (⟨h1, _⟩ | ⟨m', h1, h2, h3⟩)
              · have := hgt m hm
                rw [h1, bytesLt_irrefl] at this; simp at this
              · have : m' = m := by
                  have hp := hs
                  unfold MixSorted at hp
                  rw [List.pairwise_iff_getElem] at hp
                  obtain ⟨i, hi, rfl⟩ := List.mem_iff_getElem.1 h1
                  obtain ⟨j, hj, rfl⟩ := List.mem_iff_getElem.1 hm
                  rcases Nat.lt_trichotomy i j with hij | hij | hij
                  · have := hp i j hi hj hij
                    rw [h2, bytesLt_irrefl] at this; simp at this
                  · subst hij; rfl
                  · have := hp j i hj hi hij
                    rw [h2, bytesLt_irrefl] at this; simp at this
                rw [← this]; exact h3

/-- What the table of a list of steps holds. -/
theorem mixOf_inv (hist : List (List Byte × Nat)) (hl : ∀ p ∈ hist, p.2 < 4) :
    MixSorted (mixOf hist) ∧ (∀ m ∈ mixOf hist, m.flags < 16) ∧
    (∀ m ∈ mixOf hist, ∃ k, (m.str, k) ∈ hist) ∧ (∀ p ∈ hist, ∃ m ∈ mixOf hist, m.str = p.1) ∧
    (∀ m ∈ mixOf hist, ∀ k, m.flags.testBit k = true ↔ (m.str, k) ∈ hist) ∧
    (mixOf hist).length ≤ hist.length := by
  suffices H : ∀ (h : List (List Byte × Nat)) (l : List Mix) (h0 : List (List Byte × Nat)), (∀ p ∈ h, p.2 < 4) →
      MixSorted l → (∀ m ∈ l, m.flags < 256) → (∀ p ∈ h0, ∃ m ∈ l, m.str = p.1) → (∀ m ∈ l, ∃ k, (m.str, k) ∈ h0) →
      (∀ m ∈ l, ∀ k, m.flags.testBit k = true ↔ (m.str, k) ∈ h0) → l.length ≤ h0.length →
      let r := h.foldl (fun l p => addStep p.1 p.2 l) l
      MixSorted r ∧ (∀ m ∈ r, m.flags < 256) ∧ (∀ m ∈ r, ∃ k, (m.str, k) ∈ h0 ++ h) ∧ (∀ p ∈ h0 ++ h, ∃ m ∈ r, m.str = p.1) ∧
      (∀ m ∈ r, ∀ k, m.flags.testBit k = true ↔ (m.str, k) ∈ h0 ++ h) ∧ r.length ≤ (h0 ++ h).length by
    obtain ⟨a, b, c, d, e, f⟩ := H hist [] [] hl List.Pairwise.nil (by simp) (by simp) (by simp) (by simp) (by simp)
    simp only [List.nil_append] at c d e f
    refine ⟨a, ?_, c, d, e, f⟩
    intro m hm
    by_contra hge
    obtain ⟨k, hk1, hk2⟩ := Nat.exists_ge_and_testBit_of_ge_two_pow (n := 4) (x := m.flags) (by
      have : ¬ m.flags < 16 := hge
      omega)
    have := hl _ ((e m hm k).1 hk2)
    simp only at this
    omega
  intro h
  induction h with
  | nil =>
    intro l h0 _ a b c d e f
    simp only [List.foldl_nil, List.append_nil]
    exact ⟨a, b, d, c, e, f⟩
  | cons p h ih =>
    intro l h0 hl a b c d e f
    obtain ⟨s, step⟩ := p
    have hstep : step < 4 := hl (s, step) (by simp)
    obtain ⟨j1, j2, j3, j4, j5, j6⟩ := addStep_inv s step (by omega) l a b
    have := ih (addStep s step l) (h0 ++ [(s, step)]) (fun q hq => hl q (by simp [hq])) j1 j2
      (by
        intro q hq
        rcases List.mem_append.1 hq with hq | hq
        · obtain ⟨m, hm, hm2⟩ := c q hq
          obtain ⟨m', hm', hm3⟩ := j4 m hm
          exact ⟨m', hm', by rw [hm3, hm2]⟩
        · simp only [List.mem_singleton] at hq
          subst hq
          exact j3)
      (by
        intro m hm
        rcases mem_addStep s step l m hm with h | h
        · exact ⟨step, by simp [h]⟩
        · obtain ⟨k, hk⟩ := d m h
          exact ⟨k, by simp [hk]⟩)
      (by
        intro m hm k
        rw [j5 m hm k]
        simp only [List.mem_append, List.mem_singleton, Prod.mk.injEq]
        constructor
        · rintro (h | ⟨m', h1, h2, h3⟩)
          · exact Or.inr h
          · left
            rw [← h2]
            exact (e m' h1 k).1 h3
        · rintro (h | h)
          · right
            obtain ⟨m', h1, h2⟩ := c _ h
            refine ⟨m', h1, h2, (e m' h1 k).2 ?_⟩
            rw [h2]; exact h
          · exact Or.inl h)
      (by simp only [List.length_append, List.length_cons, List.length_nil]; omega)
    simpa [List.append_assoc] using this

/-! ### Powers -/

theorem foldl_or_testBit (l : List Mix) (u i : Nat) :
    (l.foldl (fun u m => u ||| (m.flags <<< 4)) u).testBit i = true ↔
      u.testBit i = true ∨ ∃ m ∈ l, (m.flags <<< 4).testBit i = true := by
  induction l generalizing u with
  | nil => simp
  | cons m l ih =>
    simp only [List.foldl_cons]
    rw [ih, Nat.testBit_or, Bool.or_eq_true]
    constructor
    · rintro ((h | h) | ⟨m', h1, h2⟩)
      · exact Or.inl h
      · exact Or.inr ⟨m, by simp, h⟩
      · exact Or.inr ⟨m', by simp [h1], h2⟩
    · rintro (h | ⟨m', h1, h2⟩)
      · exact Or.inl (Or.inl h)
      · rcases List.mem_cons.1 h1 with rfl | h1
        · exact Or.inl (Or.inr h2)
        · exact Or.inr ⟨m', h1, h2⟩

theorem testBit_70 (i : Nat) : (0x70 : Nat).testBit i = decide (4 ≤ i ∧ i < 7) := by
  by_cases h : i < 8
  · revert i; decide
  · rw [Nat.testBit_lt_two_pow]
    · simp; omega
    · calc (0x70 : Nat) < 2 ^ 8 := by decide
        _ ≤ 2 ^ i := Nat.pow_le_pow_right (by decide) (by omega)

/-- The spare powers are those of levels 0 to 2 nobody has. -/
theorem spareBits_testBit (l : List Mix) (k : Nat) :
    (spareBits l).testBit (k + 4) = true ↔ k < 3 ∧ ∀ m ∈ l, m.flags.testBit k = false := by
  simp only [spareBits, Nat.testBit_and, Nat.testBit_xor, testBit_70, Bool.and_eq_true, decide_eq_true_eq]
  have hf := foldl_or_testBit l 0 (k + 4)
  simp only [Nat.zero_testBit, Bool.false_eq_true, false_or, Nat.testBit_shiftLeft] at hf
  simp only [show k + 4 ≥ 4 by omega, decide_true, Bool.true_and, Nat.add_sub_cancel] at hf
  constructor
  · rintro ⟨h1, _, h3⟩
    refine ⟨by omega, fun m hm => ?_⟩
    have h4 : (l.foldl (fun u m => u ||| (m.flags <<< 4)) 0).testBit (k + 4) = false := by
      have h5 : decide (4 ≤ k + 4 ∧ k + 4 < 7) = true := by simp; omega
      rw [h5] at h1
      simpa using h1
    cases hb : m.flags.testBit k with
    | false => rfl
    | true =>
      rw [hf.2 ⟨m, hm, hb⟩] at h4
      simp at h4
  · rintro ⟨h1, h2⟩
    have h4 : (l.foldl (fun u m => u ||| (m.flags <<< 4)) 0).testBit (k + 4) = false := by
      cases hb : (l.foldl (fun u m => u ||| (m.flags <<< 4)) 0).testBit (k + 4) with
      | false => rfl
      | true =>
        obtain ⟨m, hm, hm2⟩ := hf.1 hb
        rw [h2 m hm] at hm2
        simp at hm2
    rw [h4]
    refine ⟨by simp; omega, by omega, by omega⟩

theorem spareBits_lt (l : List Mix) : spareBits l < 128 := by
  unfold spareBits
  exact Nat.lt_of_le_of_lt Nat.and_le_right (by decide)

theorem spareBits_low (l : List Mix) (i : Nat) (h : i < 4) : (spareBits l).testBit i = false := by
  simp only [spareBits, Nat.testBit_and, testBit_70]
  simp; omega

/-- The first byte of an alternant: its length and its powers. -/
theorem mixHead_spec (l : List Mix) (m : Mix) (hl : m.str.length < 16) (hf : m.flags < 16) :
    mixHead (spareBits l) m < 256 ∧ (mixHead (spareBits l) m) &&& 0x0f = m.str.length ∧
    ∀ k, ((mixHead (spareBits l) m) >>> 4).testBit k = true ↔
      m.flags.testBit k = true ∨ (m.flags.testBit 0 = true ∧ k < 3 ∧ ∀ m' ∈ l, m'.flags.testBit k = false) := by
  have hb : (m.str.length ||| (m.flags <<< 4)) % 256 = m.str.length ||| (m.flags <<< 4) := by
    apply Nat.mod_eq_of_lt
    apply Nat.or_lt_two_pow (n := 8)
    · omega
    · rw [Nat.shiftLeft_eq]; omega
  have hcond : ((m.str.length ||| (m.flags <<< 4)) &&& 0x10 ≠ 0) ↔ m.flags.testBit 0 = true := by
    have h1 : (m.str.length ||| (m.flags <<< 4)) &&& 0x10 = if (m.str.length ||| (m.flags <<< 4)).testBit 4 then 0x10 else 0 :=
      and_two_pow_if _ 4
    have h2 : (m.str.length ||| (m.flags <<< 4)).testBit 4 = m.flags.testBit 0 := by
      rw [Nat.testBit_or, Nat.testBit_lt_two_pow (by omega), Nat.testBit_shiftLeft]
      simp
    rw [h1, h2]
    cases m.flags.testBit 0 <;> simp
  have hbit : ∀ i, (mixHead (spareBits l) m).testBit i = true ↔
      (m.str.length ||| (m.flags <<< 4)).testBit i = true ∨ (m.flags.testBit 0 = true ∧ (spareBits l).testBit i = true) := by
    intro i
    simp only [mixHead, hb]
    by_cases h0 : spareBits l = 0
    · simp [h0]
    · by_cases hc : m.flags.testBit 0 = true
      · rw [if_pos (by simp [h0, hcond.2 hc]), Nat.testBit_or, Bool.or_eq_true]
        simp [hc]
      · rw [if_neg]
        · simp [hc]
        · simp only [ne_eq, h0, not_false_eq_true, decide_true, Bool.true_and, decide_eq_true_eq, hcond]
          exact hc
  refine ⟨?_, ?_, ?_⟩
  · simp only [mixHead, hb]
    have h1 : m.str.length ||| (m.flags <<< 4) < 2 ^ 8 := by
      apply Nat.or_lt_two_pow
      · omega
      · rw [Nat.shiftLeft_eq]; omega
    split
    · exact Nat.or_lt_two_pow (n := 8) h1 (by have := spareBits_lt l; omega)
    · exact h1
  · apply Nat.eq_of_testBit_eq
    intro i
    rw [Nat.testBit_and]
    have h0f : (0x0f : Nat).testBit i = decide (i < 4) := by
      have := Nat.testBit_two_pow_sub_one 4 i
      simpa using this
    rw [h0f]
    by_cases hi : i < 4
    · simp only [hi, decide_true, Bool.and_true]
      rw [Bool.eq_iff_iff, hbit, spareBits_low l i hi, Nat.testBit_or, Nat.testBit_shiftLeft]
      simp; omega
    · simp only [hi, decide_false, Bool.and_false]
      rw [Nat.testBit_lt_two_pow]
      calc m.str.length < 2 ^ 4 := by omega
        _ ≤ 2 ^ i := Nat.pow_le_pow_right (by decide) (by omega)
  · intro k
    rw [Nat.testBit_shiftRight, Nat.add_comm, hbit, Nat.testBit_or, Nat.testBit_shiftLeft, spareBits_testBit]
    rw [show m.str.length.testBit (k + 4) = false from by
      rw [Nat.testBit_lt_two_pow]
      calc m.str.length < 2 ^ 4 := by omega
        _ ≤ 2 ^ (k + 4) := Nat.pow_le_pow_right (by decide) (by omega)]
    simp

/-! ### The loop over the alternants -/

variable {σ ρ : Type}

theorem bytesLt_prefix {a b c : List Byte} (h1 : bytesLt a b = true) (h2 : b <+: c) : bytesLt a c = true := by
  induction a generalizing b c with
  | nil =>
    cases b with
    | nil => simp [bytesLt] at h1
    | cons y b =>
      cases c with
      | nil => simp at h2
      | cons z c => simp [bytesLt]
  | cons x a ih =>
    cases b with
    | nil => simp [bytesLt] at h1
    | cons y b =>
      cases c with
      | nil => simp at h2
      | cons z c =>
        obtain ⟨rfl, h2'⟩ := List.cons_prefix_cons.1 h2
        simp only [bytesLt] at h1 ⊢
        split at h1
        · rw [if_pos ‹_›]
        · rw [if_neg ‹_›]
          split at h1
          · simp at h1
          · rw [if_neg ‹_›]; exact ih h1 h2'

theorem mixCompare_spec (s tl w junk : List Byte) :
    ∃ o, mixCompare (s ++ tl) s.length ⟨w ++ junk, w.length⟩ = some o ∧
      (o = .take ↔ s <+: w) ∧ (o = .stop → bytesLt w s = true) ∧ (o = .skip → bytesLt s w = true) := by
  obtain ⟨o, h1, h2, h3, h4⟩ := memcmp_spec (min s.length w.length) (s ++ tl) (w ++ junk)
    (by rw [List.length_append]; omega) (by rw [List.length_append]; omega)
  have e1 : (s ++ tl).take (min s.length w.length) = s.take (min s.length w.length) :=
    List.take_append_of_le_length (Nat.min_le_left _ _)
  have e2 : (w ++ junk).take (min s.length w.length) = w.take (min s.length w.length) :=
    List.take_append_of_le_length (Nat.min_le_right _ _)
  rw [e1, e2] at h2 h3 h4
  simp only [mixCompare, bind, Option.bind, h1, pure]
  cases o with
  | lt =>
    have h := h4.1 rfl
    refine ⟨.skip, rfl, ?_, by simp, fun _ => bytesLt_take _ _ _ (Nat.min_le_left _ _) (Nat.min_le_right _ _) h⟩
    constructor
    · intro h; simp at h
    · intro hp
      have hle := hp.length_le
      rw [Nat.min_eq_left hle] at h
      rw [List.take_length, ← List.prefix_iff_eq_take.1 hp, bytesLt_irrefl] at h
      simp at h
  | gt =>
    have h := h3.1 rfl
    refine ⟨.stop, rfl, ?_, fun _ => bytesLt_take _ _ _ (Nat.min_le_right _ _) (Nat.min_le_left _ _) h, by simp⟩
    constructor
    · intro h; simp at h
    · intro hp
      have hle := hp.length_le
      rw [Nat.min_eq_left hle] at h
      rw [List.take_length, ← List.prefix_iff_eq_take.1 hp, bytesLt_irrefl] at h
      simp at h
  | eq =>
    have h := h2.1 rfl
    by_cases hlen : s.length ≤ w.length
    · rw [Nat.min_eq_left hlen] at h ⊢
      refine ⟨.take, by simp, ?_, by simp, by simp⟩
      rw [List.take_length] at h
      simp only [true_iff]
      exact List.prefix_iff_eq_take.2 h
    · rw [Nat.min_eq_right (by omega)] at h ⊢
      refine ⟨.stop, by simp; omega, ?_, ?_, by simp⟩
      · constructor
        · intro h; simp at h
        · intro hp; exact absurd hp.length_le hlen
      · intro _
        rw [List.take_length] at h
        have hne : w ≠ s := by intro e; rw [e] at hlen; omega
        have : w <+: s := List.prefix_iff_eq_take.2 h.symm
        obtain ⟨t, rfl⟩ := this
        cases t with
        | nil => simp at hne
        | cons y t =>
          clear * -
          induction w with
          | nil => simp [bytesLt]
          | cons x w ih => simp [bytesLt, ih]

theorem mixLoop_ser (call : Nat → Frag → σ → Option (Option ρ × σ)) (w junk : List Byte) (head : Mix → Nat)
    (l : List Mix) (hh : ∀ m ∈ l, head m &&& 0x0f = m.str.length) (hs : MixSorted l) (tl : List Byte) :
    ∀ s : σ, mixLoop call ⟨w ++ junk, w.length⟩ l.length ((l.map fun m => head m :: m.str).flatten ++ tl) s
      = runHits (fun p r => call p ⟨r ++ junk, r.length⟩)
          ((l.filter fun m => m.str.isPrefixOf w).map fun m => (head m >>> 4, w.drop m.str.length)) s := by
  induction l with
  | nil => intro s; rfl
  | cons m l ih =>
    intro s
    obtain ⟨hm, hs'⟩ := List.pairwise_cons.1 hs
    have ih := ih (fun m hm => hh m (by simp [hm])) hs'
    simp only [List.length_cons, List.map_cons, List.flatten_cons, List.cons_append, List.append_assoc, mixLoop, getbyte,
      bind, Option.bind, hh m (by simp)]
    obtain ⟨o, h1, h2, h3, h4⟩ := mixCompare_spec m.str ((l.map fun m => head m :: m.str).flatten ++ tl) w junk
    rw [h1]
    have hdrop : (m.str ++ ((l.map fun m => head m :: m.str).flatten ++ tl)).drop m.str.length
        = (l.map fun m => head m :: m.str).flatten ++ tl := by simp
    cases o with
    | take =>
      have hp := h2.1 rfl
      have hle := hp.length_le
      simp only [hdrop]
      rw [show (m :: l).filter (fun m => m.str.isPrefixOf w) = m :: l.filter (fun m => m.str.isPrefixOf w) by
        simp [List.isPrefixOf_iff_prefix.2 hp]]
      simp only [List.map_cons, runHits]
      rw [List.drop_append_of_le_length hle, List.length_drop]
      cases call (head m >>> 4) ⟨w.drop m.str.length ++ junk, w.length - m.str.length⟩ s with
      | none => rfl
      | some r =>
        obtain ⟨r, s'⟩ := r
        cases r with
        | some r => rfl
        | none => exact ih s'
    | skip =>
      have hp : ¬ m.str <+: w := by intro h; have := h2.2 h; simp at this
      simp only [hdrop]
      rw [show (m :: l).filter (fun m => m.str.isPrefixOf w) = l.filter (fun m => m.str.isPrefixOf w) by
        rw [List.filter_cons_of_neg]
        simpa [List.isPrefixOf_iff_prefix] using hp]
      exact ih s
    | stop =>
      have hlt := h3 rfl
      have : (m :: l).filter (fun m => m.str.isPrefixOf w) = [] := by
        rw [List.filter_eq_nil_iff]
        intro x hx hp
        have hp : x.str <+: w := List.isPrefixOf_iff_prefix.1 hp
        rcases List.mem_cons.1 hx with rfl | hx
        · have := h2.2 hp; simp at this
        · have h5 : bytesLt w x.str = true := bytesLt_trans hlt (hm x hx)
          have := bytesLt_prefix h5 hp
          rw [bytesLt_irrefl] at this; simp at this
      rw [this]
      rfl

end Libmorph
