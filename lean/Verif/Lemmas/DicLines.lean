import Verif.Lemmas.DicDump
import Verif.Lemmas.Dump
import Mathlib.Data.List.Basic
/-
The lines of the control dump, for C79.
-/
namespace Libmorph
open Spec

/-! ### The forms of a lexeme -/

theorem keepFirst_all (k : Nat) : ∀ (l : List (List Byte)) (m : List (Nat × List Byte)), k ∈ m.map Prod.fst → l.foldl (fun m s => keepFirst m k s) m = m
  | [], m, _ => rfl
  | s :: l, m, h => by
    rw [List.foldl_cons, keepFirst, if_pos h, keepFirst_all k l m h]

theorem keepFirst_list (k : Nat) (l : List (List Byte)) (m : List (Nat × List Byte)) (h : k ∉ m.map Prod.fst) :
    l.foldl (fun m s => keepFirst m k s) m = m ++ (l.head?.map fun s => (k, s)).toList := by
  cases l with
  | nil => simp
  | cons s l =>
    rw [List.foldl_cons, keepFirst, if_neg h, keepFirst_all]
    · simp
    · simp

theorem formMap_from {forms : Nat → Option (List (List Byte))} {F : Nat → List (List Byte)} : ∀ (n a : Nat) (m : List (Nat × List Byte)),
    (∀ f, a ≤ f → f < a + n → forms f = some (F f)) → (∀ k ∈ m.map Prod.fst, k < a) →
    (List.range' a n).foldlM (fun m f => do return (← forms f).foldl (fun m s => keepFirst m f s) m) m
      = some (m ++ (List.range' a n).filterMap fun f => (F f).head?.map fun s => (f, s))
  | 0, a, m, _, _ => by simp
  | n + 1, a, m, h, hm => by
    rw [List.range'_succ, List.foldlM_cons, h a (by omega) (by omega)]
    show (List.range' (a + 1) n).foldlM (fun m f => do return (← forms f).foldl (fun m s => keepFirst m f s) m) ((F a).foldl (fun m s => keepFirst m a s) m) = _
    rw [keepFirst_list a (F a) m (fun k => Nat.lt_irrefl _ (hm a k))]
    rw [formMap_from n (a + 1) _ (fun f h1 h2 => h f (by omega) (by omega))]
    · rw [List.filterMap_cons, List.append_assoc]
      cases (F a).head? with
      | none => simp
      | some s => simp
    · intro k hk
      rw [List.map_append, List.mem_append] at hk
      rcases hk with hk | hk
      · have := hm k hk; omega
      · cases hh : (F a).head? with
        | none => rw [hh] at hk; simp at hk
        | some s => rw [hh] at hk; simp at hk; omega

theorem formMap_eq {forms : Nat → Option (List (List Byte))} {F : Nat → List (List Byte)} (h : ∀ f < 256, forms f = some (F f)) :
    formMap forms = some (firstForms F) := by
  rw [formMap, List.range_eq_range', formMap_from 0x100 0 [] (fun f _ h2 => h f (by omega)) (by simp), firstForms, List.range_eq_range']
  simp

/-! ### The common beginning -/

theorem shrinkStem_eq (base s : List Byte) : ∀ n, n ≤ base.length → shrinkStem base s n ≤ n ∧ base.take (shrinkStem base s n) <+: s ∧
    ∀ k, k ≤ n → base.take k <+: s → k ≤ shrinkStem base s n
  | 0, _ => by simp [shrinkStem]
  | n + 1, h => by
    rw [shrinkStem]
    by_cases he : base.take (n + 1) = s.take (n + 1)
    · rw [if_pos he]
      refine ⟨Nat.le_refl _, ?_, fun k hk _ => hk⟩
      rw [he]; exact List.take_prefix _ _
    · rw [if_neg he]
      obtain ⟨h1, h2, h3⟩ := shrinkStem_eq base s n (by omega)
      refine ⟨by omega, h2, fun k hk hp => ?_⟩
      rcases Nat.lt_or_ge n k with hlt | hge
      · exfalso
        have : k = n + 1 := by omega
        subst this
        apply he
        obtain ⟨t, ht⟩ := hp
        rw [← ht, List.take_append_of_le_length (by rw [List.length_take]; omega), List.take_take]
        simp
      · exact h3 k hge hp

theorem shrink_all (base : List Byte) : ∀ (m : List (Nat × List Byte)) (n : Nat), n ≤ base.length →
    m.foldl (fun n p => shrinkStem base p.2 n) n ≤ n ∧ (∀ q ∈ m, base.take (m.foldl (fun n p => shrinkStem base p.2 n) n) <+: q.2) ∧
      ∀ k, k ≤ n → (∀ q ∈ m, base.take k <+: q.2) → k ≤ m.foldl (fun n p => shrinkStem base p.2 n) n
  | [], n, _ => by simp
  | p :: m, n, h => by
    rw [List.foldl_cons]
    obtain ⟨a1, a2, a3⟩ := shrinkStem_eq base p.2 n h
    obtain ⟨b1, b2, b3⟩ := shrink_all base m (shrinkStem base p.2 n) (by omega)
    refine ⟨by omega, ?_, ?_⟩
    · intro q hq
      rcases List.mem_cons.1 hq with rfl | hq
      · exact (List.take_prefix_take_left b1).trans a2
      · exact b2 q hq
    · intro k hk hall
      exact b3 k (a3 k hk (hall p (by simp))) fun q hq => hall q (by simp [hq])

theorem cutMap_spec (m : List (Nat × List Byte)) : CutForms m (cutMap m) := by
  cases m with
  | nil => exact Or.inl ⟨rfl, rfl⟩
  | cons p m =>
    obtain ⟨k, s⟩ := p
    obtain ⟨h1, h2, h3⟩ := shrink_all s m s.length (Nat.le_refl _)
    refine Or.inr ⟨(k, s), m, _, rfl, ⟨s.take (m.foldl (fun n p => shrinkStem s p.2 n) s.length), by rw [List.length_take]; omega, ?_⟩, ?_, rfl⟩
    · intro q hq
      rcases List.mem_cons.1 hq with rfl | hq
      · exact List.take_prefix _ _
      · exact h2 q hq
    · rintro n ⟨p, hp, hall⟩
      have h0 := hall (k, s) (by simp)
      have hn : n ≤ s.length := by rw [← hp]; exact h0.length_le
      have hps : p = s.take n := by
        rw [← hp]; exact List.prefix_iff_eq_take.1 h0
      refine h3 n hn fun q hq => ?_
      rw [← hps]; exact hall q (by simp [hq])

/-! ### The lines -/

/-- The line of a lexeme. -/
def dumpedLine (F : Nat → Nat → List (List Byte)) (id : Nat) : Option DumpLine :=
  if firstForms (F id) = [] then none else lexLine id (cutMap (firstForms (F id)))

/-- What the analyser answers: the forms `F`; GetWdInfo is 0 only for lexemes without forms; no form is longer than 251 letters. -/
structure DumpOk (A : DumpApi) (F : Nat → Nat → List (List Byte)) : Prop where
  forms : ∀ id < dumpLimit, ∀ f < 256, A.forms id f = some (F id f)
  unknown : ∀ id < dumpLimit, ∃ b, A.unknown id = some b ∧ (b = true → ∀ f < 256, F id f = [])
  short : ∀ id < dumpLimit, ∀ f < 256, ∀ s ∈ F id f, s.length ≤ 251

theorem hexText_length {w v : Nat} (h : v < 16 ^ w) (hw : w ≤ 8) : (hexText w v).length = w := by
  have : ∀ (n v : Nat) (k : Nat), v < 16 ^ k → k ≤ n → (hexRev n v).length ≤ k := by
    intro n
    induction n with
    | zero => intro v k _ hk; simp [hexRev]
    | succ n ih =>
      intro v k hv hk
      rw [hexRev]
      split
      · simp
      · rename_i h0
        cases k with
        | zero => simp at hv; exact absurd hv h0
        | succ k =>
          have := ih (v / 16) k (by rw [Nat.div_lt_iff_lt_mul (by omega)]; rw [pow_succ] at hv; exact hv) (by omega)
          simp; omega
  have h8 := this 8 v w h hw
  rw [hexText]
  simp
  omega

theorem lexItems_some : ∀ (m : List (Nat × List Byte)) (div : List Byte), div.length ≤ 1 → (∀ p ∈ m, p.1 < 256 ∧ p.2.length ≤ 251) → ∃ t, lexItems div m = some t
  | [], div, _, _ => ⟨[], rfl⟩
  | (k, s) :: m, div, hd, h => by
    obtain ⟨t, ht⟩ := lexItems_some m (cText "/") (by decide) fun p hp => h p (by simp [hp])
    obtain ⟨h1, h2⟩ := h (k, s) (by simp)
    have hl : (hexText 2 k).length = 2 := hexText_length h1 (by omega)
    have hb : (cText "|").length = 1 := by decide
    simp only at h1 h2
    rw [lexItems, ht]
    simp only [List.length_append, hl, hb]
    rw [if_pos (by omega)]
    exact ⟨_, rfl⟩

theorem firstForms_mem {F : Nat → List (List Byte)} {p : Nat × List Byte} (h : p ∈ firstForms F) : p.1 < 256 ∧ p.2 ∈ F p.1 := by
  rw [firstForms, List.mem_filterMap] at h
  obtain ⟨f, hf, e⟩ := h
  cases hh : (F f).head? with
  | none => rw [hh] at e; simp at e
  | some s =>
    rw [hh] at e; simp at e
    subst e
    exact ⟨by simpa using hf, List.mem_of_mem_head? hh⟩

theorem cutMap_mem {m : List (Nat × List Byte)} {p : Nat × List Byte} (h : p ∈ cutMap m) : ∃ q ∈ m, p.1 = q.1 ∧ p.2 <:+ q.2 := by
  rcases cutMap_spec m with ⟨_, e⟩ | ⟨x, r, n, e1, _, _, e2⟩
  · rw [e] at h; simp at h
  · rw [e2] at h
    rcases List.mem_cons.1 h with rfl | h
    · exact ⟨p, by rw [e1]; simp, rfl, List.suffix_rfl⟩
    · obtain ⟨q, hq, rfl⟩ := List.mem_map.1 h
      exact ⟨q, by rw [e1]; simp [hq], rfl, List.drop_suffix _ _⟩

theorem cutMap_nil {m : List (Nat × List Byte)} : cutMap m = [] ↔ m = [] := by
  cases m with
  | nil => simp [cutMap]
  | cons p m => obtain ⟨k, s⟩ := p; simp [cutMap]

theorem lexLine_some {A : DumpApi} {F : Nat → Nat → List (List Byte)} (h : DumpOk A F) {id : Nat} (hid : id < dumpLimit) :
    ∃ t, lexLine id (cutMap (firstForms (F id))) = some t ∧ t ≠ [] := by
  obtain ⟨t, ht⟩ := lexItems_some (cutMap (firstForms (F id))) [] (by simp) fun p hp => by
    obtain ⟨q, hq, e1, e2⟩ := cutMap_mem hp
    obtain ⟨k1, k2⟩ := firstForms_mem hq
    have := e2.length_le
    have := h.short id hid _ k1 _ k2
    exact ⟨by omega, by omega⟩
  exact ⟨_, by rw [lexLine, ht]; rfl, by simp⟩

theorem firstForms_nil {F : Nat → List (List Byte)} (h : ∀ f < 256, F f = []) : firstForms F = [] := by
  rw [firstForms, List.filterMap_eq_nil_iff]
  intro f hf
  rw [h f (by simpa using hf)]
  rfl

theorem dumpNext_eq {A : DumpApi} {F : Nat → Nat → List (List Byte)} (h : DumpOk A F) : ∀ (n id : Nat) (skip : Bool), id + n = dumpLimit →
    ((∀ k ∈ List.range' id n, dumpedLine F k = none) ∧ dumpNext A n id skip = some ([], dumpLimit)) ∨
    ∃ a k b s, List.range' id n = a ++ k :: b ∧ b = List.range' (k + 1) (dumpLimit - (k + 1)) ∧ (∀ j ∈ a, dumpedLine F j = none) ∧ dumpedLine F k = some s ∧ s ≠ [] ∧
      k < dumpLimit ∧ dumpNext A n id skip = some (s, k + 1)
  | 0, id, skip, hn => by
    refine Or.inl ⟨by simp, ?_⟩
    rw [dumpNext, ← hn]; rfl
  | n + 1, id, skip, hn => by
    have hid : id < dumpLimit := by omega
    have hrec : ∀ skip', dumpedLine F id = none → dumpNext A (n + 1) id skip = dumpNext A n (id + 1) skip' →
        ((∀ k ∈ List.range' id (n + 1), dumpedLine F k = none) ∧ dumpNext A (n + 1) id skip = some ([], dumpLimit)) ∨
        ∃ a k b s, List.range' id (n + 1) = a ++ k :: b ∧ b = List.range' (k + 1) (dumpLimit - (k + 1)) ∧ (∀ j ∈ a, dumpedLine F j = none) ∧
          dumpedLine F k = some s ∧ s ≠ [] ∧ k < dumpLimit ∧ dumpNext A (n + 1) id skip = some (s, k + 1) := by
      intro skip' h0 he
      rw [he]
      rcases dumpNext_eq h n (id + 1) skip' (by omega) with ⟨h1, h2⟩ | ⟨a, k, b, s, h1, h2, h3, h4, h5, h6, h7⟩
      · refine Or.inl ⟨?_, h2⟩
        intro k hk
        rw [List.range'_succ] at hk
        rcases List.mem_cons.1 hk with rfl | hk
        · exact h0
        · exact h1 k hk
      · refine Or.inr ⟨id :: a, k, b, s, by rw [List.range'_succ, h1]; rfl, h2, ?_, h4, h5, h6, h7⟩
        intro j hj
        rcases List.mem_cons.1 hj with rfl | hj
        · exact h0
        · exact h3 j hj
    have hm := formMap_eq (forms := A.forms id) (F := F id) fun f hf => h.forms id hid f hf
    have body : (skip = true → A.unknown id = some false) →
        ((∀ k ∈ List.range' id (n + 1), dumpedLine F k = none) ∧ dumpNext A (n + 1) id skip = some ([], dumpLimit)) ∨
        ∃ a k b s, List.range' id (n + 1) = a ++ k :: b ∧ b = List.range' (k + 1) (dumpLimit - (k + 1)) ∧ (∀ j ∈ a, dumpedLine F j = none) ∧
          dumpedLine F k = some s ∧ s ≠ [] ∧ k < dumpLimit ∧ dumpNext A (n + 1) id skip = some (s, k + 1) := by
      intro hsk
      have hfalse : (if skip = true then A.unknown id else some false) = some false := by
        split
        · rename_i hs; exact hsk hs
        · rfl
      by_cases h0 : firstForms (F id) = []
      · refine hrec true (by rw [dumpedLine, if_pos h0]) ?_
        rw [dumpNext, hfalse, hm, h0]
        simp [cutMap]
      · obtain ⟨t, ht, htn⟩ := lexLine_some h hid
        refine Or.inr ⟨[], id, List.range' (id + 1) n, t, by rw [List.range'_succ]; rfl, by congr 1; omega, by simp, by rw [dumpedLine, if_neg h0, ht], htn, hid, ?_⟩
        rw [dumpNext, hfalse, hm]
        simp only [Option.bind_eq_bind, Option.bind_some, Bool.false_eq_true, if_false]
        obtain ⟨p, m, e⟩ := List.exists_cons_of_ne_nil (l := cutMap (firstForms (F id))) (fun k => h0 (cutMap_nil.1 k))
        rw [e] at ht ⊢
        simp only [ht]
        rfl
    obtain ⟨b, hb, hb'⟩ := h.unknown id hid
    cases skip with
    | false => exact body (by simp)
    | true =>
      cases b with
      | false => exact body fun _ => hb
      | true =>
        refine hrec true (by rw [dumpedLine, if_pos (firstForms_nil (hb' rfl))]) ?_
        rw [dumpNext]
        simp [hb]

theorem filterMap_none {α β : Type} {f : α → Option β} {l : List α} (h : ∀ x ∈ l, f x = none) : l.filterMap f = [] := List.filterMap_eq_nil_iff.2 h

theorem dumpLinesFrom_eq {A : DumpApi} {F : Nat → Nat → List (List Byte)} (h : DumpOk A F) : ∀ (k id : Nat), id ≤ dumpLimit → dumpLimit - id < k →
    dumpLinesFrom A k id = some ((List.range' id (dumpLimit - id)).filterMap (dumpedLine F))
  | 0, id, _, hk => by omega
  | k + 1, id, hid, hk => by
    rw [dumpLinesFrom]
    rcases dumpNext_eq h (dumpLimit - id) id false (by omega) with ⟨h1, h2⟩ | ⟨a, j, b, s, h1, h2, h3, h4, h5, h6, h7⟩
    · rw [h2, filterMap_none h1]; rfl
    · have hj : id ≤ j := by
        have : j ∈ List.range' id (dumpLimit - id) := by rw [h1]; simp
        rw [List.mem_range'_1] at this; exact this.1
      rw [h7, h1, List.filterMap_append, filterMap_none h3, List.filterMap_cons, h4, h2]
      simp only [Option.bind_eq_bind, Option.bind_some, if_neg h5]
      rw [dumpLinesFrom_eq h k (j + 1) (by omega) (by omega)]
      rfl

end Libmorph
