import Verif.Props.C56
import Verif.Props.C35
import Verif.Lemmas.EngForms
/-
C63: the compiled ending tables depend on the tables as sets of lines only.
-/
namespace Libmorph
open Spec

/-! ### The order of the lines -/

theorem FxItem.less_iff (a b : FxItem) : a.less b = true ↔
    bytesLt a.tail b.tail = true ∨ (a.tail = b.tail ∧ (a.gr < b.gr ∨ (a.gr = b.gr ∧ (a.flags < b.flags ∨ (a.flags = b.flags ∧ bytesLt a.next b.next = true))))) := by
  rw [FxItem.less]
  by_cases h1 : a.tail = b.tail
  · by_cases h2 : a.gr = b.gr
    · by_cases h3 : a.flags = b.flags
      · simp [h1, h2, h3, bytesLt_irrefl]
      · simp [h1, h2, h3, bytesLt_irrefl]
    · simp [h1, h2, bytesLt_irrefl]
  · simp [h1]

theorem FxItem.less_irrefl (a : FxItem) : a.less a = false := by
  rw [Bool.eq_false_iff, Ne, FxItem.less_iff]
  simp [bytesLt_irrefl]

theorem FxItem.less_trans {a b c : FxItem} (h1 : a.less b = true) (h2 : b.less c = true) : a.less c = true := by
  rw [FxItem.less_iff] at *
  rcases h1 with h1 | ⟨e1, h1⟩ <;> rcases h2 with h2 | ⟨e2, h2⟩
  · exact Or.inl (bytesLt_trans h1 h2)
  · rw [← e2]; exact Or.inl h1
  · rw [e1]; exact Or.inl h2
  · refine Or.inr ⟨e1.trans e2, ?_⟩
    rcases h1 with h1 | ⟨f1, h1⟩ <;> rcases h2 with h2 | ⟨f2, h2⟩
    · left; omega
    · left; omega
    · left; omega
    · refine Or.inr ⟨f1.trans f2, ?_⟩
      rcases h1 with h1 | ⟨g1, h1⟩ <;> rcases h2 with h2 | ⟨g2, h2⟩
      · left; omega
      · left; omega
      · left; omega
      · exact Or.inr ⟨g1.trans g2, bytesLt_trans h1 h2⟩

theorem FxItem.less_tri (a b : FxItem) : a.less b = true ∨ b.less a = true ∨ a = b := by
  rw [FxItem.less_iff, FxItem.less_iff]
  rcases bytesLt_tri a.tail b.tail with h | h | h
  · exact Or.inl (Or.inl h)
  · exact Or.inr (Or.inl (Or.inl h))
  rcases Nat.lt_trichotomy a.gr b.gr with h2 | h2 | h2
  · exact Or.inl (Or.inr ⟨h, Or.inl h2⟩)
  · rcases Nat.lt_trichotomy a.flags b.flags with h3 | h3 | h3
    · exact Or.inl (Or.inr ⟨h, Or.inr ⟨h2, Or.inl h3⟩⟩)
    · rcases bytesLt_tri a.next b.next with h4 | h4 | h4
      · exact Or.inl (Or.inr ⟨h, Or.inr ⟨h2, Or.inr ⟨h3, h4⟩⟩⟩)
      · exact Or.inr (Or.inl (Or.inr ⟨h.symm, Or.inr ⟨h2.symm, Or.inr ⟨h3.symm, h4⟩⟩⟩))
      · right; right
        cases a; cases b; simp only [FxItem.mk.injEq] at *; exact ⟨h, h2, h3, h4⟩
    · exact Or.inr (Or.inl (Or.inr ⟨h.symm, Or.inr ⟨h2.symm, Or.inl h3⟩⟩))
  · exact Or.inr (Or.inl (Or.inr ⟨h.symm, Or.inl h2⟩))

theorem ftInsert_sorted (x : FxItem) : ∀ l : List FxItem, l.Pairwise (fun a b => a.less b = true) → (ftInsert x l).Pairwise (fun a b => a.less b = true)
  | [], _ => by simp [ftInsert]
  | y :: l, h => by
    rw [List.pairwise_cons] at h
    rw [ftInsert]
    split
    · rename_i hy
      refine List.pairwise_cons.2 ⟨fun z hz => ?_, ftInsert_sorted x l h.2⟩
      rcases (mem_ftInsert x z l).1 hz with rfl | hz
      · exact hy
      · exact h.1 z hz
    · rename_i hy
      split
      · exact List.pairwise_cons.2 h
      · rename_i hne
        have hx : x.less y = true := by
          rcases FxItem.less_tri x y with h' | h' | h'
          · exact h'
          · exact (hy h').elim
          · exact (hne h'.symm).elim
        refine List.pairwise_cons.2 ⟨fun z hz => ?_, List.pairwise_cons.2 h⟩
        rcases List.mem_cons.1 hz with rfl | hz
        · exact hx
        · exact FxItem.less_trans hx (h.1 z hz)

theorem ftFold_sorted : ∀ (lines t : List FxItem), t.Pairwise (fun a b => a.less b = true) →
    (lines.foldl (fun t x => ftInsert x t) t).Pairwise (fun a b => a.less b = true)
  | [], _, h => h
  | x :: l, t, h => ftFold_sorted l _ (ftInsert_sorted x t h)

theorem ftSorted_sorted (lines : List FxItem) : (ftSorted lines).Pairwise (fun a b => a.less b = true) :=
  ftFold_sorted lines [] List.Pairwise.nil

theorem sorted_ext : ∀ (l l' : List FxItem), l.Pairwise (fun a b => a.less b = true) → l'.Pairwise (fun a b => a.less b = true) →
    (∀ x, x ∈ l ↔ x ∈ l') → l = l'
  | [], [], _, _, _ => rfl
  | [], y :: l', _, _, h => by have := (h y).2 (by simp); simp at this
  | x :: l, [], _, _, h => by have := (h x).1 (by simp); simp at this
  | x :: l, y :: l', h1, h2, h => by
    rw [List.pairwise_cons] at h1 h2
    have hxy : x = y := by
      rcases List.mem_cons.1 ((h x).1 (by simp)) with e | hx
      · exact e
      rcases List.mem_cons.1 ((h y).2 (by simp)) with e | hy
      · exact e.symm
      have := FxItem.less_trans (h1.1 y hy) (h2.1 x hx)
      rw [FxItem.less_irrefl] at this
      simp at this
    subst hxy
    refine congrArg _ (sorted_ext l l' h1.2 h2.2 fun z => ⟨fun hz => ?_, fun hz => ?_⟩)
    · rcases List.mem_cons.1 ((h z).1 (by simp [hz])) with e | h'
      · have := h1.1 z hz; rw [e, FxItem.less_irrefl] at this; simp at this
      · exact h'
    · rcases List.mem_cons.1 ((h z).2 (by simp [hz])) with e | h'
      · have := h2.1 z hz; rw [e, FxItem.less_irrefl] at this; simp at this
      · exact h'

theorem ftSorted_eq_iff (l l' : List FxItem) : ftSorted l = ftSorted l' ↔ ∀ x, x ∈ l ↔ x ∈ l' := by
  constructor
  · intro h x; rw [← mem_ftSorted, h, mem_ftSorted]
  · intro h
    exact sorted_ext _ _ (ftSorted_sorted l) (ftSorted_sorted l') fun x => by rw [mem_ftSorted, mem_ftSorted]; exact h x

/-- C63.  The order of the lines of a table, and whether a line is written twice, does not matter: the image and the index are
the same, byte for byte. -/
theorem C63_canonical {src src' : List (List Byte × List FxItem)}
    (h : List.Forall₂ (fun p q => p.1 = q.1 ∧ ∀ l, l ∈ p.2 ↔ l ∈ q.2) src src') : tfcCompile src = tfcCompile src' := by
  have key : ∀ f : FxList, src.foldl (fun (f : FxList) p => f.insert (ftSorted p.2) p.1) f = src'.foldl (fun (f : FxList) p => f.insert (ftSorted p.2) p.1) f := by
    induction h with
    | nil => intro f; rfl
    | cons h1 _ ih =>
      intro f
      rw [List.foldl_cons, List.foldl_cons, h1.1, (ftSorted_eq_iff _ _).2 h1.2]
      exact ih _
  rw [tfcCompile_eq, tfcCompile_eq, fxAll, fxAll, key]

theorem insert_tables_nodup (f : FxList) (ft : List FxItem) (ix : List Byte) (h : f.tables.Nodup) : (f.insert ft ix).tables.Nodup := by
  rw [FxList.insert]
  cases hf : f.tables.findIdx? (fun x => decide (x = ft)) with
  | some n => exact h
  | none =>
    simp only
    rw [List.findIdx?_eq_none_iff] at hf
    rw [List.nodup_append]
    refine ⟨h, by simp, ?_⟩
    intro a ha b hb e
    simp only [List.mem_singleton] at hb
    have := hf a ha
    simp only [decide_eq_false_iff_not] at this
    exact this (e.trans hb)

theorem fxAll_tables_nodup (src : List (List Byte × List FxItem)) : (fxAll src).tables.Nodup := by
  induction src using List.reverseRecOn with
  | nil => simp [fxAll]
  | append_singleton src p ih => rw [fxAll_concat]; exact insert_tables_nodup _ _ _ ih

theorem sum_take_lt (ts : List (List FxItem)) {n m : Nat} (h : n < m) (hm : m < ts.length) :
    ((ts.take n).map ftSize).sum < ((ts.take m).map ftSize).sum := by
  have e : ts.take m = ts.take n ++ (ts.drop n).take (m - n) := by
    have := List.take_add (l := ts) (i := n) (j := m - n)
    rwa [show n + (m - n) = m by omega] at this
  rw [e, List.map_append, List.sum_append]
  cases hd : (ts.drop n).take (m - n) with
  | nil =>
    have := congrArg List.length hd
    simp at this; omega
  | cons t l =>
    have := ftSize_pos t
    simp; omega

/-- C63.  Two names have one table in the image exactly if their tables have the same lines: equal tables are stored once,
and tables that differ in anything are never merged. -/
theorem C63_shared {src : List (List Byte × List FxItem)} {img : List Byte} {idx : List (List Byte × Nat)}
    (h : tfcCompile src = some (img, idx)) {n₁ n₂ : List Byte} {o₁ o₂ : Nat} (h₁ : (n₁, o₁) ∈ idx) (h₂ : (n₂, o₂) ∈ idx)
    {l₁ l₂ : List FxItem} (d₁ : Defined src n₁ l₁) (d₂ : Defined src n₂ l₂) : o₁ = o₂ ↔ ∀ l, l ∈ l₁ ↔ l ∈ l₂ := by
  obtain ⟨offs, tabs, hi⟩ := (tfcCompile_some src img idx).1 h
  obtain ⟨k₁, a1, a2⟩ := (hi.idx_mem _ _).1 h₁
  obtain ⟨k₂, b1, b2⟩ := (hi.idx_mem _ _).1 h₂
  obtain ⟨m₁, c1, c2⟩ := (fxAll_spec src).2.1 _ _ a1
  obtain ⟨m₂, c3, c4⟩ := (fxAll_spec src).2.1 _ _ b1
  rw [defined_unique c1 d₁] at c2
  rw [defined_unique c3 d₂] at c4
  rw [← ftSorted_eq_iff]
  obtain ⟨e1, _⟩ := List.getElem?_eq_some_iff.1 c2
  obtain ⟨e2, _⟩ := List.getElem?_eq_some_iff.1 c4
  obtain ⟨_, hs⟩ := ftOffsets_spec _ _ _ hi.hoffs (by decide)
  obtain ⟨r1, f1, f2, _⟩ := hs k₁ e1
  obtain ⟨r2, g1, g2, _⟩ := hs k₂ e2
  rw [a2, Option.some.injEq] at f1
  rw [b2, Option.some.injEq] at g1
  subst f1; subst g1
  constructor
  · intro e
    have hk : k₁ = k₂ := by
      rw [e] at f2
      rcases Nat.lt_trichotomy k₁ k₂ with hlt | he | hlt
      · have := sum_take_lt (fxAll src).tables hlt e2; omega
      · exact he
      · have := sum_take_lt (fxAll src).tables hlt e1; omega
    rw [hk, c4, Option.some.injEq] at c2
    exact c2.symm
  · intro e
    have hk : k₁ = k₂ := by
      rw [e] at c2
      exact (List.getElem?_inj e1 (fxAll_tables_nodup src)).1 (c2.trans c4.symm)
    subst hk
    rw [a2, Option.some.injEq] at b2
    exact b2

/-- C63.  A case: a table with two names; a copy of it, in another order and with a line repeated, under a third name; and a
table that differs in a description only, under a fourth.  The third name shares the table of the first, the fourth does not. -/
theorem C63_example : ∃ src img idx o o', tfcCompile src = some (img, idx) ∧ (([65] : List Byte), o) ∈ idx ∧ (([67] : List Byte), o) ∈ idx ∧
    (([68] : List Byte), o') ∈ idx ∧ o ≠ o' := by
  let t1 : List Byte × List FxItem := ([65, 44, 66], [⟨[224], 1, 0, []⟩, ⟨[225], 2, 0, []⟩, ⟨[224], 3, 0, []⟩])
  let t2 : List Byte × List FxItem := ([67], [⟨[224], 3, 0, []⟩, ⟨[225], 2, 0, []⟩, ⟨[224], 1, 0, []⟩, ⟨[225], 2, 0, []⟩])
  let t3 : List Byte × List FxItem := ([68], [⟨[224], 4, 0, []⟩, ⟨[225], 2, 0, []⟩, ⟨[224], 1, 0, []⟩])
  let src := [t1, t2, t3]
  have hc : ∀ p ∈ src, ∀ l ∈ p.2, ¬ Continues l := by decide
  obtain ⟨img, idx, h⟩ := C56_compiles src (fun p hp l hl h => (hc p hp l hl h).elim) (by decide) (by decide)
  have n1 : Named t1.1 [65] := (mem_tabNames _ _).1 (by decide)
  have n2 : Named t2.1 [67] := (mem_tabNames _ _).1 (by decide)
  have n3 : Named t3.1 [68] := (mem_tabNames _ _).1 (by decide)
  have m1 : ¬ Named t1.1 [67] := by rw [← mem_tabNames]; decide
  have m2 : ¬ Named t1.1 [68] := by rw [← mem_tabNames]; decide
  have m3 : ¬ Named t2.1 [68] := by rw [← mem_tabNames]; decide
  obtain ⟨o1, h1⟩ := (C56_names h [65]).1.2 ⟨t1, by simp [src], n1⟩
  obtain ⟨o2, h2⟩ := (C56_names h [67]).1.2 ⟨t2, by simp [src], n2⟩
  obtain ⟨o3, h3⟩ := (C56_names h [68]).1.2 ⟨t3, by simp [src], n3⟩
  have d1 : Defined src [65] t1.2 := ⟨[], t1.1, [t2, t3], rfl, n1, by simp⟩
  have d2 : Defined src [67] t2.2 := ⟨[t1], t2.1, [t3], rfl, n2, by simpa using m1⟩
  have d3 : Defined src [68] t3.2 := ⟨[t1, t2], t3.1, [], rfl, n3, by simp [m2, m3]⟩
  have e : o1 = o2 := (C63_shared h h1 h2 d1 d2).2 (by
    intro l
    constructor
    · revert l; decide
    · revert l; decide)
  refine ⟨src, img, idx, o1, o3, h, h1, e ▸ h2, h3, fun e' => ?_⟩
  have := ((C63_shared h h1 h3 d1 d3).1 e' ⟨[224], 3, 0, []⟩).1 (by simp [t1])
  revert this
  decide

end Libmorph
