import Mathlib.Data.List.Induction
import Verif.Lemmas.EngText
import Verif.Lemmas.Stems
import Verif.Spec.Tfc
/-
The compiler of ending tables.
-/
namespace Libmorph
open Spec

theorem mapM_forall₂ {α β : Type} (f : α → Option β) : ∀ (l : List α) (r : List β), l.mapM f = some r ↔ List.Forall₂ (fun a b => f a = some b) l r
  | [], r => by
    rw [List.mapM_nil]
    simp only [pure, Option.some.injEq, List.forall₂_nil_left_iff]
    exact eq_comm
  | a :: l, r => by
    rw [List.mapM_cons]
    constructor
    · intro h
      simp only [bind, Option.bind_eq_some_iff, pure, Option.some.injEq] at h
      obtain ⟨b, h1, rs, h2, rfl⟩ := h
      exact .cons h1 ((mapM_forall₂ f l rs).1 h2)
    · intro h
      cases h with
      | cons h1 h2 => simp [bind, h1, (mapM_forall₂ f l _).2 h2]

/-! ### Names -/

theorem splitCommas_eq : ∀ s : List Byte, splitCommas s = (s.takeWhile (· ≠ 44)) :: (match s.dropWhile (· ≠ 44) with | [] => [] | _ :: t => splitCommas t)
  | [] => rfl
  | c :: s => by
    rw [splitCommas]
    by_cases h : c = 44
    · subst h; simp
    · rw [if_neg h, splitCommas_eq s]
      simp [h]

theorem mem_splitCommas (p : List Byte) : ∀ (n : Nat) (s : List Byte), s.length ≤ n → (p ∈ splitCommas s ↔
    ∃ b c, s = b ++ p ++ c ∧ (b = [] ∨ b.getLast? = some 44) ∧ (c = [] ∨ c.head? = some 44) ∧ 44 ∉ p) := by
  intro n
  induction n with
  | zero =>
    intro s hs
    have : s = [] := List.eq_nil_of_length_eq_zero (by omega)
    subst this
    simp only [splitCommas, List.mem_singleton]
    constructor
    · rintro rfl; exact ⟨[], [], by simp⟩
    · rintro ⟨b, c, h, _⟩
      have := congrArg List.length h
      simp only [List.length_nil, List.length_append] at this
      exact List.eq_nil_of_length_eq_zero (by omega)
  | succ n ih =>
    intro s hs
    obtain ⟨k1, k2, k3⟩ := (split_while (p := fun c => decide (c ≠ 44)) (s := s)).1 ⟨rfl, rfl⟩
    rw [splitCommas_eq]
    revert k1 k2 k3
    generalize htw : s.takeWhile (fun c => decide (c ≠ 44)) = x
    generalize hdw : s.dropWhile (fun c => decide (c ≠ 44)) = y
    intro k1 k2 k3
    have hx : 44 ∉ x := fun h => by simpa using k2 _ h
    simp only [List.mem_cons]
    constructor
    · rintro (rfl | h)
      · refine ⟨[], y, by simpa using k1, Or.inl rfl, ?_, hx⟩
        cases y with
        | nil => exact Or.inl rfl
        | cons d y =>
          have := k3 d rfl
          right; simpa using this
      · cases y with
        | nil => simp at h
        | cons d t =>
          have hd : d = 44 := by simpa using k3 d rfl
          subst hd
          simp only at h
          obtain ⟨b, c, e, hb, hc, hp⟩ := (ih t (by have := congrArg List.length k1; simp at this; omega)).1 h
          refine ⟨x ++ 44 :: b, c, by rw [k1, e]; simp, Or.inr ?_, hc, hp⟩
          rcases hb with rfl | hb
          · simp
          · rw [List.getLast?_append, List.getLast?_cons, hb]; simp
    · rintro ⟨b, c, e, hb, hc, hp⟩
      rcases hb with rfl | hb
      · left
        have := (split_while (p := fun c => decide (c ≠ 44)) (s := s) (x := p) (y := c)).2
          ⟨by simpa using e, fun d hd => by simp only [ne_eq, decide_eq_true_eq]; rintro rfl; exact hp hd, by
            intro d hd
            rcases hc with rfl | hc
            · simp at hd
            · rw [hc] at hd; simp at hd; simp [hd.symm]⟩
        rw [← this.1]; exact htw
      · right
        obtain ⟨b0, rfl⟩ := List.getLast?_eq_some_iff.1 hb
        obtain ⟨l1, l2, l3⟩ := (split_while (p := fun c => decide (c ≠ 44)) (s := b0 ++ [44])).1 ⟨rfl, rfl⟩
        cases hdw2 : (b0 ++ [44]).dropWhile (fun c => decide (c ≠ 44)) with
        | nil =>
          rw [hdw2, List.append_nil] at l1
          exact absurd (l2 44 (by rw [← l1]; simp)) (by simp)
        | cons d b' =>
          rw [hdw2] at l1 l3
          have hd : d = 44 := by simpa using l3 d rfl
          subst hd
          have := (split_while (p := fun c => decide (c ≠ 44)) (s := s) (x := (b0 ++ [44]).takeWhile fun c => decide (c ≠ 44)) (y := 44 :: (b' ++ p ++ c))).2
            ⟨by rw [e]; conv_lhs => rw [l1]
                simp, l2, by simp⟩
          have hy : y = 44 :: (b' ++ p ++ c) := by rw [← hdw]; exact this.2
          subst hy
          simp only
          refine (ih _ (by have := congrArg List.length k1; simp at this ⊢; omega)).2 ⟨b', c, rfl, ?_, hc, hp⟩
          cases hb' : b'.getLast? with
          | none => exact Or.inl (List.getLast?_eq_none_iff.1 hb')
          | some z =>
            right
            have := congrArg List.getLast? l1
            have e2 : (44 :: b').getLast? = some z := by rw [List.getLast?_cons, hb']; rfl
            rw [List.getLast?_concat, List.getLast?_append, e2] at this
            simpa using this.symm

theorem trimBlanks_eq (s : List Byte) : trimBlanks s = trimLine s := rfl

theorem mem_tabNames (ix name : List Byte) : name ∈ tabNames ix ↔ Named ix name := by
  simp only [tabNames, List.mem_filter, List.mem_map, decide_eq_true_eq, Named]
  constructor
  · rintro ⟨⟨p, hp, rfl⟩, hne⟩
    obtain ⟨b, c, e, hb, hc, h44⟩ := (mem_splitCommas p _ ix (Nat.le_refl _)).1 hp
    obtain ⟨x, y, h1, h2, h3, h4, h5⟩ := (trimLine_iff p _).1 rfl
    rw [trimBlanks_eq] at hne ⊢
    refine ⟨b, x, y, c, ?_, hb, hc, ?_, h2, h3, hne, h4, h5⟩
    · rw [← h1]; exact e
    · rw [← h1]; exact h44
  · rintro ⟨b, x, y, c, e, hb, hc, h44, h2, h3, hne, h4, h5⟩
    refine ⟨⟨x ++ name ++ y, (mem_splitCommas _ _ ix (Nat.le_refl _)).2 ⟨b, c, e, hb, hc, h44⟩, ?_⟩, hne⟩
    exact (trimLine_iff _ _).2 ⟨x, y, rfl, h2, h3, h4, h5⟩

/-! ### Tables -/

theorem mem_ftInsert (x y : FxItem) : ∀ l, y ∈ ftInsert x l ↔ y = x ∨ y ∈ l
  | [] => by simp [ftInsert]
  | z :: l => by
    rw [ftInsert]
    split
    · simp only [List.mem_cons, mem_ftInsert x y l]; exact or_left_comm
    · split
      · rename_i h; subst h; simp
      · simp

theorem length_ftInsert (x : FxItem) : ∀ l, (ftInsert x l).length ≤ l.length + 1
  | [] => by simp [ftInsert]
  | z :: l => by
    rw [ftInsert]
    have := length_ftInsert x l
    split
    · simp; omega
    · split <;> simp

/-- The lines of a table, sorted, each once. -/
def ftSorted (lines : List FxItem) : List FxItem := lines.foldl (fun t x => ftInsert x t) []

theorem mem_ftFold (y : FxItem) : ∀ (lines t : List FxItem), y ∈ lines.foldl (fun t x => ftInsert x t) t ↔ y ∈ lines ∨ y ∈ t
  | [], t => by simp
  | x :: l, t => by
    rw [List.foldl_cons, mem_ftFold y l, mem_ftInsert]
    simp only [List.mem_cons]
    constructor
    · rintro (h | h | h) <;> simp [h]
    · rintro ((h | h) | h) <;> simp [h]

theorem mem_ftSorted (y : FxItem) (lines : List FxItem) : y ∈ ftSorted lines ↔ y ∈ lines := by simp [ftSorted, mem_ftFold]

theorem length_ftFold : ∀ (lines t : List FxItem), (lines.foldl (fun t x => ftInsert x t) t).length ≤ lines.length + t.length
  | [], t => by simp
  | x :: l, t => by
    rw [List.foldl_cons]
    have := length_ftFold l (ftInsert x t)
    have := length_ftInsert x t
    simp only [List.length_cons]; omega

theorem length_ftSorted (lines : List FxItem) : (ftSorted lines).length ≤ lines.length := by
  rw [ftSorted]; simpa using length_ftFold lines []

/-! ### The map of names -/

theorem mapFind_emplace {α β : Type} [DecidableEq α] (m : List (α × β)) (k k' : α) (v : β) :
    mapFind (mapEmplace m k v) k' = (mapFind m k').or (if k = k' then some v else none) := by
  rw [mapEmplace]
  split
  · rename_i h
    by_cases hk : k = k'
    · subst hk
      obtain ⟨p, hp, hpk⟩ := List.any_eq_true.1 h
      cases hf : m.find? (fun p => p.1 = k) with
      | none => exact absurd hpk (by simpa using List.find?_eq_none.1 hf p hp)
      | some q => simp [mapFind, hf]
    · simp [hk]
  · simp only [mapFind, List.find?_append]
    by_cases hk : k = k'
    · subst hk
      cases hf : m.find? (fun p => p.1 = k) <;> simp
    · cases hf : m.find? (fun p => p.1 = k') <;> simp [hk]

theorem mapFind_names {α β : Type} [DecidableEq α] (v : β) (k' : α) : ∀ (names : List α) (m : List (α × β)),
    mapFind (names.foldl (fun m k => mapEmplace m k v) m) k' = (mapFind m k').or (if k' ∈ names then some v else none)
  | [], m => by simp
  | k :: names, m => by
    rw [List.foldl_cons, mapFind_names v k' names, mapFind_emplace]
    cases mapFind m k' with
    | some x => simp
    | none =>
      by_cases h : k = k'
      · simp [h]
      · have : ¬ k' = k := fun e => h e.symm
        simp [h, this]

/-- The tables compiled so far. -/
def fxAll (src : List (List Byte × List FxItem)) : FxList := src.foldl (fun (f : FxList) p => f.insert (ftSorted p.2) p.1) {}

theorem tfcCompile_eq (src : List (List Byte × List FxItem)) : tfcCompile src = (fxAll src).store := rfl

theorem fxAll_concat (src : List (List Byte × List FxItem)) (p : List Byte × List FxItem) :
    fxAll (src ++ [p]) = (fxAll src).insert (ftSorted p.2) p.1 := by simp [fxAll]

theorem insert_spec (f : FxList) (ft : List FxItem) (ix : List Byte) : ∃ n, (f.insert ft ix).tables[n]? = some ft ∧
    f.tables <+: (f.insert ft ix).tables ∧ (∀ t ∈ (f.insert ft ix).tables, t ∈ f.tables ∨ t = ft) ∧
    ∀ k, mapFind (f.insert ft ix).tabmap k = (mapFind f.tabmap k).or (if k ∈ tabNames ix then some n else none) := by
  rw [FxList.insert]
  cases h : f.tables.findIdx? (fun x => decide (x = ft)) with
  | some n =>
    obtain ⟨h1, h2, _⟩ := List.findIdx?_eq_some_iff_getElem.1 h
    refine ⟨n, ?_, List.prefix_rfl, fun t ht => Or.inl ht, fun k => (mapFind_names n k (tabNames ix) f.tabmap).trans (by congr)⟩
    simp only
    rw [List.getElem?_eq_getElem h1]
    simpa using h2
  | none => exact ⟨f.tables.length, by simp, by simp, by simp, fun k => (mapFind_names f.tables.length k (tabNames ix) f.tabmap).trans (by congr)⟩

theorem defined_concat (src : List (List Byte × List FxItem)) (p : List Byte × List FxItem) (name : List Byte) (lines : List FxItem) :
    Defined (src ++ [p]) name lines ↔ Defined src name lines ∨ ((∀ q ∈ src, ¬ Named q.1 name) ∧ Named p.1 name ∧ p.2 = lines) := by
  constructor
  · rintro ⟨pre, header, post, e, h1, h2⟩
    rcases List.eq_nil_or_concat post with rfl | ⟨post', q, rfl⟩
    · right
      obtain ⟨rfl, e2⟩ := List.append_inj' e rfl
      simp only [List.cons.injEq, and_true] at e2
      subst e2
      exact ⟨h2, h1, rfl⟩
    · left
      rw [List.concat_eq_append, ← List.cons_append, ← List.append_assoc] at e
      obtain ⟨rfl, _⟩ := List.append_inj' e rfl
      exact ⟨pre, header, post', rfl, h1, h2⟩
  · rintro (⟨pre, header, post, rfl, h1, h2⟩ | ⟨h1, h2, rfl⟩)
    · exact ⟨pre, header, post ++ [p], by simp, h1, h2⟩
    · exact ⟨src, p.1, [], rfl, h2, h1⟩

/-- The tables and the names. -/
theorem fxAll_spec (src : List (List Byte × List FxItem)) :
    (∀ t ∈ (fxAll src).tables, ∃ p ∈ src, t = ftSorted p.2) ∧
    (∀ k n, mapFind (fxAll src).tabmap k = some n → ∃ lines, Defined src k lines ∧ (fxAll src).tables[n]? = some (ftSorted lines)) ∧
    (∀ k, mapFind (fxAll src).tabmap k = none → ∀ p ∈ src, ¬ Named p.1 k) := by
  induction src using List.reverseRecOn with
  | nil => simp [fxAll, mapFind]
  | append_singleton src p ih =>
    obtain ⟨i1, i2, i3⟩ := ih
    obtain ⟨n, h1, h2, h3, h4⟩ := insert_spec (fxAll src) (ftSorted p.2) p.1
    rw [fxAll_concat]
    refine ⟨?_, ?_, ?_⟩
    · intro t ht
      rcases h3 t ht with h | rfl
      · obtain ⟨q, hq, e⟩ := i1 t h
        exact ⟨q, by simp [hq], e⟩
      · exact ⟨p, by simp, rfl⟩
    · intro k m hm
      rw [h4] at hm
      cases hk : mapFind (fxAll src).tabmap k with
      | some m' =>
        rw [hk] at hm
        simp only [Option.some_or, Option.some.injEq] at hm
        subst hm
        obtain ⟨lines, d1, d2⟩ := i2 k m' hk
        obtain ⟨r, hr⟩ := h2
        refine ⟨lines, (defined_concat _ _ _ _).2 (Or.inl d1), ?_⟩
        rw [← hr, List.getElem?_append_left (List.getElem?_eq_some_iff.1 d2).1]
        exact d2
      | none =>
        rw [hk] at hm
        simp only [Option.none_or] at hm
        split at hm
        · rename_i hn
          simp only [Option.some.injEq] at hm
          subst hm
          exact ⟨p.2, (defined_concat _ _ _ _).2 (Or.inr ⟨i3 k hk, (mem_tabNames _ _).1 hn, rfl⟩), h1⟩
        · simp at hm
    · intro k hk
      rw [h4] at hk
      simp only [Option.or_eq_none_iff] at hk
      intro q hq
      rcases List.mem_append.1 hq with hq | hq
      · exact i3 k hk.1 q hq
      · simp only [List.mem_singleton] at hq
        subst hq
        intro hn
        rw [if_pos ((mem_tabNames _ _).2 hn)] at hk
        simp at hk

theorem defined_unique {src : List (List Byte × List FxItem)} {name : List Byte} {l l' : List FxItem} (h : Defined src name l) (h' : Defined src name l') : l = l' := by
  induction src using List.reverseRecOn with
  | nil => obtain ⟨pre, hd, post, e, _⟩ := h; simp at e
  | append_singleton src p ih =>
    rw [defined_concat] at h h'
    have none : ∀ {l}, Defined src name l → (∀ q ∈ src, ¬ Named q.1 name) → False := by
      rintro l ⟨pre, hd, post, rfl, h1, _⟩ h2
      exact h2 (hd, l) (by simp) h1
    rcases h with h | ⟨a, b, rfl⟩ <;> rcases h' with h' | ⟨a', b', rfl⟩
    · exact ih h h'
    · exact (none h a').elim
    · exact (none h' a).elim
    · rfl

end Libmorph
