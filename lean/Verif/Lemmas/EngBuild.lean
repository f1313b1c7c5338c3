import Verif.Spec.English
import Verif.Lemmas.Dict
import Verif.Lemmas.Prune
import Verif.Props.C35
namespace Libmorph

theorem splitBy_ne (sep : Byte) (s : List Byte) : splitBy sep s ≠ [] := by
  cases s with
  | nil => simp [splitBy]
  | cons c s =>
    simp only [splitBy]
    split
    · simp
    · split <;> simp

theorem splitBy_eq (sep : Byte) (s : List Byte) :
    splitBy sep s = match s.dropWhile (· != sep) with
      | [] => [s.takeWhile (· != sep)]
      | _ :: r => s.takeWhile (· != sep) :: splitBy sep r := by
  induction s with
  | nil => simp [splitBy]
  | cons c s ih =>
    simp only [splitBy]
    by_cases h : c = sep
    · simp [h]
    · have h' : (c != sep) = true := by simpa using h
      have e1 : (c :: s).takeWhile (· != sep) = c :: s.takeWhile (· != sep) := by simp [List.takeWhile_cons, h']
      have e2 : (c :: s).dropWhile (· != sep) = s.dropWhile (· != sep) := by simp [List.dropWhile_cons, h']
      rw [if_neg h, e1, e2, ih]
      cases s.dropWhile (· != sep) <;> rfl

theorem takeWhile_of_dropWhile_nil {p : Byte → Bool} {s : List Byte} (h : s.dropWhile p = []) : s.takeWhile p = s := by
  have := List.takeWhile_append_dropWhile (p := p) (l := s)
  rw [h] at this; simpa using this

theorem altsOf_nil : altsOf [] = [] := by simp [altsOf, splitBy]

theorem altsOf_cons (c : Byte) (s : List Byte) :
    altsOf (c :: s) = (if c = 48 then [] else (c :: s).takeWhile (· != 47)) ::
      altsOf (((c :: s).dropWhile (· != 47)).drop 1) := by
  have htok : (if ((c :: s).takeWhile (· != 47)).head? = some 48 then [] else (c :: s).takeWhile (· != 47))
      = if c = 48 then [] else (c :: s).takeWhile (· != 47) := by
    by_cases h : c = 47
    · subst h; simp
    · have h' : (c != 47) = true := by simpa using h
      have e1 : (c :: s).takeWhile (· != 47) = c :: s.takeWhile (· != 47) := by simp [List.takeWhile_cons, h']
      rw [e1]; simp
  simp only [altsOf]
  rw [splitBy_eq 47 (c :: s)]
  cases hd : (c :: s).dropWhile (· != 47) with
  | nil =>
    have := takeWhile_of_dropWhile_nil hd
    simp only [List.drop_nil]
    rw [if_neg (by rw [this]; simp)]
    simp only [List.map_cons, List.map_nil, htok, splitBy]
    simp
  | cons d r =>
    simp only [List.drop_succ_cons, List.drop_zero]
    have hne := splitBy_ne 47 r
    rw [List.getLast?_cons, List.dropLast_cons_of_ne_nil hne]
    cases hl : (splitBy 47 r).getLast? with
    | none => rw [List.getLast?_eq_none_iff] at hl; exact absurd hl hne
    | some x =>
      simp only [Option.getD_some, Option.some.injEq]
      split <;> simp only [List.map_cons, htok]

theorem regAlts_eq (id : Nat) (n : Nat) : ∀ (s : List Byte), s.length ≤ n → ∀ t : FTable,
    regAlts id s t = (altsOf s).foldl (fun t f => t.reg f id) t := by
  induction n with
  | zero =>
    intro s hs t
    have : s = [] := List.length_eq_zero_iff.1 (by omega)
    subst this; rw [altsOf_nil]; simp [regAlts]
  | succ n ih =>
    intro s hs t
    cases s with
    | nil => rw [altsOf_nil]; simp [regAlts]
    | cons c s =>
      rw [altsOf_cons, regAlts]
      simp only [List.foldl_cons]
      exact ih _ (by have := drop_dropWhile_lt (p := (· != 47)) (c := c) (s := s); simp only [List.length_cons] at *; omega) _

theorem regFields_eq (n : Nat) : ∀ (s : List Byte), s.length ≤ n → ∀ (id : Nat) (t : FTable),
    regFields id s t = (flexionsFrom id (splitBy 124 s)).foldl (fun t p => t.reg p.1 p.2) t := by
  have hfield : ∀ (field : List Byte) (id : Nat) (t : FTable),
      (if field = [45] then t else regAlts id field t) =
      (if field = [45] then [] else (altsOf field).map fun e => (e, id)).foldl (fun t p => t.reg p.1 p.2) t := by
    intro field id t
    split
    · rfl
    · rw [regAlts_eq id _ field (Nat.le_refl _), List.foldl_map]
  induction n with
  | zero =>
    intro s hs id t
    have : s = [] := List.length_eq_zero_iff.1 (by omega)
    subst this; simp [regFields, splitBy, flexionsFrom, altsOf_nil]
  | succ n ih =>
    intro s hs id t
    cases s with
    | nil => simp [regFields, splitBy, flexionsFrom, altsOf_nil]
    | cons c s =>
      rw [regFields, splitBy_eq]
      have hlt := drop_dropWhile_lt (p := (· != 124)) (c := c) (s := s)
      have ih' := ih (((c :: s).dropWhile (· != 124)).drop 1) (by simp only [List.length_cons] at *; omega) (id + 1)
      rw [ih', hfield]
      cases hd : (c :: s).dropWhile (· != 124) with
      | nil => simp [flexionsFrom, splitBy, altsOf_nil]
      | cons d r => simp only [flexionsFrom, List.foldl_append, List.drop_succ_cons, List.drop_zero]

theorem parseTable_eq (s : List Byte) :
    parseTable s = (flexionsOf s).foldl (fun t p => t.reg p.1 p.2) {} := by
  rw [parseTable, flexionsOf, regFields_eq _ _ (Nat.le_refl _)]

/-! ### The table as a sorted list -/

theorem insFlex_perm (x : Flex) (l : List Flex) : (insFlex x l).Perm (x :: l) := by
  induction l with
  | nil => exact List.Perm.refl _
  | cons y l ih =>
    simp only [insFlex]
    split
    · exact (ih.cons y).trans (List.Perm.swap x y l)
    · exact List.Perm.refl _

/-- `a` may stand in front of `b` in a table. -/
def Flex.le (a b : Flex) : Prop := b.lt a = false

theorem Flex.lt_irrefl (a : Flex) : a.lt a = false := by simp [Flex.lt]

theorem Flex.lt_trans {a b c : Flex} (h1 : a.lt b = true) (h2 : b.lt c = true) : a.lt c = true := by
  simp only [Flex.lt] at *
  by_cases e1 : a.szflex = b.szflex
  · by_cases e2 : b.szflex = c.szflex
    · simp [e1, e2] at *; omega
    · simp [e1, e2] at *; exact h2
  · by_cases e2 : b.szflex = c.szflex
    · have : a.szflex ≠ c.szflex := by rw [← e2]; exact e1
      simp only [ne_eq, e1, not_false_eq_true, if_true, this] at h1 ⊢; rw [← e2]; exact h1
    · simp [e1, e2] at h1 h2
      have h3 := bytesLt_trans h1 h2
      have : a.szflex ≠ c.szflex := by
        intro e; rw [e, bytesLt_irrefl] at h3; simp at h3
      simp [this, h3]

theorem Flex.lt_total (a b : Flex) : a.lt b = true ∨ b.lt a = true ∨ a = b := by
  obtain ⟨as, ai⟩ := a
  obtain ⟨bs, bi⟩ := b
  simp only [Flex.lt]
  by_cases e : as = bs
  · subst e; simp; omega
  · have := bytesLt_total (a := as) (b := bs)
    have e' : ¬ bs = as := fun h => e h.symm
    simp [e, e'] at *
    cases h : bytesLt as bs with
    | true => exact Or.inl rfl
    | false => exact Or.inr (this h)

theorem Flex.le_trans {a b c : Flex} (h1 : a.le b) (h2 : b.le c) : a.le c := by
  simp only [Flex.le] at *
  by_contra h
  have h : c.lt a = true := by simpa using h
  rcases Flex.lt_total a b with h3 | h3 | h3
  · have := Flex.lt_trans h h3; rw [this] at h2; simp at h2
  · rw [h3] at h1; simp at h1
  · subst h3; rw [h] at h2; simp at h2

theorem insFlex_sorted (x : Flex) (l : List Flex) (h : l.Pairwise Flex.le) : (insFlex x l).Pairwise Flex.le := by
  induction l with
  | nil => simp [insFlex]
  | cons y l ih =>
    rw [List.pairwise_cons] at h
    simp only [insFlex]
    by_cases hy : y.lt x = true
    · rw [if_pos hy, List.pairwise_cons]
      refine ⟨?_, ih h.2⟩
      intro z hz
      rcases List.mem_cons.1 ((insFlex_perm x l).mem_iff.1 hz) with rfl | hz
      · simp only [Flex.le]
        by_contra hc
        have hc : z.lt y = true := by simpa using hc
        have := Flex.lt_trans hy hc; rw [Flex.lt_irrefl] at this; simp at this
      · exact h.1 z hz
    · rw [if_neg hy, List.pairwise_cons]
      have hxy : x.le y := by simpa [Flex.le] using hy
      refine ⟨?_, List.pairwise_cons.2 h⟩
      intro z hz
      rcases List.mem_cons.1 hz with rfl | hz
      · exact hxy
      · exact Flex.le_trans hxy (h.1 z hz)

/-- The endings of a table, with form numbers of 8 bits, as the compiler collects them. -/
structure TableOf (l : List (List Byte × Nat)) (t : FTable) : Prop where
  perm : t.items.Perm (l.map fun p => ⟨p.1, p.2 % 256⟩)
  sorted : t.items.Pairwise Flex.le
  bounds : ∀ p ∈ l, t.clower ≤ p.1.headD 0 ∧ p.1.headD 0 ≤ t.cupper

theorem tableOf_reg {l : List (List Byte × Nat)} {t : FTable} (h : TableOf l t) (f : List Byte) (id : Nat) :
    TableOf (l ++ [(f, id)]) (t.reg f id) := by
  obtain ⟨h1, h2, h3⟩ := h
  refine ⟨?_, insFlex_sorted _ _ h2, ?_⟩
  · simp only [FTable.reg, List.map_append, List.map_cons, List.map_nil]
    exact (insFlex_perm _ _).trans ((h1.cons _).trans (List.perm_append_singleton _ _).symm)
  · intro p hp
    simp only [FTable.reg]
    rcases List.mem_append.1 hp with hp | hp
    · have := h3 p hp; omega
    · simp only [List.mem_singleton] at hp; subst hp
      simp only; omega

theorem tableOf_foldl (l0 l : List (List Byte × Nat)) (t : FTable) (h : TableOf l0 t) :
    TableOf (l0 ++ l) (l.foldl (fun t p => t.reg p.1 p.2) t) := by
  induction l generalizing l0 t with
  | nil => simpa using h
  | cons p l ih =>
    have := ih (l0 ++ [p]) (t.reg p.1 p.2) (tableOf_reg h p.1 p.2)
    simpa using this

theorem parseTable_tableOf (s : List Byte) : TableOf (flexionsOf s) (parseTable s) := by
  rw [parseTable_eq]
  have := tableOf_foldl [] (flexionsOf s) {} ⟨by simp, by simp, by simp⟩
  simpa using this

/-- The bounds are bytes. -/
theorem parseTable_bytes (s : List Byte) (hs : ∀ c ∈ s, c < 256) :
    (parseTable s).clower < 256 ∧ (parseTable s).cupper < 256 := by
  have : ∀ (l : List (List Byte × Nat)) (t : FTable), t.clower < 256 → t.cupper < 256 →
      (∀ p ∈ l, p.1.headD 0 < 256) →
      (l.foldl (fun t p => t.reg p.1 p.2) t).clower < 256 ∧ (l.foldl (fun t p => t.reg p.1 p.2) t).cupper < 256 := by
    intro l
    induction l with
    | nil => intro t h1 h2 _; exact ⟨h1, h2⟩
    | cons p l ih =>
      intro t h1 h2 h3
      apply ih
      · simp only [FTable.reg]; omega
      · have := h3 p (by simp); simp only [FTable.reg]; omega
      · intro q hq; exact h3 q (by simp [hq])
  rw [parseTable_eq]
  refine this _ _ (by decide) (by decide) ?_
  have hsub : ∀ (sep : Byte) (s : List Byte), ∀ p ∈ splitBy sep s, ∀ c ∈ p, c ∈ s := by
    intro sep s
    induction s with
    | nil => simp [splitBy]
    | cons c s ih =>
      intro p hp x hx
      simp only [splitBy] at hp
      split at hp
      · rcases List.mem_cons.1 hp with rfl | hp
        · simp at hx
        · exact List.mem_cons_of_mem _ (ih p hp x hx)
      · split at hp
        · rename_i h; exact absurd h (splitBy_ne sep s)
        · rename_i q qs hq
          rcases List.mem_cons.1 hp with rfl | hp
          · rcases List.mem_cons.1 hx with rfl | hx
            · simp
            · exact List.mem_cons_of_mem _ (ih q (by rw [hq]; simp) x hx)
          · exact List.mem_cons_of_mem _ (ih p (by rw [hq]; simp [hp]) x hx)
  have hfrom : ∀ (fs : List (List Byte)) (i : Nat), (∀ f ∈ fs, ∀ c ∈ f, c < 256) → ∀ p ∈ flexionsFrom i fs, ∀ c ∈ p.1, c < 256 := by
    intro fs
    induction fs with
    | nil => simp [flexionsFrom]
    | cons f fs ih =>
      intro i hf p hp c hc
      simp only [flexionsFrom] at hp
      rcases List.mem_append.1 hp with hp | hp
      · split at hp
        · simp at hp
        · obtain ⟨e, he, rfl⟩ := List.mem_map.1 hp
          simp only [altsOf] at he
          obtain ⟨q, hq, rfl⟩ := List.mem_map.1 he
          simp only at hc
          split at hc
          · simp at hc
          · have hq' : q ∈ splitBy 47 f := by
              split at hq
              · exact (List.dropLast_sublist _).subset hq
              · exact hq
            exact hf f (by simp) c (hsub 47 f q hq' c hc)
      · exact ih (i + 1) (fun f h => hf f (by simp [h])) p hp c hc
  intro p hp
  have := hfrom _ 0 (by
    intro f hf c hc
    have := hsub 124 _ f hf c hc
    split at this
    · exact hs c (List.mem_of_mem_drop this)
    · exact hs c this) p hp
  cases hq : p.1 with
  | nil => simp
  | cons c q => simp only [List.headD_cons]; exact this c (by rw [hq]; simp)

end Libmorph
