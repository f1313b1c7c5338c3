import Verif.Lemmas.Stems
import Mathlib.Data.List.Perm.Basic
/-! C35 — the dictionary image does not depend on the order of the articles. -/
namespace Libmorph
variable {α : Type}

theorem Forest.modify_comm {c d : Byte} (hcd : c ≠ d) (f g : Tree α → Tree α) (t : Forest α) :
    (t.modify c f).modify d g = (t.modify d g).modify c f := by
  induction t with
  | nil =>
    simp only [Forest.modify]
    rcases Nat.lt_or_ge c d with h | h
    · rw [if_neg (by omega), if_neg (by omega), if_pos (by omega)]
    · rw [if_pos (by omega), if_neg (by omega), if_neg (by omega)]
  | cons ch v sub rest _ ih =>
    rcases Nat.lt_trichotomy ch c with h1 | h1 | h1 <;> rcases Nat.lt_trichotomy ch d with h2 | h2 | h2
    · rcases Nat.lt_or_ge c d with h | h
      · simp [Forest.modify, show ¬ ch > c by omega, show ch ≠ c by omega, show ¬ ch > d by omega,
          show ch ≠ d by omega, show ¬ c > d by omega, hcd, show d > c by omega]
      · simp [Forest.modify, show ¬ ch > c by omega, show ch ≠ c by omega, show ¬ ch > d by omega,
          show ch ≠ d by omega, show ¬ d > c by omega, hcd.symm, show c > d by omega]
    · subst h2
      simp [Forest.modify, show ¬ ch > c by omega, show ch ≠ c by omega, show c > ch by omega]
    · simp [Forest.modify, show ¬ ch > c by omega, show ch ≠ c by omega, show ch > d by omega, show c > d by omega]
    · subst h1
      simp [Forest.modify, show ¬ ch > d by omega, show ch ≠ d by omega, show d > ch by omega]
    · omega
    · subst h1
      simp [Forest.modify, show ch > d by omega]
    · simp [Forest.modify, show ¬ ch > d by omega, show ch ≠ d by omega, show ch > c by omega, show d > c by omega]
    · subst h2
      simp [Forest.modify, show ch > c by omega]
    · simp [Forest.modify, h1, h2, ih]

theorem Forest.modify_modify {c : Byte} (f g : Tree α → Tree α) (t : Forest α) :
    (t.modify c f).modify c g = t.modify c (fun x => g (f x)) := by
  induction t with
  | nil => simp [Forest.modify]
  | cons ch v sub rest _ ih =>
    rcases Nat.lt_trichotomy ch c with h1 | h1 | h1
    · simp [Forest.modify, show ¬ ch > c by omega, show ch ≠ c by omega]
    · subst h1; simp [Forest.modify]
    · simp [Forest.modify, h1, ih]

theorem Tree.insert_comm (u1 u2 : Option α → α) (k1 k2 : List Byte)
    (h : k1 = k2 → ∀ o, u1 (some (u2 o)) = u2 (some (u1 o))) (t : Tree α) :
    (t.insert u1 k1).insert u2 k2 = (t.insert u2 k2).insert u1 k1 := by
  induction k1 generalizing k2 t with
  | nil =>
    cases k2 with
    | nil => simp [Tree.insert, h rfl]
    | cons d ds => simp [Tree.insert]
  | cons c cs ih =>
    cases k2 with
    | nil => simp [Tree.insert]
    | cons d ds =>
      by_cases hcd : c = d
      · subst hcd
        simp only [Tree.insert, Forest.modify_modify]
        congr 2
        funext x
        exact ih ds (fun he o => h (by rw [he]) o) x
      · simp only [Tree.insert, Forest.modify_comm hcd]

theorem bytesLt_irrefl (a : List Byte) : bytesLt a a = false := by
  induction a with
  | nil => rfl
  | cons x a ih => simp [bytesLt, ih]

theorem bytesLt_trans {a b c : List Byte} (h1 : bytesLt a b = true) (h2 : bytesLt b c = true) :
    bytesLt a c = true := by
  induction a generalizing b c with
  | nil =>
    cases b with
    | nil => simp [bytesLt] at h1
    | cons y b => cases c with
      | nil => simp [bytesLt] at h2
      | cons z c => rfl
  | cons x a ih =>
    cases b with
    | nil => simp [bytesLt] at h1
    | cons y b => cases c with
      | nil => simp [bytesLt] at h2
      | cons z c =>
        simp only [bytesLt] at h1 h2 ⊢
        split at h1 <;> split at h2 <;> try split at h1
        all_goals try split at h2
        all_goals first
          | (rw [if_pos (by omega)])
          | (simp at h1; done)
          | (simp at h2; done)
          | skip
        rw [if_neg (by omega), if_neg (by omega)]
        exact ih h1 h2

theorem bytesLt_total {a b : List Byte} (h : bytesLt a b = false) (h2 : bytesLt b a = false) : a = b := by
  induction a generalizing b with
  | nil => cases b with
    | nil => rfl
    | cons y b => simp [bytesLt] at h
  | cons x a ih => cases b with
    | nil => simp [bytesLt] at h2
    | cons y b =>
      simp only [bytesLt] at h h2
      have hxy : x = y := by
        rcases Nat.lt_trichotomy x y with hx | hx | hx
        · simp [hx] at h
        · exact hx
        · simp [hx] at h2
      subst hxy
      simp only [Nat.lt_irrefl, if_false] at h h2
      rw [ih h h2]

/-- The comparison is a strict order... -/
theorem Entry.lt_trans {a b c : Entry} (h1 : a.lt b = true) (h2 : b.lt c = true) : a.lt c = true := by
  simp only [Entry.lt] at *
  by_cases e1 : b.chrmax ≠ a.chrmax
  · rw [if_pos e1] at h1; simp at h1
    rw [if_pos]
    · split at h2
      · simp at h2 ⊢; omega
      · simp; omega
    · split at h2
      · simp at h2; omega
      · omega
  · rw [if_neg e1] at h1
    simp only [ne_eq, Decidable.not_not] at e1
    by_cases e2 : c.chrmax ≠ b.chrmax
    · rw [if_pos e2] at h2; simp at h2
      rw [if_pos (by omega)]; simp; omega
    · rw [if_neg e2] at h2
      simp only [ne_eq, Decidable.not_not] at e2
      rw [if_neg (by omega)]
      by_cases e3 : a.chrmin ≠ b.chrmin
      · rw [if_pos e3] at h1; simp at h1
        rw [if_pos]
        · split at h2
          · simp at h2 ⊢; omega
          · simp; omega
        · split at h2
          · simp at h2; omega
          · omega
      · rw [if_neg e3] at h1
        simp only [ne_eq, Decidable.not_not] at e3
        by_cases e4 : b.chrmin ≠ c.chrmin
        · rw [if_pos e4] at h2; simp at h2
          rw [if_pos (by omega)]; simp; omega
        · rw [if_neg e4] at h2
          simp only [ne_eq, Decidable.not_not] at e4
          rw [if_neg (by omega)]
          by_cases e5 : a.stpost ≠ b.stpost
          · rw [if_pos e5] at h1
            by_cases e6 : b.stpost ≠ c.stpost
            · rw [if_pos e6] at h2
              have := bytesLt_trans h1 h2
              rw [if_pos]
              · exact this
              · intro he; rw [he, bytesLt_irrefl] at this; simp at this
            · simp only [ne_eq, Decidable.not_not] at e6
              rw [← e6, if_pos e5]; exact h1
          · simp only [ne_eq, Decidable.not_not] at e5
            rw [e5] at h1 ⊢
            simp only [ne_eq, not_true_eq_false, if_false, decide_eq_true_eq] at h1
            split at h2
            · rw [if_pos (by assumption)]; exact h2
            · rw [if_neg (by assumption)]; simp at h2 ⊢; omega

theorem Entry.lt_irrefl (a : Entry) : a.lt a = false := by
  simp [Entry.lt]

/-- Entries the comparison does not tell apart. -/
abbrev Entry.SameKey (a b : Entry) : Prop :=
  a.chrmax = b.chrmax ∧ a.chrmin = b.chrmin ∧ a.stpost = b.stpost ∧ a.nlexid = b.nlexid

theorem Entry.lt_total {a b : Entry} (h1 : a.lt b = false) (h2 : b.lt a = false) : a.SameKey b := by
  simp only [Entry.lt] at h1 h2
  split at h1
  · rename_i h; rw [if_pos (Ne.symm h)] at h2; simp at h1 h2; omega
  · rename_i h
    simp only [ne_eq, Decidable.not_not] at h
    rw [if_neg (by omega)] at h2
    split at h1
    · rename_i h'; rw [if_pos (Ne.symm h')] at h2; simp at h1 h2; omega
    · rename_i h'
      simp only [ne_eq, Decidable.not_not] at h'
      rw [if_neg (by omega)] at h2
      split at h1
      · rename_i h''; rw [if_pos (Ne.symm h'')] at h2
        exact absurd (bytesLt_total h1 h2) h''
      · rename_i h''
        simp only [ne_eq, Decidable.not_not] at h''
        rw [if_neg (by rw [h'']; simp)] at h2
        simp at h1 h2
        exact ⟨h.symm, h', h'', by omega⟩

/-- Sorted insertion commutes when the comparison tells different entries apart. -/
theorem insEntry_comm {a b : Entry} (h : a.SameKey b → a = b) (l : List Entry) :
    insEntry a (insEntry b l) = insEntry b (insEntry a l) := by
  have tot : a.lt b = false → b.lt a = false → a = b := fun h1 h2 => h (Entry.lt_total h1 h2)
  have asym : a.lt b = true → b.lt a = false := by
    intro h1
    cases h2 : b.lt a with
    | false => rfl
    | true => have := Entry.lt_trans h1 h2; rw [Entry.lt_irrefl] at this; simp at this
  induction l with
  | nil =>
    simp only [insEntry]
    cases hab : a.lt b <;> cases hba : b.lt a
    · rw [tot hab hba]
    · simp
    · simp
    · rw [asym hab] at hba; simp at hba
  | cons x l ih =>
    simp only [insEntry]
    cases hxa : x.lt a <;> cases hxb : x.lt b
    · simp only [Bool.false_eq_true, if_false, insEntry, hxa, hxb]
      cases hab : a.lt b <;> cases hba : b.lt a
      · rw [tot hab hba]
      · simp
      · simp
      · rw [asym hab] at hba; simp at hba
    · -- x < b, not x < a
      have hba : b.lt a = false := by
        cases hc : b.lt a with
        | false => rfl
        | true => rw [Entry.lt_trans hxb hc] at hxa; simp at hxa
      have hab : a.lt b = true := by
        cases hc : a.lt b with
        | true => rfl
        | false =>
          have := tot hc hba
          subst this; rw [hxa] at hxb; simp at hxb
      simp [insEntry, hxa, hxb, hab]
    · have hab : a.lt b = false := by
        cases hc : a.lt b with
        | false => rfl
        | true => rw [Entry.lt_trans hxa hc] at hxb; simp at hxb
      have hba : b.lt a = true := by
        cases hc : b.lt a with
        | true => rfl
        | false =>
          have := tot hab hc
          subst this; rw [hxa] at hxb; simp at hxb
      simp [insEntry, hxa, hxb, hba]
    · simp [insEntry, hxa, hxb, ih]

/-- C35: two lists of (stem, entry) pairs that are permutations of each other are compiled to the
same stem image and the same id image, provided entries under one stem that agree in bounds, suffix
and lexeme id agree altogether. -/
theorem C35_order_independent (l l' : List (List Byte × Entry)) (hp : l.Perm l')
    (hd : ∀ p ∈ l, ∀ q ∈ l, p.1 = q.1 → p.2.SameKey q.2 → p.2 = q.2) :
    stemImage (fileAll l) = stemImage (fileAll l') ∧
    lidImage (lidTree (fileAll l)) = lidImage (lidTree (fileAll l')) := by
  have : fileAll l = fileAll l' := by
    refine hp.foldl_eq' (f := fun t p => fileEntry p.1 p.2 t) ?_ Tree.empty
    intro p hp q hq t
    apply Tree.insert_comm
    intro he o
    simp only [Option.getD_some]
    exact insEntry_comm (fun hk => hd p hp q hq he hk) _
  rw [this]; exact ⟨rfl, rfl⟩

/-- The proviso is needed: the comparison ignores the class, so two entries that differ in the class
only are stored in an order that depends on the order of the articles. -/
theorem C35_proviso_needed : ∃ l l' : List (List Byte × Entry), l.Perm l' ∧
    stemImage (fileAll l) ≠ stemImage (fileAll l') := by
  refine ⟨[([97], ⟨0, 0, 1, 4, []⟩), ([97], ⟨0, 0, 1, 8, []⟩)], [([97], ⟨0, 0, 1, 8, []⟩), ([97], ⟨0, 0, 1, 4, []⟩)],
    List.Perm.swap _ _ _, by decide +kernel⟩

/-- Non-vacuity. -/
example : stemImage (fileAll [([97], ⟨0, 9, 1, 4, []⟩), ([97, 98], ⟨0, 0, 7, 8, []⟩), ([97], ⟨0, 3, 2, 4, []⟩)])
    = stemImage (fileAll [([97], ⟨0, 3, 2, 4, []⟩), ([97, 98], ⟨0, 0, 7, 8, []⟩), ([97], ⟨0, 9, 1, 4, []⟩)]) :=
  (C35_order_independent _ _ (by decide) (by decide +kernel)).1

end Libmorph
