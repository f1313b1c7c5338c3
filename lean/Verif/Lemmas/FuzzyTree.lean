import Verif.Lemmas.FuzzyScan
/-
The content of a tree as a list.
-/
namespace Libmorph

mutual
/-- The keys with their values. -/
def PTree.entries : PTree → List (List Byte × List FuzzyRef)
  | .node key val kids => (val.toList.map fun l => (key, l)) ++ (PTree.entriesL kids).map fun p => (key ++ p.1, p.2)
def PTree.entriesL : List PTree → List (List Byte × List FuzzyRef)
  | [] => []
  | t :: ts => t.entries ++ PTree.entriesL ts
end

mutual
/-- The nodes below a node have characters. -/
def PTree.Keyed : PTree → Prop
  | .node _ _ kids => (∀ t ∈ kids, t.key ≠ []) ∧ PTree.Keyeds kids
def PTree.Keyeds : List PTree → Prop
  | [] => True
  | t :: ts => t.Keyed ∧ PTree.Keyeds ts
end

theorem lookup_prefix_of_mem {l : List (List Byte × List FuzzyRef)} {key k : List Byte} (h : ∀ p ∈ l, key <+: p.1) (hk : ¬ key <+: k) :
    l.lookup k = none := by
  rw [List.lookup_eq_none_iff]
  intro p hp
  by_contra hc
  have : k = p.1 := by simpa using hc
  exact hk (this ▸ h p hp)

theorem PTree.entries_prefix (t : PTree) : ∀ p ∈ t.entries, t.key <+: p.1 := by
  cases t with
  | node key val kids =>
    intro p hp
    rw [PTree.entries] at hp
    rcases List.mem_append.1 hp with hp | hp
    · obtain ⟨l, -, rfl⟩ := List.mem_map.1 hp; exact List.prefix_rfl
    · obtain ⟨q, -, rfl⟩ := List.mem_map.1 hp; exact List.prefix_append _ _

theorem lookup_append' (a b : List (List Byte × List FuzzyRef)) (k : List Byte) : (a ++ b).lookup k = (a.lookup k).or (b.lookup k) := by
  induction a with
  | nil => simp
  | cons p a ih =>
    obtain ⟨q, l⟩ := p
    rw [List.cons_append, List.lookup_cons, List.lookup_cons]
    cases k == q with
    | true => rfl
    | false => exact ih

theorem lookup_map_key (a : List (List Byte × List FuzzyRef)) (key r : List Byte) :
    (a.map fun p => (key ++ p.1, p.2)).lookup (key ++ r) = a.lookup r := by
  induction a with
  | nil => rfl
  | cons p a ih =>
    obtain ⟨q, l⟩ := p
    rw [List.map_cons, List.lookup_cons, List.lookup_cons]
    have : (key ++ r == key ++ q) = (r == q) := by
      rw [Bool.eq_iff_iff]; simp
    simp only [this, ih]

mutual
theorem PTree.get_entries : ∀ (t : PTree), t.Keyed → ∀ k, t.get k = t.entries.lookup k
  | .node key val kids, h, k => by
    rw [PTree.Keyed] at h
    by_cases hp : key <+: k
    · obtain ⟨r, rfl⟩ := hp
      have ih := PTree.gets_entries kids h.2 r
      rw [PTree.get, if_pos (List.prefix_append _ _), List.drop_left, PTree.entries, lookup_append', lookup_map_key, ← ih]
      by_cases hr : r = []
      · subst hr
        rw [if_pos rfl, PTree.gets_nil kids h.1, List.append_nil]
        cases val with
        | none => rfl
        | some l => simp
      · rw [if_neg hr]
        have : (val.toList.map fun l => (key, l)).lookup (key ++ r) = none := by
          rw [List.lookup_eq_none_iff]
          intro p hp
          obtain ⟨l, -, rfl⟩ := List.mem_map.1 hp
          simp [hr]
        rw [this]; rfl
    · rw [PTree.get_not_prefix (.node key val kids) _ hp]
      exact (lookup_prefix_of_mem (PTree.entries_prefix (.node key val kids)) hp).symm
theorem PTree.gets_entries : ∀ (ts : List PTree), PTree.Keyeds ts → ∀ k, PTree.gets ts k = (PTree.entriesL ts).lookup k
  | [], _, k => rfl
  | t :: ts, h, k => by
    rw [PTree.Keyeds] at h
    rw [PTree.gets, PTree.entriesL, lookup_append', PTree.get_entries t h.1 k, PTree.gets_entries ts h.2 k]
end

/-- Two lists that agree on their keys agree. -/
theorem lookup_ext {a b : List (List Byte × List FuzzyRef)} (h : ∀ k ∈ a.map Prod.fst ++ b.map Prod.fst, a.lookup k = b.lookup k)
    (k : List Byte) : a.lookup k = b.lookup k := by
  by_cases hk : k ∈ a.map Prod.fst ++ b.map Prod.fst
  · exact h k hk
  · have key : ∀ c : List (List Byte × List FuzzyRef), k ∉ c.map Prod.fst → c.lookup k = none := by
      intro c hc
      rw [List.lookup_eq_none_iff]
      intro p hp
      by_contra hn
      have : k = p.1 := by simpa using hn
      exact hc (this ▸ List.mem_map_of_mem hp)
    rw [List.mem_append, not_or] at hk
    rw [key a hk.1, key b hk.2]

end Libmorph
