import Verif.Model.Stems
import Verif.Spec.Trie
/-
Which entries filed under a stem fit the rest of a word.
-/
namespace Libmorph

/-- The rest of the word is `flex ++ post` with the entry's own suffix `post`, and the first letter
of `flex` (when there is one) lies within the entry's bounds. -/
def Entry.Fits (e : Entry) (rest flex : List Byte) : Prop :=
  rest = flex ++ e.stpost ∧ ∀ b, flex.head? = some b → e.chrmin ≤ b ∧ b ≤ e.chrmax

/-- The ending in front of the suffix, if the entry fits. -/
def Entry.flexOf (e : Entry) (rest : List Byte) : Option (List Byte) :=
  let flex := rest.take (rest.length - e.stpost.length)
  if rest = flex ++ e.stpost ∧ ∀ b ∈ flex.head?, e.chrmin ≤ b ∧ b ≤ e.chrmax then some flex else none

/-- The entries of a list that fit the rest of a word, with their endings, in list order. -/
def fitting (es : List Entry) (rest : List Byte) : List (Entry × List Byte) :=
  es.filterMap fun e => (e.flexOf rest).map fun x => (e, x)

theorem Entry.flexOf_iff (e : Entry) (rest flex : List Byte) :
    e.flexOf rest = some flex ↔ e.Fits rest flex := by
  simp only [Entry.flexOf, Entry.Fits]
  constructor
  · intro h
    split at h
    · rename_i h1
      simp only [Option.some.injEq] at h
      subst h
      exact ⟨h1.1, fun b hb => h1.2 b hb⟩
    · simp at h
  · rintro ⟨rfl, h⟩
    have : (flex ++ e.stpost).take ((flex ++ e.stpost).length - e.stpost.length) = flex := by simp
    simp only [this]
    rw [if_pos ⟨trivial, fun b hb => h b hb⟩]

/-- No entry is at risk: when the whole (non-empty) rest of the word is some entry's suffix, every entry
in front of it whose own suffix is shorter but ends the word too has an upper bound not below the first
letter of the rest. -/
def Safe (es : List Entry) (rest : List Byte) : Prop :=
  es.Pairwise fun e0 e => e.stpost = rest → e0.stpost <:+ rest → e0.stpost ≠ rest →
    ∀ b, rest.head? = some b → b ≤ e0.chrmax

theorem safe_of_no_suffix {es : List Entry} (h : ∀ e ∈ es, e.stpost = []) (rest : List Byte) : Safe es rest := by
  refine List.pairwise_of_forall_mem_list ?_
  intro e0 _ e he h1 _ _ b hb
  rw [h e he] at h1; subst h1; simp at hb

end Libmorph
