import Verif.Props.C46
import Verif.Spec.RusGram
/-
C54: which variant of an alternating stem a Russian form is written with.
-/
namespace Libmorph
open Spec

/-- C54.  For every word information, description and flags the level of alternation the analyser asks for is the one
the grammar of `Spec/RusLevel.lean` gives.  (The forms of C45-C48 and C30 are described with `Spec.altLevel`.) -/
theorem C54_level (wdinfo gr fl : Nat) : swapLevel wdinfo gr fl = Spec.altLevel wdinfo gr fl := swapLevel_eq wdinfo gr fl

/-- The levels of the forms of verbs, form by form. -/
def Spec.VerbForm.level (kind : Nat) : VerbForm → Nat
  | .infinitive _ => 1
  | .imperative _ _ => if kind = 1 then 2 else 1
  | .future n _ pl | .present n _ pl =>
    if kind = 0 then (if n = 0 ∧ pl = false then 2 else 1) else if kind ≤ 2 then 2 else 1
  | .past _ _ => 1
  | .active t _ _ _ => if t = false ∧ (kind = 1 ∨ kind = 2) then 2 else 1
  | .passive t _ _ => if t then (if kind ≤ 1 then 3 else 1) else if kind = 1 ∨ kind = 2 then 2 else 1
  | .gerund t _ => if t = false ∧ (kind = 1 ∨ kind = 2) then 2 else 1

/-- C54 for verbs: every form of every verb. -/
theorem C54_verb (wdinfo : Nat) (h1 : 1 ≤ wdinfo % 64) (h6 : wdinfo % 64 ≤ 6) (f : VerbForm) (fl : Nat) :
    swapLevel wdinfo f.desc.gramm fl = f.level (wdinfo / 2048 % 4) := by
  rw [swapLevel_eq]
  simp only [altLevel]
  rw [if_pos ⟨h1, h6⟩]
  have : wdinfo / 2048 % 4 < 4 := Nat.mod_lt _ (by decide)
  generalize wdinfo / 2048 % 4 = k at *
  revert k
  cases f with
  | infinitive r => revert r; decide +kernel
  | imperative r p => revert r p; decide +kernel
  | future n r p => revert n r p; decide +kernel
  | present n r p => revert n r p; decide +kernel
  | past g r => revert g r; decide +kernel
  | active t r g c => revert t r g c; decide +kernel
  | passive t g c => revert t g c; decide +kernel
  | gerund t r => revert t r; decide +kernel

/-- C54 for masculine nouns: the first variant in the nominative singular and, when inanimate, in the accusative singular. -/
theorem C54_masculine (wdinfo : Nat) (fl : Nat) (n : NounForm) :
    (wdinfo % 64 = 7 → swapLevel wdinfo n.desc.gramm fl = if n = .singular 0 ∨ n = .singular 3 ∨ n = .singular 4 then 1 else 2) ∧
    (wdinfo % 64 = 8 → swapLevel wdinfo n.desc.gramm fl = if n = .singular 0 then 1 else 2) ∧
    (wdinfo % 64 = 9 → swapLevel wdinfo n.desc.gramm n.desc.flags = if n = .singular 0 ∨ n = .singular 3 then 1 else 2) := by
  simp only [swapLevel_eq, altLevel]
  generalize wdinfo % 64 = p at *
  have key : ∀ n : NounForm,
      mascLevel false n.desc.gramm = (if n = .singular 0 ∨ n = .singular 3 ∨ n = .singular 4 then 1 else 2) ∧
      mascLevel true n.desc.gramm = (if n = .singular 0 then 1 else 2) ∧
      mascLevel (n.desc.flags % 2 = 1) n.desc.gramm = (if n = .singular 0 ∨ n = .singular 3 then 1 else 2) := by
    intro n
    rcases n with c | c <;> revert c <;> decide +kernel
  obtain ⟨k1, k2, k3⟩ := key n
  refine ⟨fun h => ?_, fun h => ?_, fun h => ?_⟩ <;> subst h
  · rw [← k1]; rfl
  · rw [← k2]; rfl
  · rw [← k3]; rfl

/-- C54 for the other nouns: the second variant in the genitive plural and, when animate, in the accusative plural. -/
theorem C54_feminine (wdinfo : Nat) (fl : Nat) (n : NounForm) :
    (wdinfo % 64 ∈ [10, 13, 16, 19, 21, 23, 24] → swapLevel wdinfo n.desc.gramm fl = if n = .plural 1 then 2 else 1) ∧
    (wdinfo % 64 ∈ [11, 12, 14, 17, 20, 22, 38, 39, 41] →
      swapLevel wdinfo n.desc.gramm fl = if n = .plural 1 ∨ n = .plural 3 ∨ n = .plural 4 then 2 else 1) ∧
    (wdinfo % 64 ∈ [15, 18] → swapLevel wdinfo n.desc.gramm n.desc.flags = if n = .plural 1 ∨ n = .plural 4 then 2 else 1) := by
  simp only [swapLevel_eq, altLevel]
  have h64 : wdinfo % 64 < 64 := Nat.mod_lt _ (by decide)
  generalize wdinfo % 64 = p at *
  have key : ∀ n : NounForm,
      nounLevel false n.desc.gramm = (if n = .plural 1 then 2 else 1) ∧
      nounLevel true n.desc.gramm = (if n = .plural 1 ∨ n = .plural 3 ∨ n = .plural 4 then 2 else 1) ∧
      nounLevel (n.desc.flags % 2 = 1) n.desc.gramm = (if n = .plural 1 ∨ n = .plural 4 then 2 else 1) := by
    intro n
    rcases n with c | c <;> revert c <;> decide +kernel
  obtain ⟨k1, k2, k3⟩ := key n
  refine ⟨fun h => ?_, fun h => ?_, fun h => ?_⟩ <;> simp only [List.mem_cons, List.not_mem_nil, or_false] at h
  · rw [← k1]; rcases h with rfl | rfl | rfl | rfl | rfl | rfl | rfl <;> rfl
  · rw [← k2]; rcases h with rfl | rfl | rfl | rfl | rfl | rfl | rfl | rfl | rfl <;> rfl
  · rw [← k3]; rcases h with rfl | rfl <;> rfl

/-- C54 for adjectives: the second variant in the masculine short form, the third in the comparative. -/
theorem C54_adjective (wdinfo : Nat) (h : wdinfo % 64 = 25) (fl : Nat) (f : AdjForm) :
    swapLevel wdinfo f.desc.gramm fl = if f = .comparative then 3 else if f = .decl false 0 7 then 2 else 1 := by
  have e : swapLevel wdinfo f.desc.gramm fl = adjLevel f.desc.gramm := by
    rw [swapLevel_eq]
    simp only [altLevel]
    generalize wdinfo % 64 = p at *
    subst h; rfl
  rw [e]; clear e
  cases f with
  | decl r g c => revert r g c; decide +kernel
  | comparative => rfl
  | adverb => rfl

/-- день - дня, окно - окон, вижу - видишь. -/
example : swapLevel 7 (NounForm.singular 0).desc.gramm 3 = 1 ∧ swapLevel 7 (NounForm.singular 1).desc.gramm 3 = 2 ∧
    swapLevel 16 (NounForm.plural 0).desc.gramm 3 = 1 ∧ swapLevel 16 (NounForm.plural 1).desc.gramm 3 = 2 ∧
    swapLevel 1 (VerbForm.present 0 false false).desc.gramm 3 = 2 ∧ swapLevel 1 (VerbForm.present 1 false false).desc.gramm 3 = 1 := by
  decide

end Libmorph
