import Verif.Props.C93Text
import Verif.Props.C81
/-
C81: the lines of any file.
-/
namespace Libmorph
open Spec
theorem fgetsOne_portion : ∀ (n : Nat) (s : List Byte), (fgetsOne n s).1 ++ (fgetsOne n s).2 = s ∧ (0 < n → s ≠ [] → (fgetsOne n s).1 ≠ []) ∧
    (fgetsOne n s).1.length ≤ n ∧ 10 ∉ (fgetsOne n s).1.dropLast ∧ ((fgetsOne n s).2 ≠ [] → (fgetsOne n s).1.getLast? = some 10 ∨ (fgetsOne n s).1.length = n)
  | 0, s => by simp [fgetsOne]
  | n + 1, [] => by simp [fgetsOne]
  | n + 1, c :: s => by
    obtain ⟨h1, h2, h3, h4, h5⟩ := fgetsOne_portion n s
    rw [fgetsOne]
    split
    · rename_i h; subst h; simp
    · rename_i h
      refine ⟨by simp [h1], by simp, by simp; omega, ?_, fun hr => ?_⟩
      · cases hx : (fgetsOne n s).1 with
        | nil => simp [hx]
        | cons y ys =>
          simp only [hx, List.dropLast_cons_cons, List.mem_cons, not_or]
          rw [hx] at h4
          exact ⟨fun hc => h hc.symm, h4⟩
      · rcases h5 hr with h5 | h5
        · left
          rw [List.getLast?_cons, h5]; rfl
        · right; simp [h5]

theorem holesLines_portions (fuel : Nat) (file : List Byte) (hf : file.length ≤ fuel) :
    ∃ ps, Portions 0x3ff file ps ∧ holesLines fuel file = ps.map fun p => p.takeWhile (· ≠ 0) := by
  induction fuel generalizing file with
  | zero =>
    have : file = [] := List.length_eq_zero_iff.1 (by omega)
    subst this
    exact ⟨[], ⟨rfl, by simp, by simp, by simp⟩, rfl⟩
  | succ fuel ih =>
    rw [holesLines]
    split
    · rename_i h; subst h; exact ⟨[], ⟨rfl, by simp, by simp, by simp⟩, rfl⟩
    · rename_i h
      obtain ⟨h1, h2, h3, h4, h5⟩ := fgetsOne_portion 0x3ff file
      have h2 := h2 (by omega) h
      have hl := congrArg List.length h1
      rw [List.length_append] at hl
      have := List.length_pos_iff.2 h2
      obtain ⟨ps, k, e⟩ := ih (fgetsOne 0x3ff file).2 (by omega)
      refine ⟨_ :: ps, ⟨by rw [List.flatten_cons, k.all, h1], ?_, ?_, ?_⟩, by rw [e, List.map_cons]⟩
      · simp only [List.mem_cons, forall_eq_or_imp]; exact ⟨⟨h2, h3⟩, k.size⟩
      · simp only [List.mem_cons, forall_eq_or_imp]; exact ⟨h4, k.lines⟩
      · intro p hp
        cases ps with
        | nil => simp at hp
        | cons x xs =>
          rw [List.dropLast_cons_cons] at hp
          rcases List.mem_cons.1 hp with rfl | hp
          · refine h5 fun hc => ?_
            have := k.all
            rw [hc, List.flatten_cons] at this
            exact (k.size x (by simp)).1 (List.append_eq_nil_iff.1 this).1
          · exact k.full p hp

/-- **C81** The lines get-holes looks at, whatever the file: its portions of up to 0x3ff bytes, each up to its first zero byte. -/
theorem C81_file_lines (file : List Byte) : ∃ ps, Portions 0x3ff file ps ∧ (∀ qs, Portions 0x3ff file qs → qs = ps) ∧
    holesLines file.length file = ps.map fun p => p.takeWhile (· ≠ 0) := by
  obtain ⟨ps, h, e⟩ := holesLines_portions file.length file (Nat.le_refl _)
  exact ⟨ps, h, fun qs hq => hq.unique h, e⟩

/-- Two lines. -/
example : holesLines 5 [97, 10, 98, 0, 99] = [[97, 10], [98]] ∧ Portions 0x3ff [97, 10, 98, 0, 99] [[97, 10], [98, 0, 99]] :=
  ⟨by decide, ⟨by decide, by decide, by decide, by decide⟩⟩

end Libmorph
