import Verif.Props.C93
import Verif.Props.C92
import Verif.Props.C55
/-
C93: the words of texts with long lines and zero bytes.
-/
namespace Libmorph
open Spec
/-- Reading with a buffer, by any function with the equations of the model's. -/
theorem fgets_portions (n : Nat) (hn0 : 0 < n) (f : List Byte → Nat → List Byte → List (List Byte))
    (f0 : ∀ r cur, f [] r cur = if cur = [] then [] else [cur])
    (f1 : ∀ c s r cur, f (c :: s) r cur = if c = 10 ∨ r ≤ 1 then (cur ++ [c]) :: f s n [] else f s (r - 1) (cur ++ [c]))
    (text cur : List Byte) (hn : 10 ∉ cur) (hl : cur.length < n) : Portions n (cur ++ text) (f text (n - cur.length) cur) := by
  induction text generalizing cur with
  | nil =>
    rw [f0, List.append_nil]
    split
    · rename_i h; subst h; exact ⟨rfl, by simp, by simp, by simp⟩
    · rename_i h
      refine ⟨by simp, by simp only [List.mem_singleton, forall_eq]; exact ⟨h, by omega⟩, ?_, by simp⟩
      simp only [List.mem_singleton, forall_eq]
      exact fun hc => hn ((List.dropLast_sublist _).subset hc)
  | cons c s ih =>
    rw [f1]
    have e : cur ++ c :: s = (cur ++ [c]) ++ s := by simp
    split
    · rename_i h
      obtain ⟨h1, h2, h3, h4⟩ := ih [] (by simp) (by simpa using hn0)
      simp only [List.length_nil, List.nil_append, Nat.sub_zero] at h1 h2 h3 h4
      refine ⟨by rw [e, List.flatten_cons, h1], ?_, ?_, ?_⟩
      · simp only [List.mem_cons, forall_eq_or_imp]
        exact ⟨⟨by simp, by simp; omega⟩, h2⟩
      · simp only [List.mem_cons, forall_eq_or_imp]
        exact ⟨by rw [List.dropLast_concat]; exact hn, h3⟩
      · have hc : (cur ++ [c]).getLast? = some 10 ∨ (cur ++ [c]).length = n := by
          rcases h with h | h
          · left; simp [h]
          · right; simp; omega
        intro p hp
        cases hL : f s n [] with
        | nil => rw [hL] at hp; simp at hp
        | cons x xs =>
          rw [hL, List.dropLast_cons_cons] at hp
          rcases List.mem_cons.1 hp with rfl | hp
          · exact hc
          · exact h4 p (by rw [hL]; exact hp)
    · rename_i h
      rw [not_or] at h
      have := ih (cur ++ [c]) (by simp [hn, Ne.symm h.1]) (by simp; omega)
      rw [e]
      simp only [List.length_append, List.length_singleton] at this
      rwa [Nat.sub_sub]

theorem pspLines_portions (text : List Byte) : Portions 0x3fff text (pspLines text 0x3fff []) :=
  fgets_portions 0x3fff (by omega) pspLines (fun _ _ => by rw [pspLines]) (fun _ _ _ _ => by rw [pspLines]) text [] (by simp) (by simp)

theorem portion_le {n : Nat} {p q : List Byte} {ps qs : List (List Byte)} {text : List Byte} (h : Spec.Portions n text (p :: ps))
    (k : Spec.Portions n text (q :: qs)) : q.length ≤ p.length := by
  refine Nat.le_of_not_lt fun hlt => ?_
  have e : p ++ ps.flatten = q ++ qs.flatten := by rw [← List.flatten_cons, ← List.flatten_cons, h.all, k.all]
  obtain ⟨r, hr⟩ : ∃ r, q = p ++ r := by
    have h1 : p <+: q ++ qs.flatten := ⟨_, e⟩
    exact (List.prefix_of_prefix_length_le h1 (List.prefix_append q _) (Nat.le_of_lt hlt)).imp fun _ x => x.symm
  have hr0 : r ≠ [] := by rintro rfl; simp at hr; rw [hr] at hlt; omega
  cases ps with
  | nil =>
    rw [hr, List.append_assoc] at e
    have := List.append_cancel_left e
    simp only [List.flatten_nil] at this
    exact hr0 (List.append_eq_nil_iff.1 this.symm).1
  | cons x xs =>
    rcases h.full p (by simp) with hp | hp
    · refine k.lines q (by simp) ?_
      rw [hr, List.dropLast_append_of_ne_nil hr0]
      exact List.mem_append_left _ (List.mem_of_getLast? hp)
    · have := (k.size q (by simp)).2
      omega

theorem Spec.Portions.tail {n : Nat} {p : List Byte} {ps : List (List Byte)} {text : List Byte} (h : Spec.Portions n (p ++ text) (p :: ps)) :
    Spec.Portions n text ps := by
  refine ⟨?_, fun x hx => h.size x (by simp [hx]), fun x hx => h.lines x (by simp [hx]), fun x hx => ?_⟩
  · have := h.all
    rw [List.flatten_cons] at this
    exact List.append_cancel_left this
  · cases ps with
    | nil => simp at hx
    | cons y ys => exact h.full x (by rw [List.dropLast_cons_cons]; simp [hx])

/-- The portions are determined by the text. -/
theorem Spec.Portions.unique {n : Nat} {text : List Byte} {ps qs : List (List Byte)} (h : Spec.Portions n text ps) (k : Spec.Portions n text qs) : ps = qs := by
  induction ps generalizing text qs with
  | nil =>
    have ht : text = [] := by simpa using h.all.symm
    cases qs with
    | nil => rfl
    | cons q qs =>
      have h1 := k.all
      rw [ht, List.flatten_cons] at h1
      exact absurd (List.append_eq_nil_iff.1 h1).1 (k.size q (by simp)).1
  | cons p ps ih =>
    cases qs with
    | nil =>
      have ht : text = [] := by simpa using k.all.symm
      have h1 := h.all
      rw [ht, List.flatten_cons] at h1
      exact absurd (List.append_eq_nil_iff.1 h1).1 (h.size p (by simp)).1
    | cons q qs =>
      have hl : p.length = q.length := Nat.le_antisymm (portion_le k h) (portion_le h k)
      have e : p ++ ps.flatten = q ++ qs.flatten := by rw [← List.flatten_cons, ← List.flatten_cons, h.all, k.all]
      obtain ⟨e1, e2⟩ := List.append_inj e hl
      subst e1
      have ht : text = p ++ ps.flatten := by rw [← List.flatten_cons, h.all]
      subst ht
      rw [ih h.tail k.tail]

/-- **C93** The words of any text at all, Russian: it is read in portions of up to 0x3fff bytes, each counts up to its first zero byte, and a word on the
border of two portions is two words. -/
theorem C93_any_text_russian (text : List Byte) : ∃ ps, Portions 0x3fff text ps ∧ (∀ qs, Portions 0x3fff text qs → qs = ps) ∧
    ∃ words : List Byte → List (List Byte), (∀ p ∈ ps, Cut (· ≤ 0xc0) (fun c => 0xc0 ≤ c ∨ c = 45) (p.takeWhile (· ≠ 0)) (words p)) ∧
      pspFile rusPsp text = (ps.flatMap words).filter fun w => 3 < w.length := by
  have h := pspLines_portions text
  refine ⟨_, h, fun qs hq => hq.unique h, ?_⟩
  choose f h1 h2 using fun p : List Byte => pspWordsN_cut rusPsp rusPsp_rest ((p.takeWhile (· ≠ 0)).length + 1) (p.takeWhile (· ≠ 0)) (by omega)
  refine ⟨f, fun p _ => by simpa [rusPsp] using h1 p, ?_⟩
  rw [List.filter_flatMap]
  exact List.flatMap_congr fun p _ => h2 p

/-- **C93** The same, English. -/
theorem C93_any_text_english (text : List Byte) : ∃ ps, Portions 0x3fff text ps ∧ (∀ qs, Portions 0x3fff text qs → qs = ps) ∧
    ∃ words : List Byte → List (List Byte), (∀ p ∈ ps, Cut (· < 0x41) (fun c => 0x41 ≤ c ∨ c = 45 ∨ c = 39) (p.takeWhile (· ≠ 0)) (words p)) ∧
      pspFile engPsp text = (ps.flatMap words).filter fun w => 3 < w.length := by
  have h := pspLines_portions text
  refine ⟨_, h, fun qs hq => hq.unique h, ?_⟩
  choose f h1 h2 using fun p : List Byte => pspWordsN_cut engPsp engPsp_rest ((p.takeWhile (· ≠ 0)).length + 1) (p.takeWhile (· ≠ 0)) (by omega)
  refine ⟨f, fun p _ => by simpa [engPsp, or_assoc] using h1 p, ?_⟩
  rw [List.filter_flatMap]
  exact List.flatMap_congr fun p _ => h2 p

/-- **C55**, **C60** The lines of a source file of the dictionary compilers, whatever the file: its portions of up to 0x3fe bytes, each converted up to its
first zero byte. -/
theorem C55_source_lines (conv : List Byte → List Byte) (file : List Byte) : ∃ ps, Portions 0x3fe file ps ∧ (∀ qs, Portions 0x3fe file qs → qs = ps) ∧
    sourceLines conv file = ps.map fun p => conv (p.takeWhile (· ≠ 0)) := by
  have h := fgets_portions 0x3fe (by omega) fgetsAll (fun _ _ => by rw [fgetsAll]) (fun _ _ _ _ => by rw [fgetsAll]) file [] (by simp) (by simp)
  exact ⟨_, h, fun qs hq => hq.unique h, rfl⟩

/-- **C92** The patterns the program wildcards is given, whatever its input: portions of up to 0xff bytes. -/
theorem C92_input_lines (input : List Byte) : Portions 0xff input (wildFgets input 0xff []) ∧ ∀ qs, Portions 0xff input qs → qs = wildFgets input 0xff [] := by
  have h := fgets_portions 0xff (by omega) wildFgets (fun _ _ => by rw [wildFgets]) (fun _ _ _ _ => by rw [wildFgets]) input [] (by simp) (by simp)
  exact ⟨h, fun qs hq => hq.unique h⟩

/-- Portions of two bytes: "abc", a line end, "d". -/
example : Portions 2 [97, 98, 99, 10, 100] [[97, 98], [99, 10], [100]] := ⟨by decide, by decide, by decide, by decide⟩
example : ¬ Portions 2 [97, 98, 99, 10, 100] [[97], [98, 99], [10], [100]] := fun h => by simpa using h.full [97] (by simp)

end Libmorph
