import Verif.Model.FuzzyCommands
import Verif.Spec.FuzzyCommands
import Verif.Lemmas.Commands
/-
compile-dict and dicdump as programs: lemmas.
-/
namespace Libmorph
open Spec

theorem cut_prefix (p : List Byte) (a : List Byte) : p.isPrefixOf a = true ↔ ∃ v, a = p ++ v := by
  rw [List.isPrefixOf_iff_prefix]
  exact ⟨fun ⟨v, h⟩ => ⟨v, h.symm⟩, fun ⟨v, h⟩ => ⟨v, h.symm⟩⟩

/-- The test and the value of a switch. -/
theorem nspace_switch {a : List Byte} (h : a.head? = some 45) :
    ((litBytes "ns=").isPrefixOf (a.drop 1) || (litBytes "nspace=").isPrefixOf (a.drop 1)) = true ↔ ∃ v, IsNamespace v a := by
  obtain ⟨b, rfl⟩ : ∃ b, a = 45 :: b := by
    cases a with
    | nil => simp at h
    | cons c b => simp at h; exact ⟨b, by rw [h]⟩
  rw [Bool.or_eq_true, cut_prefix, cut_prefix]
  have e1 : litBytes "-ns=" = 45 :: litBytes "ns=" := by decide
  have e2 : litBytes "-nspace=" = 45 :: litBytes "nspace=" := by decide
  unfold IsNamespace
  simp only [e1, e2, List.drop_succ_cons, List.drop_zero, List.cons_append, List.cons.injEq, true_and]
  constructor
  · rintro (⟨v, h⟩ | ⟨v, h⟩)
    · exact ⟨v, .inl h⟩
    · exact ⟨v, .inr h⟩
  · rintro ⟨v, h | h⟩
    · exact .inl ⟨v, h⟩
    · exact .inr ⟨v, h⟩

theorem nspace_value {a v : List Byte} (h : IsNamespace v a) : a.head? = some 45 ∧ ((a.drop 1).dropWhile (· ≠ 61)).drop 1 = v := by
  have e1 : litBytes "-ns=" = [45, 110, 115, 61] := by decide
  have e2 : litBytes "-nspace=" = [45, 110, 115, 112, 97, 99, 101, 61] := by decide
  rcases h with rfl | rfl
  · rw [e1]; simp [List.dropWhile]
  · rw [e2]; simp [List.dropWhile]

/-- A value is said by one switch only. -/
theorem nspace_unique {a v w : List Byte} (h : IsNamespace v a) (h' : IsNamespace w a) : v = w := (nspace_value h).2.symm.trans (nspace_value h').2

/-- What the loop makes of arguments it takes. -/
theorem compileArgs_takes : ∀ (args : List (List Byte)) (ns : List (List Byte)) (v : Option (List Byte)), (∀ a ∈ args, isSwitch a = true → ∃ v, IsNamespace v a) →
    (ns ++ namesOf args).length ≤ 2 →
    ∃ w, compileArgs args ⟨ns[0]?, ns[1]?, v⟩ = some ⟨(ns ++ namesOf args)[0]?, (ns ++ namesOf args)[1]?, w⟩ ∧
      ((∃ pre a post u, args = pre ++ a :: post ∧ IsNamespace u a ∧ (∀ b ∈ post, isSwitch b = false) ∧ w = some u) ∨ ((∀ b ∈ args, isSwitch b = false) ∧ w = v))
  | [], ns, v, _, _ => ⟨v, by simp [compileArgs, namesOf], .inr ⟨by simp, rfl⟩⟩
  | a :: args, ns, v, hs, hn => by
    rw [compileArgs]
    by_cases ha : a.head? = some 45
    · have e : namesOf (a :: args) = namesOf args := by rw [namesOf, List.filter_cons_of_neg (by simp [isSwitch, ha])]; rfl
      rw [e] at hn ⊢
      obtain ⟨u, hu⟩ := hs a (by simp) (by simp [isSwitch, ha])
      rw [if_pos ha, if_pos ((nspace_switch ha).2 ⟨u, hu⟩), (nspace_value hu).2]
      obtain ⟨w, h1, h2⟩ := compileArgs_takes args ns (some u) (fun b hb => hs b (by simp [hb])) hn
      refine ⟨w, h1, ?_⟩
      rcases h2 with ⟨pre, b, post, x, e1, e2, e3, e4⟩ | ⟨h2, rfl⟩
      · exact .inl ⟨a :: pre, b, post, x, by rw [e1]; rfl, e2, e3, e4⟩
      · exact .inl ⟨[], a, args, u, rfl, hu, h2, rfl⟩
    · have e : namesOf (a :: args) = a :: namesOf args := by rw [namesOf, List.filter_cons_of_pos (by simp [isSwitch, ha])]; rfl
      rw [e] at hn ⊢
      have ih := compileArgs_takes args (ns ++ [a]) v (fun b hb => hs b (by simp [hb])) (by simpa using hn)
      have hl : ns.length ≤ 1 := by simp at hn; omega
      rw [if_neg ha]
      have hfalse : isSwitch a = false := by simp [isSwitch, ha]
      have hgo : ∀ {w : Option (List Byte)} , ((∃ pre a post u, args = pre ++ a :: post ∧ IsNamespace u a ∧ (∀ b ∈ post, isSwitch b = false) ∧ w = some u) ∨
            ((∀ b ∈ args, isSwitch b = false) ∧ w = v)) →
          ((∃ pre b post u, a :: args = pre ++ b :: post ∧ IsNamespace u b ∧ (∀ b ∈ post, isSwitch b = false) ∧ w = some u) ∨
            ((∀ b ∈ a :: args, isSwitch b = false) ∧ w = v)) := by
        rintro w (⟨pre, b, post, x, e1, e2, e3, e4⟩ | ⟨h2, h3⟩)
        · exact .inl ⟨a :: pre, b, post, x, by rw [e1]; rfl, e2, e3, e4⟩
        · exact .inr ⟨by simpa [hfalse] using h2, h3⟩
      obtain ⟨w, h1, h2⟩ := ih
      refine ⟨w, ?_, hgo h2⟩
      rw [List.append_assoc, List.singleton_append] at h1
      rcases ns with _ | ⟨n, _ | ⟨n', ns⟩⟩
      · rw [if_pos (by rfl)]; exact h1
      · rw [if_neg (by simp), if_pos (by rfl)]; exact h1
      · simp at hl

/-- And of others. -/
theorem compileArgs_not : ∀ (args : List (List Byte)) (ns : List (List Byte)) (v : Option (List Byte)), ns.length ≤ 2 →
    ((∃ a ∈ args, isSwitch a = true ∧ ∀ v, ¬ IsNamespace v a) ∨ 2 < (ns ++ namesOf args).length) → compileArgs args ⟨ns[0]?, ns[1]?, v⟩ = none
  | [], ns, v, hl, h => by
    rcases h with ⟨a, ha, _⟩ | h
    · simp at ha
    · simp [namesOf] at h; omega
  | a :: args, ns, v, hl, h => by
    rw [compileArgs]
    by_cases ha : a.head? = some 45
    · have e : namesOf (a :: args) = namesOf args := by rw [namesOf, List.filter_cons_of_neg (by simp [isSwitch, ha])]; rfl
      rw [e] at h
      rw [if_pos ha]
      split
      · rename_i hp
        refine compileArgs_not args ns _ hl ?_
        rcases h with ⟨b, hb, h1, h2⟩ | h
        · rcases List.mem_cons.1 hb with rfl | hb
          · obtain ⟨u, hu⟩ := (nspace_switch ha).1 hp
            exact absurd hu (h2 u)
          · exact .inl ⟨b, hb, h1, h2⟩
        · exact .inr h
      · rfl
    · have e : namesOf (a :: args) = a :: namesOf args := by rw [namesOf, List.filter_cons_of_pos (by simp [isSwitch, ha])]; rfl
      rw [e] at h
      rw [if_neg ha]
      have h' : (∃ a ∈ args, isSwitch a = true ∧ ∀ v, ¬ IsNamespace v a) ∨ 2 < (ns ++ [a] ++ namesOf args).length := by
        rcases h with ⟨b, hb, h1, h2⟩ | h
        · rcases List.mem_cons.1 hb with rfl | hb
          · simp [isSwitch, ha] at h1
          · exact .inl ⟨b, hb, h1, h2⟩
        · exact .inr (by simpa using h)
      rcases ns with _ | ⟨n, _ | ⟨n', _ | ⟨x, ns⟩⟩⟩
      · rw [if_pos (by rfl)]; exact compileArgs_not args [a] v (by simp) h'
      · rw [if_neg (by simp), if_pos (by rfl)]; exact compileArgs_not args [n, a] v (by simp) h'
      · rw [if_neg (by simp), if_neg (by simp)]
      · simp at hl

theorem compileArgs_none {args : List (List Byte)} : compileArgs args {} = none ↔ ¬ CompileTakes args := by
  constructor
  · intro h ⟨h1, h2⟩
    obtain ⟨w, h3, -⟩ := compileArgs_takes args [] none h1 h2
    exact absurd (h.symm.trans h3) (by simp)
  · intro h
    refine compileArgs_not args [] none (by simp) ?_
    by_cases h1 : ∀ a ∈ args, isSwitch a = true → ∃ v, IsNamespace v a
    · refine .inr (Nat.lt_of_not_le fun h2 => h ⟨h1, by simpa using h2⟩)
    · refine .inl ?_
      by_contra hc
      exact h1 fun a ha hs => by
        by_contra hv
        exact hc ⟨a, ha, hs, fun v k => hv ⟨v, k⟩⟩

theorem compileArgs_call {args : List (List Byte)} {source output nspace : List Byte} (h : CompileCall args source output nspace) :
    ∃ v, compileArgs args {} = some ⟨some source, some output, v⟩ ∧ v.getD compileDefault = nspace := by
  obtain ⟨w, h1, h2⟩ := compileArgs_takes args [] none h.takes.switches h.takes.names
  rw [List.nil_append, h.names] at h1
  refine ⟨w, h1, ?_⟩
  rcases h2 with ⟨pre, a, post, u, e1, e2, e3, rfl⟩ | ⟨h2, rfl⟩
  · rcases h.nspaceIs with ⟨pre', a', post', e1', e2', e3'⟩ | ⟨k, -⟩
    · have : ∀ (pre pre' post post' : List (List Byte)) (a a' : List Byte), pre ++ a :: post = pre' ++ a' :: post' → isSwitch a = true → isSwitch a' = true →
          (∀ b ∈ post, isSwitch b = false) → (∀ b ∈ post', isSwitch b = false) → a = a' := by
        intro pre
        induction pre with
        | nil =>
          intro pre' post post' a a' e s1 s2 s3 s4
          cases pre' with
          | nil => simp at e; exact e.1
          | cons x pre' =>
            simp at e
            have := s3 a' (by rw [e.2]; simp)
            rw [s2] at this; simp at this
        | cons y pre ih =>
          intro pre' post post' a a' e s1 s2 s3 s4
          cases pre' with
          | nil =>
            simp at e
            have := s4 a (by rw [← e.2]; simp)
            rw [s1] at this; simp at this
          | cons x pre' =>
            simp at e
            exact ih pre' post post' a a' e.2 s1 s2 s3 s4
      have ea := this pre pre' post post' a a' (e1.symm.trans e1') ((isSwitch_iff a).2 (nspace_value e2).1) ((isSwitch_iff a').2 (nspace_value e2').1) e3 e3'
      subst ea
      exact nspace_unique e2 e2'
    · have := k a (by rw [e1]; simp)
      rw [(isSwitch_iff a).2 (nspace_value e2).1] at this; simp at this
  · rcases h.nspaceIs with ⟨pre', a', post', e1', e2', e3'⟩ | ⟨-, k⟩
    · have := h2 a' (by rw [e1']; simp)
      rw [(isSwitch_iff a').2 (nspace_value e2').1] at this; simp at this
    · rw [k]; rfl

/-- Fewer than two names. -/
theorem compileArgs_few {args : List (List Byte)} (h : CompileTakes args) (hn : (namesOf args).length < 2) : ∃ s v, compileArgs args {} = some ⟨s, none, v⟩ := by
  obtain ⟨w, h1, -⟩ := compileArgs_takes args [] none h.switches h.names
  rw [List.nil_append] at h1
  rw [List.getElem?_eq_none (l := namesOf args) (i := 1) (by omega)] at h1
  exact ⟨_, w, h1⟩

/-! ### dicdump -/

theorem diffLoop_mono : ∀ (n m : Nat) (d r : DiffState), n ≤ m → diffLoop n d = some r → diffLoop m d = some r
  | 0, m, d, r, _, h => by simp [diffLoop] at h
  | n + 1, 0, d, r, hm, h => by omega
  | n + 1, m + 1, d, r, hm, h => by
    rw [diffLoop] at h ⊢
    split
    · rename_i hc; rw [if_pos hc] at h; exact h
    · rename_i hc; rw [if_neg hc] at h; exact diffLoop_mono n m _ r (by omega) h

theorem dumpDiff_mono : ∀ (n m : Nat) (L R : List DumpLine) (out res : List DiffOut), n ≤ m → dumpDiff n L R out = some res → dumpDiff m L R out = some res
  | 0, m, L, R, out, res, _, h => by simp [dumpDiff] at h
  | n + 1, 0, L, R, out, res, hm, h => by omega
  | n + 1, m + 1, L, R, out, res, hm, h => by
    rw [dumpDiff] at h ⊢
    simp only at h ⊢
    split
    · rename_i hc; rw [if_pos hc] at h; exact h
    · rename_i hc
      rw [if_neg hc] at h
      split
      · rename_i he; rw [if_pos he] at h; exact dumpDiff_mono n m _ _ _ res (by omega) h
      · rename_i he
        rw [if_neg he] at h
        generalize hd : diffLoop n _ = r at h
        rcases r with _ | d
        · simp at h
        · rw [diffLoop_mono n m _ d (by omega) hd]
          simp only at h ⊢
          split
          · rename_i hv; rw [if_pos hv] at h; exact dumpDiff_mono n m _ _ _ res (by omega) h
          · rename_i hv; rw [if_neg hv] at h; exact h

end Libmorph
