import Verif.Spec.Cpp
import Batteries.Tactic.PermuteGoals
/-
A text of declarations that ends too early: it is not read, or it declares the first of the declarations.
-/
namespace Libmorph
open Spec

/-- Not a mark of punctuation. -/
def Soft : CTok → Prop
  | .punct _ => False
  | _ => True

/-- The first list is the second one cut somewhere; a word or a number may be cut in the middle. -/
inductive Cut : List CTok → List CTok → Prop
  | nil (ts : List CTok) : Cut [] ts
  | soft (t : CTok) (ts : List CTok) : Soft t → Cut [t] ts
  | cons (t : CTok) {a b : List CTok} : Cut a b → Cut (t :: a) (t :: b)

theorem afterBlock_prefix : ∀ (s r p : List Nat), afterBlock s = some r → p <+: s →
    afterBlock p = none ∨ ∃ q, afterBlock p = some q ∧ q <+: r
  | s, r, [], _, _ => Or.inl rfl
  | s, r, [c], _, _ => by
    left
    unfold afterBlock
    split
    · simp_all
    · rename_i e; simp at e; obtain ⟨_, rfl⟩ := e; rfl
    · rfl
  | s, r, c :: d :: p, h, hp => by
    obtain ⟨t, rfl⟩ := hp
    by_cases he : c = 42 ∧ d = 47
    · obtain ⟨rfl, rfl⟩ := he
      right
      have h' : some (p ++ t) = some r := h
      simp only [Option.some.injEq] at h'
      exact ⟨p, rfl, h' ▸ List.prefix_append p t⟩
    · have e1 : ∀ x, afterBlock (c :: d :: x) = afterBlock (d :: x) := by
        intro x
        rw [afterBlock.eq_def]
        split
        · rename_i e; simp at e; exact absurd ⟨e.1, e.2.1⟩ he
        · rename_i e; simp at e; rw [← e.2]
        · rename_i e; simp at e
      rw [List.cons_append, List.cons_append, e1] at h
      rw [e1]
      exact afterBlock_prefix _ r (d :: p) h (List.prefix_append (d :: p) t)

theorem afterLine_prefix : ∀ (s p : List Nat), p <+: s → afterLine p <+: afterLine s
  | s, [], _ => List.nil_prefix
  | s, c :: p, h => by
    obtain ⟨t, rfl⟩ := h
    rw [List.cons_append, afterLine, afterLine]
    split
    · exact List.prefix_append p t
    · exact afterLine_prefix _ p (List.prefix_append p t)

/-- A prefix of a text that begins with a run of characters: inside of the run, or with the whole run. -/
theorem prefix_while (f : Nat → Bool) : ∀ (s p : List Nat), p <+: s →
    (p.takeWhile f = p ∧ p.dropWhile f = []) ∨ (p.takeWhile f = s.takeWhile f ∧ p.dropWhile f <+: s.dropWhile f)
  | s, [], _ => Or.inl ⟨rfl, rfl⟩
  | s, c :: p, h => by
    obtain ⟨t, rfl⟩ := h
    rw [List.cons_append]
    cases hc : f c with
    | true =>
      simp only [List.takeWhile_cons, List.dropWhile_cons, hc, if_true]
      rcases prefix_while f (p ++ t) p (List.prefix_append p t) with ⟨h1, h2⟩ | ⟨h1, h2⟩
      · exact Or.inl ⟨by rw [h1], h2⟩
      · exact Or.inr ⟨by rw [h1], h2⟩
    | false =>
      right
      simp only [List.takeWhile_cons, List.dropWhile_cons, hc]
      exact ⟨rfl, List.prefix_append (c :: p) t⟩

/-- The tokens of a text that is cut. -/
theorem cTokens_prefix : ∀ (n : Nat) (s p : List Nat) (ts : List CTok), s.length ≤ n → cTokens s = some ts → p <+: s →
    cTokens p = none ∨ ∃ ts', cTokens p = some ts' ∧ Cut ts' ts := by
  intro n
  induction n with
  | zero =>
    intro s p ts hn hs hp
    have : p = [] := List.eq_nil_of_length_eq_zero (by have := hp.length_le; omega)
    subst this
    exact Or.inr ⟨[], by rw [cTokens], .nil _⟩
  | succ n ih =>
    intro s p ts hn hs hp
    cases p with
    | nil => exact Or.inr ⟨[], by rw [cTokens], .nil _⟩
    | cons c p =>
      obtain ⟨t, rfl⟩ := hp
      rw [List.cons_append] at hs
      rw [List.cons_append, List.length_cons] at hn
      have hpre : p <+: p ++ t := List.prefix_append p t
      rw [cTokens] at hs ⊢
      by_cases h1 : c = 32 ∨ c = 9 ∨ c = 10 ∨ c = 13
      · rw [if_pos h1] at hs ⊢
        exact ih _ p ts (by omega) hs hpre
      rw [if_neg h1] at hs ⊢
      cases p with
      | nil =>
        have e1 : ¬ (c = 47 ∧ ([] : List Nat).head? = some 42) := by simp
        have e2 : ¬ (c = 47 ∧ ([] : List Nat).head? = some 47) := by simp
        rw [if_neg e1, if_neg e2]
        by_cases hp2 : c ∈ [91, 93, 123, 125, 61, 44, 59]
        · rw [if_pos hp2]
          right
          have hc47 : c ≠ 47 := by intro e; subst e; revert hp2; decide
          rw [if_neg (fun h => hc47 h.1), if_neg (fun h => hc47 h.1), if_pos hp2] at hs
          cases hr : cTokens ([] ++ t) with
          | none => rw [hr] at hs; simp at hs
          | some r =>
            rw [hr] at hs
            simp at hs
            refine ⟨[.punct c], by rw [cTokens]; rfl, ?_⟩
            rw [← hs]
            exact .cons _ (.nil _)
        · have e3 : ¬ (c = 58 ∧ ([] : List Nat).head? = some 58) := by simp
          rw [if_neg hp2, if_neg e3]
          by_cases hd : isDecDigit c = true
          · rw [if_pos hd]
            simp only [List.takeWhile_nil, List.dropWhile_nil]
            cases literal [c] with
            | none => exact Or.inl rfl
            | some v =>
              right
              exact ⟨[.num v], by rw [cTokens]; rfl, .soft _ _ trivial⟩
          · rw [if_neg hd]
            by_cases hw : isWordChar c = true
            · rw [if_pos hw]
              right
              simp only [List.takeWhile_nil, List.dropWhile_nil]
              exact ⟨[.word [c]], by rw [cTokens]; rfl, .soft _ _ trivial⟩
            · rw [if_neg hw]; exact Or.inl rfl
      | cons d p =>
        have eh : ((d :: p) ++ t).head? = (d :: p).head? := rfl
        rw [eh] at hs
        by_cases h2 : c = 47 ∧ (d :: p).head? = some 42
        · rw [if_pos h2] at hs ⊢
          have et : ((d :: p) ++ t).tail = p ++ t := rfl
          split at hs
          · rename_i r hr
            rw [et] at hr
            have hlen := afterBlock_length _ hr
            rcases afterBlock_prefix _ r p hr (List.prefix_append p t) with hq | ⟨q, hq1, hq2⟩
            · left
              split
              · rename_i r' hr'
                rw [List.tail_cons, hq] at hr'
                exact absurd hr' (by simp)
              · rfl
            · have := ih r q ts (by rw [List.length_append] at hlen; simp at hn; omega) hs hq2
              split
              · rename_i r' hr'
                rw [List.tail_cons, hq1] at hr'
                simp only [Option.some.injEq] at hr'
                exact hr' ▸ this
              · exact Or.inl rfl
          · exact absurd hs (by simp)
        · rw [if_neg h2] at hs ⊢
          by_cases h3 : c = 47 ∧ (d :: p).head? = some 47
          · rw [if_pos h3] at hs ⊢
            have := afterLine_length (d :: p ++ t)
            exact ih _ _ ts (by omega) hs (afterLine_prefix _ _ hpre)
          · rw [if_neg h3] at hs ⊢
            by_cases h4 : c ∈ [91, 93, 123, 125, 61, 44, 59]
            · rw [if_pos h4] at hs ⊢
              cases hr : cTokens ((d :: p) ++ t) with
              | none => rw [hr] at hs; simp at hs
              | some r =>
                rw [hr] at hs
                simp at hs
                rcases ih _ _ r (by omega) hr hpre with h | ⟨ts', h, hcut⟩
                · left; rw [h]; rfl
                · right
                  refine ⟨_, by rw [h]; rfl, ?_⟩
                  rw [← hs]
                  exact .cons _ hcut
            · rw [if_neg h4] at hs ⊢
              by_cases h7 : c = 58 ∧ (d :: p).head? = some 58
              · rw [if_pos h7] at hs ⊢
                have et : ((d :: p) ++ t).tail = p ++ t := rfl
                rw [et] at hs
                rw [List.tail_cons]
                cases hr : cTokens (p ++ t) with
                | none => rw [hr] at hs; simp at hs
                | some r =>
                  rw [hr] at hs
                  simp at hs
                  rcases ih _ _ r (by simp at hn ⊢; omega) hr (List.prefix_append p t) with h | ⟨ts', h, hcut⟩
                  · left; rw [h]; rfl
                  · right
                    refine ⟨_, by rw [h]; rfl, ?_⟩
                    rw [← hs]
                    exact .cons _ hcut
              rw [if_neg h7] at hs ⊢
              have hdl := dropWhile_length isWordChar (d :: p ++ t)
              by_cases h5 : isDecDigit c = true
              · rw [if_pos h5] at hs ⊢
                rcases prefix_while isWordChar _ _ hpre with ⟨e1, e2⟩ | ⟨e1, e2⟩
                · rw [e1, e2]
                  cases literal (c :: d :: p) with
                  | none => exact Or.inl rfl
                  | some v => exact Or.inr ⟨[.num v], by rw [cTokens]; rfl, .soft _ _ trivial⟩
                · rw [e1]
                  cases hl : literal (c :: (d :: p ++ t).takeWhile isWordChar) with
                  | none => exact Or.inl rfl
                  | some v =>
                    rw [hl] at hs
                    cases hr : cTokens ((d :: p ++ t).dropWhile isWordChar) with
                    | none => rw [hr] at hs; simp at hs
                    | some r =>
                      rw [hr] at hs
                      simp at hs
                      rcases ih _ _ r (by omega) hr e2 with h | ⟨ts', h, hcut⟩
                      · left; rw [h]; rfl
                      · right
                        refine ⟨_, by rw [h]; rfl, ?_⟩
                        rw [← hs]
                        exact .cons _ hcut
              · rw [if_neg h5] at hs ⊢
                by_cases h6 : isWordChar c = true
                · rw [if_pos h6] at hs ⊢
                  rcases prefix_while isWordChar _ _ hpre with ⟨e1, e2⟩ | ⟨e1, e2⟩
                  · rw [e1, e2]
                    exact Or.inr ⟨[.word (c :: d :: p)], by rw [cTokens]; rfl, .soft _ _ trivial⟩
                  · rw [e1]
                    cases hr : cTokens ((d :: p ++ t).dropWhile isWordChar) with
                    | none => rw [hr] at hs; simp at hs
                    | some r =>
                      rw [hr] at hs
                      simp at hs
                      rcases ih _ _ r (by omega) hr e2 with h | ⟨ts', h, hcut⟩
                      · left; rw [h]; rfl
                      · right
                        refine ⟨_, by rw [h]; rfl, ?_⟩
                        rw [← hs]
                        exact .cons _ hcut
                · rw [if_neg h6] at hs
                  exact absurd hs (by simp)

theorem cItems_cut : ∀ (ts : List CTok) (vs : List Nat) (rest : List CTok), cItems ts = some (vs, rest) → ∀ ts', Cut ts' ts →
    cItems ts' = none ∨ ∃ rest', cItems ts' = some (vs, rest') ∧ Cut rest' rest := by
  intro ts
  induction ts using cItems.induct with
  | case1 v ts =>
    intro vs rest h ts' hc
    rw [cItems] at h
    simp only [Option.some.injEq, Prod.mk.injEq] at h
    obtain ⟨rfl, rfl⟩ := h
    cases hc with
    | nil => exact Or.inl rfl
    | soft t _ ht => cases t <;> exact Or.inl rfl
    | cons _ hc =>
      cases hc with
      | nil => exact Or.inl rfl
      | soft t _ ht =>
        cases t with
        | punct c => exact ht.elim
        | _ => exact Or.inl rfl
      | cons _ hc => exact Or.inr ⟨_, rfl, hc⟩
  | case2 v ts =>
    intro vs rest h ts' hc
    rw [cItems] at h
    simp only [Option.some.injEq, Prod.mk.injEq] at h
    obtain ⟨rfl, rfl⟩ := h
    cases hc with
    | nil => exact Or.inl rfl
    | soft t _ ht => cases t <;> exact Or.inl rfl
    | cons _ hc =>
      cases hc with
      | nil => exact Or.inl rfl
      | soft t _ ht =>
        cases t with
        | punct c => exact ht.elim
        | _ => exact Or.inl rfl
      | cons _ hc =>
        cases hc with
        | nil => exact Or.inl rfl
        | soft t _ ht =>
          cases t with
          | punct c => exact ht.elim
          | _ => exact Or.inl rfl
        | cons _ hc => exact Or.inr ⟨_, rfl, hc⟩
  | case3 v ts hne ih =>
    intro vs rest h ts' hc
    rw [cItems] at h
    · cases hr : cItems ts with
      | none => rw [hr] at h; simp at h
      | some r =>
        rw [hr] at h
        simp only [Option.map_some, Option.some.injEq, Prod.mk.injEq] at h
        obtain ⟨h1, h2⟩ := h
        cases hc with
        | nil => exact Or.inl rfl
        | soft t _ ht => cases t <;> exact Or.inl rfl
        | cons _ hc =>
          cases hc with
          | nil => exact Or.inl rfl
          | soft t _ ht =>
            cases t with
            | punct c => exact ht.elim
            | _ => exact Or.inl rfl
          | @cons _ a _ hc =>
            have hne' : ∀ x, a = .punct 125 :: x → False := by
              intro x hx
              subst hx
              cases hc with
              | soft _ _ ht => exact ht.elim
              | cons _ hc => exact hne _ rfl
            have e : cItems (.num v :: .punct 44 :: a) = (cItems a).map fun r => (v :: r.1, r.2) := by
              rw [cItems]; exact hne'
            rw [e]
            rcases ih r.1 r.2 hr a hc with h | ⟨rest', h, hcut⟩
            · left; rw [h]; rfl
            · right
              refine ⟨rest', by rw [h]; simp [h1], ?_⟩
              rw [← h2]; exact hcut
    · exact hne
  | case4 ts h1 h2 h3 =>
    intro vs rest h
    rw [cItems] at h
    · simp at h
    · exact h1
    · exact h2
    · exact h3

theorem cPath_cut : ∀ (ts : List CTok) (names : List (List Nat)) (rest : List CTok), cPath ts = some (names, rest) → ∀ ts', Cut ts' ts →
    cPath ts' = none ∨ ∃ rest', cPath ts' = some (names, rest') ∧ Cut rest' rest := by
  intro ts
  induction ts using cPath.induct with
  | case1 name ts =>
    intro names rest h ts' hc
    rw [cPath] at h
    simp only [Option.some.injEq, Prod.mk.injEq] at h
    obtain ⟨rfl, rfl⟩ := h
    cases hc with
    | nil => exact Or.inl rfl
    | soft t _ ht => cases t <;> exact Or.inl rfl
    | cons _ hc =>
      cases hc with
      | nil => exact Or.inl rfl
      | soft t _ ht =>
        cases t with
        | punct c => exact ht.elim
        | _ => exact Or.inl rfl
      | cons _ hc => exact Or.inr ⟨_, rfl, hc⟩
  | case2 name ts ih =>
    intro names rest h ts' hc
    rw [cPath] at h
    cases hr : cPath ts with
    | none => rw [hr] at h; simp at h
    | some r =>
      rw [hr] at h
      simp only [Option.map_some, Option.some.injEq, Prod.mk.injEq] at h
      obtain ⟨h1, h2⟩ := h
      cases hc with
      | nil => exact Or.inl rfl
      | soft t _ ht => cases t <;> exact Or.inl rfl
      | cons _ hc =>
        cases hc with
        | nil => exact Or.inl rfl
        | soft t _ ht =>
          cases t with
          | punct c => exact ht.elim
          | _ => exact Or.inl rfl
        | @cons _ a _ hc =>
          rw [cPath]
          rcases ih r.1 r.2 hr a hc with h | ⟨rest', h, hcut⟩
          · left; rw [h]; rfl
          · right
            refine ⟨rest', by rw [h]; simp [h1], ?_⟩
            rw [← h2]; exact hcut
  | case3 ts h1 h2 =>
    intro names rest h
    rw [cPath] at h
    · simp at h
    · exact h1
    · exact h2

theorem cDecls_word (n : Nat) (scope : List (List (List Nat))) (w : List Nat) (ts : List CTok) : cDecls (n + 1) scope (.word w :: ts) =
      if w = [110, 97, 109, 101, 115, 112, 97, 99, 101] then
        match cPath ts with
        | some (names, ts) => cDecls n (scope ++ [names]) ts
        | none => none
      else if w = [117, 110, 115, 105, 103, 110, 101, 100] then
        match ts with
        | .word name :: .punct 61 :: .num v :: .punct 59 :: ts =>
          if v < 2 ^ 32 then (cDecls n scope ts).map (⟨scope.flatten, name, 32, false, [v]⟩ :: ·) else none
        | .word name :: .punct 91 :: .punct 93 :: .punct 61 :: .punct 123 :: ts =>
          match cItems ts with
          | some (vs, .punct 59 :: ts) => if ∀ v ∈ vs, v < 2 ^ 32 then (cDecls n scope ts).map (⟨scope.flatten, name, 32, true, vs⟩ :: ·) else none
          | _ => none
        | .word w :: .word name :: .punct 91 :: .punct 93 :: .punct 61 :: .punct 123 :: ts =>
          if w = [99, 104, 97, 114] then
            match cItems ts with
            | some (vs, .punct 59 :: ts) => if ∀ v ∈ vs, v < 256 then (cDecls n scope ts).map (⟨scope.flatten, name, 8, true, vs⟩ :: ·) else none
            | _ => none
          else none
        | _ => none
      else none := rfl

/-- Tokens that are cut declare nothing, or the first declarations. -/
theorem cDecls_cut : ∀ (n : Nat) (scope : List (List (List Nat))) (ts : List CTok) (ds : List CDecl), cDecls n scope ts = some ds →
    ∀ (m : Nat) (ts' : List CTok), Cut ts' ts → cDecls m scope ts' = none ∨ ∃ j, cDecls m scope ts' = some (ds.take j) := by
  intro n
  induction n with
  | zero => intro scope ts ds h; simp [cDecls] at h
  | succ n ih =>
    intro scope ts ds h m ts' hc
    cases m with
    | zero => exact Or.inl rfl
    | succ m =>
    cases hc with
    | nil =>
      rw [cDecls]
      by_cases hs : scope = []
      · rw [if_pos hs]; exact Or.inr ⟨0, rfl⟩
      · rw [if_neg hs]; exact Or.inl rfl
    | soft t _ ht =>
      cases t with
      | punct c => exact ht.elim
      | num v => exact Or.inl rfl
      | word w =>
        left
        show (if w = [110, 97, 109, 101, 115, 112, 97, 99, 101] then (none : Option (List CDecl))
          else if w = [117, 110, 115, 105, 103, 110, 101, 100] then none else none) = none
        simp
    | @cons t a b hc =>
      cases t with
      | num v => simp [cDecls] at h
      | punct c =>
        by_cases hcc : c = 125
        · subst hcc
          rw [cDecls] at h ⊢
          split at h
          · simp at h
          · rename_i hs
            rw [if_neg hs]
            exact ih _ _ _ h m _ hc
        · rw [cDecls] at h
          · simp at h
          · simp
          · intro ts e; simp at e; exact hcc e.1
          · simp
      | word w =>
        rw [cDecls_word] at h ⊢
        by_cases hw : w = [110, 97, 109, 101, 115, 112, 97, 99, 101]
        · rw [if_pos hw] at h ⊢
          split at h
          · rename_i names rest hpa
            rcases cPath_cut _ _ _ hpa _ hc with hi | ⟨rest', hi, hcut⟩
            · left; rw [hi]
            · rw [hi]; exact ih _ _ _ h m _ hcut
          · simp at h
        · rw [if_neg hw] at h ⊢
          by_cases hu : w = [117, 110, 115, 105, 103, 110, 101, 100]
          swap
          · rw [if_neg hu] at h; simp at h
          rw [if_pos hu] at h ⊢
          split at h
          · -- a number
            rename_i name v rest
            split at h
            swap
            · simp at h
            rename_i hv
            cases hr : cDecls n scope rest with
            | none => rw [hr] at h; simp at h
            | some r =>
              rw [hr] at h
              simp at h
              cases hc with
              | nil => exact Or.inl rfl
              | soft t _ ht => cases t <;> exact Or.inl rfl
              | cons _ hc =>
                cases hc with
                | nil => exact Or.inl rfl
                | soft t _ ht =>
                  cases t with
                  | punct c => exact ht.elim
                  | _ => exact Or.inl rfl
                | cons _ hc =>
                  cases hc with
                  | nil => exact Or.inl rfl
                  | soft t _ ht => cases t <;> exact Or.inl rfl
                  | cons _ hc =>
                    cases hc with
                    | nil => exact Or.inl rfl
                    | soft t _ ht =>
                      cases t with
                      | punct c => exact ht.elim
                      | _ => exact Or.inl rfl
                    | cons _ hc =>
                      simp only [if_pos hv]
                      rcases ih _ _ _ hr m _ hc with h' | ⟨j, h'⟩
                      · left; rw [h']; rfl
                      · right; exact ⟨j + 1, by rw [h', ← h]; rfl⟩
          · -- an array of unsigned
            rename_i name rest
            split at h
            swap
            · simp at h
            rename_i vs rest2 hit
            split at h
            swap
            · simp at h
            rename_i hv
            cases hr : cDecls n scope rest2 with
            | none => rw [hr] at h; simp at h
            | some r =>
              rw [hr] at h
              simp at h
              cases hc with
              | nil => exact Or.inl rfl
              | soft t _ ht => cases t <;> exact Or.inl rfl
              | cons _ hc =>
                cases hc with
                | nil => exact Or.inl rfl
                | soft t _ ht =>
                  cases t with
                  | punct c => exact ht.elim
                  | _ => exact Or.inl rfl
                | cons _ hc =>
                  cases hc with
                  | nil => exact Or.inl rfl
                  | soft t _ ht =>
                    cases t with
                    | punct c => exact ht.elim
                    | _ => exact Or.inl rfl
                  | cons _ hc =>
                    cases hc with
                    | nil => exact Or.inl rfl
                    | soft t _ ht =>
                      cases t with
                      | punct c => exact ht.elim
                      | _ => exact Or.inl rfl
                    | cons _ hc =>
                      cases hc with
                      | nil => exact Or.inl rfl
                      | soft t _ ht =>
                        cases t with
                        | punct c => exact ht.elim
                        | _ => exact Or.inl rfl
                      | cons _ hc =>
                        rename_i a5
                        change (match cItems a5 with
                          | some (vs, .punct 59 :: ts) =>
                            if ∀ v ∈ vs, v < 2 ^ 32 then (cDecls m scope ts).map (⟨scope.flatten, name, 32, true, vs⟩ :: ·) else none
                          | _ => none) = none ∨ ∃ j, (match cItems a5 with
                          | some (vs, .punct 59 :: ts) =>
                            if ∀ v ∈ vs, v < 2 ^ 32 then (cDecls m scope ts).map (⟨scope.flatten, name, 32, true, vs⟩ :: ·) else none
                          | _ => none) = some (ds.take j)
                        rcases cItems_cut _ _ _ hit _ hc with hi | ⟨rest', hi, hcut⟩
                        · left; rw [hi]
                        · rw [hi]
                          cases hcut with
                          | nil => exact Or.inl rfl
                          | soft t _ ht =>
                            cases t with
                            | punct c => exact ht.elim
                            | _ => exact Or.inl rfl
                          | cons _ hcut =>
                            rename_i a7
                            change (if ∀ v ∈ vs, v < 2 ^ 32 then (cDecls m scope a7).map (⟨scope.flatten, name, 32, true, vs⟩ :: ·) else none) = none ∨
                              ∃ j, (if ∀ v ∈ vs, v < 2 ^ 32 then (cDecls m scope a7).map (⟨scope.flatten, name, 32, true, vs⟩ :: ·) else none) = some (ds.take j)
                            rw [if_pos hv]
                            rcases ih _ _ _ hr m _ hcut with h' | ⟨j, h'⟩
                            · left; rw [h']; rfl
                            · right; exact ⟨j + 1, by rw [h', ← h]; rfl⟩
          · -- an array of bytes
            rename_i w2 name rest
            split at h
            swap
            · simp at h
            rename_i hw2
            split at h
            swap
            · simp at h
            rename_i vs rest2 hit
            split at h
            swap
            · simp at h
            rename_i hv
            cases hr : cDecls n scope rest2 with
            | none => rw [hr] at h; simp at h
            | some r =>
              rw [hr] at h
              simp at h
              cases hc with
              | nil => exact Or.inl rfl
              | soft t _ ht => cases t <;> exact Or.inl rfl
              | cons _ hc =>
               cases hc with
               | nil => exact Or.inl rfl
               | soft t _ ht => cases t <;> first | exact Or.inl rfl | exact ht.elim
               | cons _ hc =>
                cases hc with
                | nil => exact Or.inl rfl
                | soft t _ ht =>
                  cases t with
                  | punct c => exact ht.elim
                  | _ => exact Or.inl rfl
                | cons _ hc =>
                  cases hc with
                  | nil => exact Or.inl rfl
                  | soft t _ ht =>
                    cases t with
                    | punct c => exact ht.elim
                    | _ => exact Or.inl rfl
                  | cons _ hc =>
                    cases hc with
                    | nil => exact Or.inl rfl
                    | soft t _ ht =>
                      cases t with
                      | punct c => exact ht.elim
                      | _ => exact Or.inl rfl
                    | cons _ hc =>
                      cases hc with
                      | nil => exact Or.inl rfl
                      | soft t _ ht =>
                        cases t with
                        | punct c => exact ht.elim
                        | _ => exact Or.inl rfl
                      | cons _ hc =>
                        rename_i a6
                        change (if w2 = [99, 104, 97, 114] then (match cItems a6 with
                          | some (vs, .punct 59 :: ts) =>
                            if ∀ v ∈ vs, v < 256 then (cDecls m scope ts).map (⟨scope.flatten, name, 8, true, vs⟩ :: ·) else none
                          | _ => none) else none) = none ∨ ∃ j, (if w2 = [99, 104, 97, 114] then (match cItems a6 with
                          | some (vs, .punct 59 :: ts) =>
                            if ∀ v ∈ vs, v < 256 then (cDecls m scope ts).map (⟨scope.flatten, name, 8, true, vs⟩ :: ·) else none
                          | _ => none) else none) = some (ds.take j)
                        rw [if_pos hw2]
                        rcases cItems_cut _ _ _ hit _ hc with hi | ⟨rest', hi, hcut⟩
                        · left; rw [hi]
                        · rw [hi]
                          cases hcut with
                          | nil => exact Or.inl rfl
                          | soft t _ ht =>
                            cases t with
                            | punct c => exact ht.elim
                            | _ => exact Or.inl rfl
                          | cons _ hcut =>
                            rename_i a7
                            change (if ∀ v ∈ vs, v < 256 then (cDecls m scope a7).map (⟨scope.flatten, name, 8, true, vs⟩ :: ·) else none) = none ∨
                              ∃ j, (if ∀ v ∈ vs, v < 256 then (cDecls m scope a7).map (⟨scope.flatten, name, 8, true, vs⟩ :: ·) else none) = some (ds.take j)
                            rw [if_pos hv]
                            rcases ih _ _ _ hr m _ hcut with h' | ⟨j, h'⟩
                            · left; rw [h']; rfl
                            · right; exact ⟨j + 1, by rw [h', ← h]; rfl⟩
          · simp at h

/-- The beginning of a text that compiles does not compile, or declares the first declarations of the text. -/
theorem cRead_prefix {text cut : List Nat} {ds : List CDecl} (h : cRead text = some ds) (hp : cut <+: text) :
    cRead cut = none ∨ ∃ j, cRead cut = some (ds.take j) := by
  rw [cRead] at h
  cases ht : cTokens text with
  | none => rw [ht] at h; simp at h
  | some ts =>
    rw [ht] at h
    rw [cRead]
    rcases cTokens_prefix _ _ _ _ (Nat.le_refl _) ht hp with h1 | ⟨ts', h1, hc⟩
    · left; rw [h1]; rfl
    · rw [h1]
      exact cDecls_cut _ _ _ _ h _ _ hc

end Libmorph
