import Verif.Props.C15
namespace Libmorph

/-! ### Capitalization of a word against a demand -/

theorem mapM_kinds (T : CharTab) (l : List (List Byte)) :
    l.mapM (partKind T) = if ∀ p ∈ l, (partKind T p).isSome then some (l.map fun p => (partKind T p).getD 0) else none := by
  induction l with
  | nil => simp
  | cons p l ih =>
    rw [List.mapM_cons, ih]
    cases h : partKind T p with
    | none => simp [h]
    | some k =>
      simp only [List.mem_cons, forall_eq_or_imp, h, Option.isSome_some, true_and, List.map_cons, pure]
      by_cases hall : ∀ p ∈ l, (partKind T p).isSome = true
      · rw [if_pos hall, if_pos hall]; rfl
      · rw [if_neg hall, if_neg hall]; rfl

theorem checkedParts_cons (T : CharTab) (w : List Byte) (hne : w ≠ []) :
    checkedParts T w = if (wordParts T w).getLast? = some [] then (wordParts T w).dropLast else wordParts T w := by
  cases w with
  | nil => exact absurd rfl hne
  | cons c w => rfl

theorem spelling_length (T : CharTab) (w : List Byte) (ks : List Nat) (h : spelling T w = some ks) :
    ks.length = (wordParts T w).length := by
  simp only [spelling] at h
  split at h
  · rename_i hl
    rw [mapM_kinds] at h
    split at h
    · simp only [Option.map_some, Option.some.injEq] at h
      have := List.length_pos_iff.2 (wordParts_ne T w)
      rw [← h]; simp; omega
    · simp at h
  · rw [mapM_kinds] at h
    split at h
    · simp only [Option.some.injEq] at h; rw [← h]; simp
    · simp at h

theorem goodSpellings_length (d : Nat) (ks : List Nat) (h : ks ∈ goodSpellings d) : 1 ≤ ks.length ∧ ks.length ≤ 3 := by
  match d with
  | 0 => revert ks; decide
  | 1 => revert ks; decide
  | 2 => revert ks; decide
  | n + 3 => simp [goodSpellings] at h

theorem isGood_range (s m : Nat) (h : isGood s m = true) : m ≤ 2 ∧ 0x100 ≤ s ∧ s < 0x400 ∧ s % 256 ≠ 255 := by
  simp only [isGood, isGoodMin0, isGoodMin1, isGoodMin2] at h
  split at h
  · simp at h; omega
  · split at h
    · simp at h; omega
    · split at h
      · simp at h; omega
      · simp at h

theorem good1 : ∀ d ≤ 2, ∀ k1 ≤ 2, (isGood (1 * 256 + packKinds [k1]) d = true ↔ [k1] ∈ goodSpellings d) := by decide
theorem good2 : ∀ d ≤ 2, ∀ k1 ≤ 2, ∀ k2 ≤ 2,
    (isGood (2 * 256 + packKinds [k1, k2]) d = true ↔ [k1, k2] ∈ goodSpellings d) := by decide
theorem good2' : ∀ d ≤ 2, ∀ k1 ≤ 2, (isGood (2 * 256 + packKinds [k1]) d = true ↔ [k1, 0] ∈ goodSpellings d) := by decide
theorem good3 : ∀ d ≤ 2, ∀ k1 ≤ 2, ∀ k2 ≤ 2, ∀ k3 ≤ 2,
    (isGood (3 * 256 + packKinds [k1, k2, k3]) d = true ↔ [k1, k2, k3] ∈ goodSpellings d) := by
  intro d hd k1 h1
  interval_cases d <;> interval_cases k1 <;> decide
theorem good3' : ∀ d ≤ 2, ∀ k1 ≤ 2, ∀ k2 ≤ 2,
    (isGood (3 * 256 + packKinds [k1, k2]) d = true ↔ [k1, k2, 0] ∈ goodSpellings d) := by decide

theorem good_kinds (d : Nat) (hd : d ≤ 2) (ks : List Nat) (hk : ∀ k ∈ ks, k ≤ 2) (n : Nat) (hn : 1 ≤ n) (hn3 : n ≤ 3)
    (tail : Bool) (hl : ks.length + (if tail then 1 else 0) = n) (h1 : n = 1 → tail = false) :
    isGood (n * 256 + packKinds ks) d = true ↔ (ks ++ if tail then [0] else []) ∈ goodSpellings d := by
  match ks, tail with
  | [], false => simp at hl; omega
  | [], true => simp at hl; have := h1 (by omega); simp at this
  | [k1], false =>
    simp at hl; subst hl
    exact good1 d hd k1 (hk _ (by simp))
  | [k1], true =>
    simp at hl; subst hl
    exact good2' d hd k1 (hk _ (by simp))
  | [k1, k2], false =>
    simp at hl; subst hl
    exact good2 d hd k1 (hk _ (by simp)) k2 (hk _ (by simp))
  | [k1, k2], true =>
    simp at hl; subst hl
    exact good3' d hd k1 (hk _ (by simp)) k2 (hk _ (by simp))
  | [k1, k2, k3], false =>
    simp at hl; subst hl
    exact good3 d hd k1 (hk _ (by simp)) k2 (hk _ (by simp)) k3 (hk _ (by simp))
  | [k1, k2, k3], true => simp at hl; omega
  | k1 :: k2 :: k3 :: k4 :: ks, _ => simp at hl; omega

/-- The outcome of the analysis on a word shorter than the buffer, of at most eight parts. -/
theorem capGet_summary (T : CharTab) (hT : T.Ok) (outlen : Nat) (w : List Byte) (hne : w ≠ [])
    (hlen : w.length < outlen) (hbuf : outlen ≤ 2 ^ 16) (hparts : (wordParts T w).length ≤ 8) :
    ∃ s, capGet T outlen w = some (some (w.map T.lower, s)) ∧ s ≠ 0 ∧ s >>> 16 = w.length ∧
      (∀ d, d ≤ 2 → (isGood (s % 65536) d = true ↔ CapsFit T w d)) ∧
      (s % 256 = 255 → ∀ d, isGood (s % 65536) d = false) := by
  have hcp := checkedParts_cons T w hne
  have hcl : (checkedParts T w).length ≤ (wordParts T w).length := by
    rw [hcp]; split
    · rw [List.length_dropLast]; omega
    · exact Nat.le_refl _
  obtain ⟨sch, h1, h2⟩ := (capGet_value T hT outlen w (by omega)).2 hlen
  refine ⟨_, h1, ?_⟩
  have hpos := List.length_pos_iff.2 (wordParts_ne T w)
  have hwl := List.length_pos_iff.2 hne
  generalize hx : (if ((checkedParts T w).all fun p => (partKind T p).isSome) = true then sch else 0xff) = x
  have hkinds : (∀ p ∈ checkedParts T w, (partKind T p).isSome) →
      ∀ k ∈ (checkedParts T w).map (fun p => (partKind T p).getD 0), k ≤ 2 := by
    intro hall k hk
    obtain ⟨p, hp, rfl⟩ := List.mem_map.1 hk
    have := hall p hp
    cases hpk : partKind T p with
    | none => rw [hpk] at this; simp at this
    | some k => exact partKind_le T p k hpk
  have hxlt : x < 4 ^ (max 4 (checkedParts T w).length) := by
    rw [← hx]
    split
    · rename_i hb
      have hall : ∀ p ∈ checkedParts T w, (partKind T p).isSome := by simpa using hb
      have := packKinds_lt _ (hkinds hall)
      rw [List.length_map] at this
      rw [h2 hall]
      exact Nat.lt_of_lt_of_le this (Nat.pow_le_pow_right (by omega) (by omega))
    · exact Nat.lt_of_lt_of_le (show 0xff < 4 ^ 4 by norm_num) (Nat.pow_le_pow_right (by omega) (by omega))
  have hx16 : x < 2 ^ 16 := by
    refine Nat.lt_of_lt_of_le hxlt ?_
    rw [show (2 : Nat) ^ 16 = 4 ^ 8 by norm_num]
    exact Nat.pow_le_pow_right (by omega) (by omega)
  generalize hn : (wordParts T w).length = n at *
  have hy : ((n <<< 8) % 2 ^ 32 ||| x) < 2 ^ 16 := by
    refine Nat.or_lt_two_pow ?_ hx16
    rw [Nat.shiftLeft_eq]; omega
  have hval : ((w.length <<< 16) % 2 ^ 32) ||| ((n <<< 8) % 2 ^ 32) ||| x = w.length * 65536 + ((n <<< 8) % 2 ^ 32 ||| x) := by
    rw [Nat.or_assoc, Nat.shiftLeft_eq w.length 16, Nat.mod_eq_of_lt (by omega)]
    have := Nat.two_pow_add_eq_or_of_lt hy w.length
    rw [show w.length * 2 ^ 16 = 2 ^ 16 * w.length by omega, ← this]
    omega
  rw [hval]
  have hmod : (w.length * 65536 + ((n <<< 8) % 2 ^ 32 ||| x)) % 65536 = ((n <<< 8) % 2 ^ 32 ||| x) := by omega
  rw [hmod]
  refine ⟨by omega, ?_, ?_, ?_⟩
  · rw [Nat.shiftRight_eq_div_pow]; omega
  · intro d hd
    by_cases h3 : n ≤ 3
    · have hx8 : x < 256 := by
        have : max 4 (checkedParts T w).length = 4 := by omega
        rw [this] at hxlt; omega
      have hv : ((n <<< 8) % 2 ^ 32 ||| x) = n * 256 + x := by
        rw [Nat.shiftLeft_eq, Nat.mod_eq_of_lt (by omega)]
        have := Nat.two_pow_add_eq_or_of_lt (i := 8) (b := x) (by omega) n
        rw [show n * 2 ^ 8 = 2 ^ 8 * n by omega, ← this]; omega
      rw [hv]
      by_cases hall : ∀ p ∈ checkedParts T w, (partKind T p).isSome
      · have hb : ((checkedParts T w).all fun p => (partKind T p).isSome) = true := by simpa using hall
        rw [if_pos hb, h2 hall] at hx
        rw [← hx]
        have hsp : spelling T w = some (((checkedParts T w).map fun p => (partKind T p).getD 0) ++
            if decide ((wordParts T w).getLast? = some []) then [0] else []) := by
          simp only [spelling]
          rw [hcp] at hall ⊢
          split
          · rename_i hl
            rw [if_pos hl] at hall
            rw [mapM_kinds, if_pos hall]; simp [hl]
          · rename_i hl
            rw [if_neg hl] at hall
            rw [mapM_kinds, if_pos hall]; simp [hl]
        rw [good_kinds d hd _ (hkinds hall) n (by omega) h3 (decide ((wordParts T w).getLast? = some [])) ?_ ?_]
        · constructor
          · intro h; exact ⟨_, hsp, h⟩
          · rintro ⟨ks, h4, h5⟩; rw [hsp, Option.some.injEq] at h4; rw [h4]; exact h5
        · rw [List.length_map, hcp]
          by_cases hl : (wordParts T w).getLast? = some []
          · simp [hl]; omega
          · simp [hl]; omega
        · intro h1n
          rw [decide_eq_false_iff_not]
          intro hl
          rw [← hn] at h1n
          match hwp : wordParts T w, h1n with
          | [p], _ =>
            rw [hwp] at hl
            simp at hl
            subst hl
            cases w with
            | nil => exact hne rfl
            | cons c w =>
              simp only [wordParts] at hwp
              split at hwp
              · simp at hwp; exact wordParts_ne T w hwp
              · split at hwp <;> simp at hwp
      · have hb : ((checkedParts T w).all fun p => (partKind T p).isSome) = false := by
          rw [Bool.eq_false_iff]; simpa using hall
        rw [hb] at hx
        simp only [Bool.false_eq_true, if_false] at hx
        rw [← hx]
        constructor
        · intro h; have := isGood_range _ _ h; omega
        · rintro ⟨ks, h4, -⟩
          exfalso
          apply hall
          rw [hcp]
          simp only [spelling] at h4
          split at h4
          · rename_i hl
            rw [if_pos hl]
            rw [mapM_kinds] at h4
            split at h4
            · assumption
            · simp at h4
          · rename_i hl
            rw [if_neg hl]
            rw [mapM_kinds] at h4
            split at h4
            · assumption
            · simp at h4
    · constructor
      · intro h
        have h6 := isGood_range _ _ h
        have h7 : n * 256 ≤ ((n <<< 8) % 2 ^ 32 ||| x) := by
          refine Nat.le_trans ?_ Nat.left_le_or
          rw [Nat.shiftLeft_eq]; omega
        omega
      · rintro ⟨ks, h4, h5⟩
        have := spelling_length T w ks h4
        have := goodSpellings_length d ks h5
        omega
  · intro h255 d
    cases hg : isGood ((n <<< 8) % 2 ^ 32 ||| x) d with
    | false => rfl
    | true => have := isGood_range _ _ hg; omega

end Libmorph
