import Verif.Lemmas.CapFit
import Verif.Lemmas.RusForms
import Verif.Spec.Fuzzy
/-
Capitals in the fuzzy analysers: the word whose spelling is no spelling, and the form printed in an array that is not
terminated.
-/
namespace Libmorph

theorem spelling_none (T : CharTab) (w : List Byte) (hne : w ≠ []) :
    spelling T w = none ↔ ¬ ∀ p ∈ checkedParts T w, (partKind T p).isSome := by
  have hcp := checkedParts_cons T w hne
  rw [hcp]
  simp only [spelling]
  split
  · rw [mapM_kinds]; split <;> simp_all
  · rw [mapM_kinds]; split <;> simp_all

theorem or_mod256 (a b c : Nat) : (((a <<< 16) % 2 ^ 32) ||| ((b <<< 8) % 2 ^ 32) ||| c) % 256 = c % 256 := by
  have h1 : ((a <<< 16) % 2 ^ 32) % 2 ^ 8 = 0 := by rw [Nat.shiftLeft_eq]; omega
  have h2 : ((b <<< 8) % 2 ^ 32) % 2 ^ 8 = 0 := by rw [Nat.shiftLeft_eq]; omega
  have : ∀ x y : Nat, (x ||| y) % 2 ^ 8 = x % 2 ^ 8 ||| y % 2 ^ 8 := fun x y => Nat.or_mod_two_pow
  rw [show (256 : Nat) = 2 ^ 8 by norm_num, this, this, h1, h2]
  simp

theorem packKinds_mod (ks : List Nat) (h : ∀ k ∈ ks, k ≤ 2) : packKinds ks % 256 ≠ 255 := by
  cases ks with
  | nil => simp [packKinds]
  | cons k ks => have := h k (by simp); rw [packKinds]; omega

/-- The mark for a word that has no spelling. -/
theorem capGet_bad (T : CharTab) (hT : T.Ok) (outlen : Nat) (w : List Byte) (hne : w ≠ [])
    (hlen : w.length < outlen) (hparts : (wordParts T w).length ≤ 8) {lo : List Byte} {s : Nat}
    (h : capGet T outlen w = some (some (lo, s))) : s % 256 = 255 ↔ spelling T w = none := by
  have hcp := checkedParts_cons T w hne
  have hcl : (checkedParts T w).length ≤ (wordParts T w).length := by
    rw [hcp]; split
    · rw [List.length_dropLast]; omega
    · exact Nat.le_refl _
  obtain ⟨sch, h1, h2⟩ := (capGet_value T hT outlen w (by omega)).2 hlen
  rw [h] at h1
  simp only [Option.some.injEq, Prod.mk.injEq] at h1
  rw [h1.2, or_mod256, spelling_none T w hne]
  by_cases hall : ∀ p ∈ checkedParts T w, (partKind T p).isSome
  · have hb : ((checkedParts T w).all fun p => (partKind T p).isSome) = true := by simpa using hall
    rw [if_pos hb, h2 hall]
    refine iff_of_false (packKinds_mod _ ?_) (not_not.2 hall)
    intro k hk
    obtain ⟨p, hp, rfl⟩ := List.mem_map.1 hk
    have := hall p hp
    cases hpk : partKind T p with
    | none => rw [hpk] at this; simp at this
    | some k => exact partKind_le T p k hpk
  · have hb : ((checkedParts T w).all fun p => (partKind T p).isSome) = false := by
      rw [Bool.eq_false_iff]; simpa using hall
    rw [hb]
    exact iff_of_true rfl hall

/-! ### Set on a string that something else follows -/

theorem applyCase_append (T : CharTab) (k : Nat) (p u : List Byte) :
    ∃ u', u'.length = u.length ∧ applyCase T k (p ++ u) = applyCase T k p ++ u' := by
  induction p generalizing k with
  | nil =>
    refine ⟨_, ?_, rfl⟩
    rw [List.nil_append]
    induction u generalizing k with
    | nil => rfl
    | cons c u ih => simp only [applyCase, List.length_cons, ih]
  | cons c p ih => obtain ⟨u', h1, hu⟩ := ih (k &&& 2); exact ⟨u', h1, by simp only [List.cons_append, applyCase, hu]⟩

/-- The first bytes are what they would be if a zero followed. -/
theorem setLoop_open (T : CharTab) (hT : T.Ok) (d : Byte) (hd : EndsWord T d) (u v tail : List Byte)
    (hu : ∀ c ∈ u, T.ctype c ≠ ctDlm ∧ c ≠ 0) (n : Nat) :
    ∀ (scheme : Nat) (w : List Byte), (∀ c ∈ w, c ≠ 0 ∧ c < 256) → (wordParts T w).length = n →
    ∃ w' x, w'.length = w.length ∧ setLoop T n scheme (w ++ 0 :: tail) = some (w' ++ 0 :: tail) ∧ x.length = u.length ∧
      setLoop T n scheme (w ++ (u ++ d :: v)) = some (w' ++ (x ++ d :: v)) := by
  have hd' : T.ctype d = ctDlm := by
    rcases hd with rfl | h
    · exact hT.zero
    · exact h
  have hlen : ∀ k (p : List Byte), (applyCase T k p).length = p.length := by
    intro k p
    induction p generalizing k with
    | nil => rfl
    | cons c p ih => simp only [applyCase, List.length_cons, ih]
  induction n with
  | zero =>
    intro scheme w _ hn
    rw [wordParts_length] at hn; omega
  | succ n ih =>
    intro scheme w hw hn
    have hnd := firstPart_nodlm T w
    have hsplit := firstPart_after T w
    have hFb : ∀ c ∈ firstPart T w, c ≠ 0 ∧ c < 256 := by
      intro c hc; apply hw; rw [← hsplit]; simp [hc]
    have hF0 : ∀ c ∈ firstPart T w, T.ctype c ≠ ctDlm ∧ c ≠ 0 := fun c hc => ⟨hnd c hc, (hFb c hc).1⟩
    rw [wordParts_eq T w] at hn
    generalize hA : afterPart T w = A at *
    cases A with
    | nil =>
      simp only [List.append_nil] at hsplit
      simp only [List.length_singleton] at hn
      have hn0 : n = 0 := by omega
      subst hn0
      rw [hsplit] at hF0
      have key : ∀ x t, T.ctype x = ctDlm → (∀ y : List Byte, (∀ c ∈ y, T.ctype c ≠ ctDlm ∧ c ≠ 0) →
          y ≠ [] → setLoop T 1 scheme (y ++ x :: t) = some (applyCase T (scheme &&& 3) y ++ x :: t)) := by
        intro x t hx y hy hne
        cases y with
        | nil => exact absurd rfl hne
        | cons c y =>
          have h1 := setPart_eq T (scheme &&& 3) (c :: y) x t hy (Or.inr hx)
          rw [List.cons_append] at h1 ⊢
          rw [setLoop, if_neg (hy c (by simp)).2, h1]
          simp only [Option.bind_eq_bind, Option.bind_some]
          rw [if_pos hx]
          simp [setLoop]
      cases w with
      | nil =>
        have hx : ∃ x, x.length = u.length ∧ setLoop T 1 scheme (u ++ d :: v) = some (x ++ d :: v) := by
          cases u with
          | nil =>
            rw [List.nil_append, setLoop]
            split
            · exact ⟨[], rfl, rfl⟩
            · rw [setPart, if_pos (Or.inr hd')]
              simp only [Option.bind_eq_bind, Option.bind_some]
              rw [if_pos hd']
              exact ⟨[], rfl, rfl⟩
          | cons c u => exact ⟨_, hlen _ _, key d v hd' (c :: u) hu (by simp)⟩
        obtain ⟨x, hxl, hx⟩ := hx
        exact ⟨[], x, rfl, by simp [setLoop], hxl, hx⟩
      | cons c w =>
        obtain ⟨u', hul, hu'⟩ := applyCase_append T (scheme &&& 3) (c :: w) u
        refine ⟨applyCase T (scheme &&& 3) (c :: w), u', hlen _ _, key 0 tail hT.zero _ hF0 (by simp), hul, ?_⟩
        have : ∀ z ∈ (c :: w) ++ u, T.ctype z ≠ ctDlm ∧ z ≠ 0 := by
          intro z hz
          rcases List.mem_append.1 hz with hz | hz
          · exact hF0 z hz
          · exact hu z hz
        rw [← List.append_assoc, key d v hd' _ this (by simp), hu', List.append_assoc]
    | cons e r =>
      have he : T.ctype e = ctDlm := afterPart_head T w hA
      simp only [List.length_cons] at hn
      have hr : ∀ c ∈ r, c ≠ 0 ∧ c < 256 := by
        intro c hc; apply hw; rw [← hsplit]; simp [hc]
      have he0 : e ≠ 0 ∧ e < 256 := by apply hw; rw [← hsplit]; simp
      obtain ⟨r', x, i0, i1, ix, i2⟩ := ih (scheme >>> 2) r hr (by omega)
      have key : ∀ t q, setLoop T n (scheme >>> 2) (r ++ t) = some (r' ++ q) →
          setLoop T (n + 1) scheme (w ++ t) = some (applyCase T (scheme &&& 3) (firstPart T w) ++ e :: r' ++ q) := by
        intro t q hq
        have h1 := setPart_eq T (scheme &&& 3) (firstPart T w) e (r ++ t) hF0 (Or.inr he)
        have hwe : w ++ t = firstPart T w ++ e :: (r ++ t) := by
          conv => lhs; rw [← hsplit]
          simp
        rw [hwe]
        cases hF : firstPart T w with
        | nil =>
          rw [hF] at h1
          rw [List.nil_append] at h1 ⊢
          rw [setLoop, if_neg he0.1, h1]
          simp only [Option.bind_eq_bind, Option.bind_some]
          rw [if_pos he, hq]; simp
        | cons c p =>
          rw [hF] at h1 hF0
          rw [List.cons_append] at h1 ⊢
          rw [setLoop, if_neg (hF0 c (by simp)).2, h1]
          simp only [Option.bind_eq_bind, Option.bind_some]
          rw [if_pos he, hq]; simp
      refine ⟨applyCase T (scheme &&& 3) (firstPart T w) ++ e :: r', x, ?_, key _ _ i1, ix, key _ _ i2⟩
      conv => rhs; rw [← hsplit]
      simp [hlen, i0]

/-- A list with an element that ends a word. -/
theorem exists_open (T : CharTab) (hT : T.Ok) {j : List Byte} (h : ∃ c ∈ j, EndsWord T c) :
    ∃ u d v, j = u ++ d :: v ∧ EndsWord T d ∧ ∀ c ∈ u, T.ctype c ≠ ctDlm ∧ c ≠ 0 := by
  induction j with
  | nil => obtain ⟨c, hc, -⟩ := h; simp at hc
  | cons c j ih =>
    by_cases hc : EndsWord T c
    · exact ⟨[], c, j, rfl, hc, by simp⟩
    · obtain ⟨u, d, v, h1, h2, h3⟩ := ih (by
        obtain ⟨x, hx, hx'⟩ := h
        rcases List.mem_cons.1 hx with rfl | hx
        · exact absurd hx' hc
        · exact ⟨x, hx, hx'⟩)
      refine ⟨c :: u, d, v, by rw [h1]; rfl, h2, ?_⟩
      intro x hx
      rcases List.mem_cons.1 hx with rfl | hx
      · simp only [EndsWord, not_or] at hc; exact ⟨hc.2, hc.1⟩
      · exact h3 x hx

/-- `Set` on a word that is not terminated, when something after it ends a word. -/
theorem capSet_open (w tail : List Byte) (d : Nat) (hd : d ≤ 2) (hw : Text w) (h : ∃ c ∈ tail, EndsWord rusTab c) :
    ∃ x, capSet rusTab (w ++ tail) w.length d = some (rusPrinted d w ++ x) ∧ (rusPrinted d w).length = w.length ∧
      ∀ n, (∃ c ∈ tail.drop n, EndsWord rusTab c) → ∃ c ∈ x.drop n, EndsWord rusTab c := by
  obtain ⟨h1, h2⟩ := capSet_rusPrinted w [] d hd hw
  obtain ⟨u, e, v, rfl, h3, h4⟩ := exists_open rusTab rusTab_ok h
  have hn : (wordParts rusTab w).length = 1 + ((w.filter fun b => rusTab.ctype b = ctDlm).length) := by
    rw [wordParts_length]; simp [dlmCount, Nat.add_comm]
  obtain ⟨w', x, k1, k2, kx, k3⟩ := setLoop_open rusTab rusTab_ok e h3 u v [] h4 _
    (capWord (wordParts rusTab w).length d) w hw rfl
  have key : ∀ t, capSet rusTab (w ++ t) w.length d = setLoop rusTab (wordParts rusTab w).length
      (capWord (wordParts rusTab w).length d) (w ++ t) := by
    intro t
    rw [capSet, if_neg (by simp), List.take_left, hn]
  rw [key, k2, Option.some.injEq] at h1
  have := List.append_inj_left' h1 rfl
  subst this
  refine ⟨x ++ e :: v, by rw [key, k3], h2, ?_⟩
  rintro n ⟨c, hc, hc'⟩
  by_cases hn : n ≤ u.length
  · refine ⟨e, ?_, h3⟩
    rw [List.drop_append_of_le_length (by omega)]
    simp
  · refine ⟨c, ?_, hc'⟩
    rw [List.drop_append, List.drop_of_length_le (by omega), List.nil_append] at hc ⊢
    rw [kx]; exact hc

/-- `Set` runs over the end when nothing ends the word. -/
theorem setLoop_undefined (T : CharTab) (w : List Byte) (hne : w ≠ []) (h : ∀ c ∈ w, ¬ EndsWord T c) (n s : Nat) :
    setLoop T (n + 1) s w = none := by
  have hp : ∀ k (w : List Byte), (∀ c ∈ w, ¬ EndsWord T c) → setPart T k w = none := by
    intro k w hw
    induction w generalizing k with
    | nil => rfl
    | cons c w ih =>
      rw [setPart, if_neg (by exact hw c (by simp)), ih _ fun c hc => hw c (by simp [hc])]; rfl
  cases w with
  | nil => exact absurd rfl hne
  | cons c w =>
    have := h c (by simp)
    simp only [EndsWord, not_or] at this
    rw [setLoop, if_neg this.1, hp _ _ h]; rfl

end Libmorph
