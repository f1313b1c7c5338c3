import Verif.Model.Holes
import Verif.Spec.Holes
import Mathlib.Data.Nat.Bitwise
import Mathlib.Tactic.ByContra
namespace Libmorph

/-- The bit of the number in the map. -/
def bitAt (map : List Nat) (n : Nat) : Bool := (map.getD (n / 32) 0).testBit (n % 32)

theorem and_shift_ne (v s : Nat) : (v &&& (1 <<< s) ≠ 0) ↔ v.testBit s = true := by
  rw [Nat.one_shiftLeft, Nat.and_two_pow]
  cases v.testBit s <;> simp

theorem and_shift_eq (v s : Nat) : (v &&& (1 <<< s) = 0) ↔ v.testBit s = false := by
  have := and_shift_ne v s
  cases h : v.testBit s <;> simp_all

theorem find_range_drop (p : Nat → Bool) (N : Nat) : ∀ (k f : Nat), N - f = k →
    match ((List.range N).drop f).find? p with
    | some s => f ≤ s ∧ s < N ∧ p s = true ∧ ∀ t, f ≤ t → t < s → p t = false
    | none => ∀ t, f ≤ t → t < N → p t = false := by
  intro k
  induction k with
  | zero =>
    intro f hf
    have : (List.range N).drop f = [] := by apply List.drop_eq_nil_of_le; simp; omega
    rw [this]
    simp only [List.find?_nil]
    intro t h1 h2; omega
  | succ k ih =>
    intro f hf
    have hlt : f < (List.range N).length := by simp; omega
    rw [List.drop_eq_getElem_cons hlt, List.find?_cons]
    simp only [List.getElem_range]
    cases hp : p f with
    | true => exact ⟨Nat.le_refl _, by omega, hp, by intro t h1 h2; omega⟩
    | false =>
      have := ih (f + 1) (by omega)
      revert this
      cases List.find? p ((List.range N).drop (f + 1)) with
      | none =>
        intro h t h1 h2
        by_cases e : t = f
        · exact e ▸ hp
        · exact h t (by omega) h2
      | some s =>
        rintro ⟨h1, h2, h3, h4⟩
        refine ⟨by omega, h2, h3, ?_⟩
        intro t g1 g2
        by_cases e : t = f
        · exact e ▸ hp
        · exact h4 t (by omega) g2

theorem zeroBit_some {v f s : Nat} (h : zeroBit v f = some s) :
    f ≤ s ∧ s < 32 ∧ v.testBit s = false ∧ ∀ t, f ≤ t → t < s → v.testBit t = true := by
  have := find_range_drop (fun s => decide (v &&& (1 <<< s) = 0)) 32 _ f rfl
  rw [zeroBit] at h
  rw [h] at this
  obtain ⟨h1, h2, h3, h4⟩ := this
  refine ⟨h1, h2, (and_shift_eq _ _).1 (by simpa using h3), fun t g1 g2 => ?_⟩
  have := h4 t g1 g2
  exact (and_shift_ne _ _).1 (by simpa using this)

theorem zeroBit_none {v f : Nat} (h : zeroBit v f = none) : ∀ t, f ≤ t → t < 32 → v.testBit t = true := by
  have := find_range_drop (fun s => decide (v &&& (1 <<< s) = 0)) 32 _ f rfl
  rw [zeroBit] at h
  rw [h] at this
  intro t g1 g2
  have := this t g1 g2
  exact (and_shift_ne _ _).1 (by simpa using this)

theorem testIfLexId_eq (map : List Nat) (n : Nat) : testIfLexId map n = bitAt map n := by
  rw [testIfLexId, bitAt]
  by_cases h : n / 32 < map.length
  · have := and_shift_ne (map.getD (n / 32) 0) (n % 32)
    cases hb : (map.getD (n / 32) 0).testBit (n % 32) <;> simp_all
  · have hz : map.getD (n / 32) 0 = 0 := by
      rw [List.getD_eq_getElem?_getD, List.getElem?_eq_none (by omega)]; rfl
    rw [hz]; simp [h]

/-- The map of a list of numbers. -/
structure MapOf (map : List Nat) (ids : List Nat) : Prop where
  word : ∀ v ∈ map, v < 2 ^ 32
  bits : ∀ n, bitAt map n = true ↔ n ∈ ids
  last : ∀ v, map.getLast? = some v → v ≠ 0

theorem MapOf.nil : MapOf [] [] := ⟨by simp, by intro n; simp [bitAt], by simp⟩

theorem getD_resize (map : List Nat) (n i : Nat) : (lexMapResize map n).getD i 0 = map.getD i 0 := by
  rw [lexMapResize, List.getD_eq_getElem?_getD, List.getD_eq_getElem?_getD]
  by_cases h : i < map.length
  · rw [List.getElem?_append_left h]
  · rw [List.getElem?_append_right (by omega), List.getElem?_eq_none (l := map) (by omega)]
    by_cases h2 : i - map.length < n - map.length
    · rw [List.getElem?_replicate]; simp [h2]
    · rw [List.getElem?_eq_none (by simp; omega)]

theorem insertLexId_eq (map : List Nat) (lex : Nat) :
    insertLexId map lex =
      (if bitAt map lex then (if map.length ≤ lex / 32 then lexMapResize map (lex / 32 + 1) else map, true)
       else ((if map.length ≤ lex / 32 then lexMapResize map (lex / 32 + 1) else map).set (lex / 32)
          (map.getD (lex / 32) 0 ||| 1 <<< (lex % 32)), false)) := by
  have hg : (if map.length ≤ lex / 32 then lexMapResize map (lex / 32 + 1) else map).getD (lex / 32) 0 =
      map.getD (lex / 32) 0 := by
    split
    · exact getD_resize _ _ _
    · rfl
  rw [insertLexId]
  simp only [hg]
  have := and_shift_ne (map.getD (lex / 32) 0) (lex % 32)
  rw [bitAt]
  cases hb : (map.getD (lex / 32) 0).testBit (lex % 32) <;> simp_all

theorem insertLexId_bit {map ids : List Nat} (hm : MapOf map ids) (lex : Nat) :
    (insertLexId map lex).2 = decide (lex ∈ ids) := by
  rw [insertLexId_eq]
  have := hm.bits lex
  cases hb : bitAt map lex <;> simp_all

theorem insertLexId_map {map ids : List Nat} (hm : MapOf map ids) (lex : Nat) :
    MapOf (insertLexId map lex).1 (lex :: ids) := by
  rw [insertLexId_eq]
  have hb := hm.bits lex
  cases hbit : bitAt map lex with
  | true =>
    have hlt : lex / 32 < map.length := by
      by_contra hc
      rw [bitAt, List.getD_eq_getElem?_getD, List.getElem?_eq_none (by omega)] at hbit
      simp at hbit
    simp only [if_true]
    rw [if_neg (by omega)]
    refine ⟨hm.word, fun n => ?_, hm.last⟩
    rw [hm.bits n, List.mem_cons]
    constructor
    · exact Or.inr
    · rintro (h | h)
      · exact h ▸ hb.1 hbit
      · exact h
  | false =>
    simp only [Bool.false_eq_true, if_false]
    generalize hM : (if map.length ≤ lex / 32 then lexMapResize map (lex / 32 + 1) else map) = M
    have hlen : lex / 32 < M.length := by
      rw [← hM]; split
      · rw [lexMapResize, List.length_append, List.length_replicate]; omega
      · omega
    have hMg : ∀ i, M.getD i 0 = map.getD i 0 := by
      intro i; rw [← hM]; split
      · exact getD_resize _ _ _
      · rfl
    have hMw : ∀ v ∈ M, v < 2 ^ 32 := by
      intro v hv
      rw [← hM] at hv
      split at hv
      · rw [lexMapResize, List.mem_append, List.mem_replicate] at hv
        rcases hv with hv | hv
        · exact hm.word v hv
        · rw [hv.2]; decide
      · exact hm.word v hv
    have hset : ∀ i, (M.set (lex / 32) (map.getD (lex / 32) 0 ||| 1 <<< (lex % 32))).getD i 0 =
        if i = lex / 32 then map.getD (lex / 32) 0 ||| 1 <<< (lex % 32) else map.getD i 0 := by
      intro i
      rw [List.getD_eq_getElem?_getD, List.getElem?_set]
      by_cases h : i = lex / 32
      · subst h; simp [hlen]
      · rw [if_neg (fun e => h e.symm), if_neg h, ← List.getD_eq_getElem?_getD, hMg]
    have hold : map.getD (lex / 32) 0 < 2 ^ 32 := by
      rw [List.getD_eq_getElem?_getD]
      cases hx : map[lex / 32]? with
      | none => simp
      | some v => exact hm.word v (List.mem_of_getElem? hx)
    refine ⟨?_, ?_, ?_⟩
    · intro v hv
      rcases List.mem_or_eq_of_mem_set hv with h | h
      · exact hMw v h
      · rw [h]
        apply Nat.or_lt_two_pow hold
        rw [Nat.one_shiftLeft]
        exact Nat.pow_lt_pow_right (by decide) (Nat.mod_lt _ (by decide))
    · intro n
      rw [List.mem_cons, ← hm.bits n, bitAt, hset, bitAt]
      by_cases h : n / 32 = lex / 32
      · rw [if_pos h, Nat.testBit_or, Nat.one_shiftLeft, Nat.testBit_two_pow, h]
        simp only [Bool.or_eq_true, decide_eq_true_eq]
        constructor
        · rintro (h' | h')
          · exact Or.inr h'
          · exact Or.inl (by omega)
        · rintro (h' | h')
          · exact Or.inr (by omega)
          · exact Or.inl h'
      · rw [if_neg h]
        constructor
        · exact Or.inr
        · rintro (h' | h')
          · exact absurd (by rw [h']) h
          · exact h'
    · intro v hv
      rw [List.getLast?_eq_getElem?, List.length_set] at hv
      rw [List.getElem?_set] at hv
      by_cases h : lex / 32 = M.length - 1
      · rw [if_pos h, if_pos hlen] at hv
        simp only [Option.some.injEq] at hv
        rw [← hv]
        intro h0
        have := congrArg (fun x => Nat.testBit x (lex % 32)) h0
        simp [Nat.testBit_or, Nat.one_shiftLeft, Nat.testBit_two_pow] at this
      · rw [if_neg h] at hv
        have : M = map := by
          rw [← hM]; rw [if_neg]
          intro hc
          rw [← hM, if_pos hc, lexMapResize, List.length_append, List.length_replicate] at h
          omega
        rw [this] at hv
        exact hm.last v (by rw [List.getLast?_eq_getElem?]; exact hv)

theorem find_range_rev (p : Nat → Bool) : ∀ N : Nat,
    match (List.range N).reverse.find? p with
    | some s => s < N ∧ p s = true ∧ ∀ t, s < t → t < N → p t = false
    | none => ∀ t, t < N → p t = false := by
  intro N
  induction N with
  | zero => simp
  | succ N ih =>
    rw [List.range_succ, List.reverse_append, List.reverse_singleton, List.singleton_append, List.find?_cons]
    cases hp : p N with
    | true => exact ⟨by omega, hp, by intro t h1 h2; omega⟩
    | false =>
      revert ih
      cases List.find? p (List.range N).reverse with
      | none =>
        intro h t h1
        by_cases e : t = N
        · exact e ▸ hp
        · exact h t (by omega)
      | some s =>
        rintro ⟨h1, h2, h3⟩
        refine ⟨by omega, h2, ?_⟩
        intro t g1 g2
        by_cases e : t = N
        · exact e ▸ hp
        · exact h3 t g1 (by omega)

theorem exists_testBit {v : Nat} (h0 : v ≠ 0) (h : v < 2 ^ 32) : ∃ t, t < 32 ∧ v.testBit t = true := by
  by_contra hc
  apply h0
  apply Nat.eq_of_testBit_eq
  intro i
  rw [Nat.zero_testBit]
  by_cases hi : i < 32
  · cases hb : v.testBit i with
    | false => rfl
    | true => exact absurd ⟨i, hi, hb⟩ hc
  · apply Nat.testBit_lt_two_pow
    exact Nat.lt_of_lt_of_le h (Nat.pow_le_pow_right (by decide) (by omega))

theorem getMin_spec : ∀ (map : List Nat) (k : Nat), (∀ v ∈ map, v < 2 ^ 32) →
    (getMinLexId map k = noLexId ∧ ∀ v ∈ map, v = 0) ∨
    ∃ i v, map[i]? = some v ∧ v ≠ 0 ∧ (∀ j, j < i → map.getD j 0 = 0) ∧
      getMinLexId map k = if v.testBit 0 then (k + i) * 32 % 2 ^ 32 else noLexId := by
  intro map
  induction map with
  | nil => intro k _; left; exact ⟨rfl, by simp⟩
  | cons v map ih =>
    intro k hw
    by_cases hv : v = 0
    · rw [getMinLexId, if_pos hv]
      rcases ih (k + 1) (fun x hx => hw x (List.mem_cons_of_mem _ hx)) with ⟨h1, h2⟩ | ⟨i, w, h1, h2, h3, h4⟩
      · left
        refine ⟨h1, ?_⟩
        intro x hx
        rcases List.mem_cons.1 hx with h | h
        · exact h ▸ hv
        · exact h2 x h
      · right
        refine ⟨i + 1, w, by simpa using h1, h2, ?_, ?_⟩
        · intro j hj
          cases j with
          | zero => simpa using hv
          | succ j => simpa using h3 j (by omega)
        · rw [h4, show k + 1 + i = k + (i + 1) by omega]
    · right
      refine ⟨0, v, rfl, hv, by omega, ?_⟩
      rw [getMinLexId, if_neg hv]
      have h1 : (v &&& 1 ≠ 0) ↔ v.testBit 0 = true := by simpa using and_shift_ne v 0
      cases hb : v.testBit 0 with
      | true =>
        have : (List.range 32).find? (fun _off => decide (v &&& 1 ≠ 0)) = some 0 := by
          simp only [decide_eq_true (h1.2 hb)]; rfl
        rw [this]; simp
      | false =>
        have hz : ¬ (v &&& 1 ≠ 0) := by rw [h1, hb]; simp
        have : (List.range 32).find? (fun _off => decide (v &&& 1 ≠ 0)) = none := by
          simp only [decide_eq_false hz]; rfl
        rw [this]; simp

theorem bitAt_lt {map : List Nat} {n : Nat} (h : bitAt map n = true) : n / 32 < map.length := by
  by_contra hc
  rw [bitAt, List.getD_eq_getElem?_getD, List.getElem?_eq_none (by omega)] at h
  simp at h

theorem bitAt_mk {map : List Nat} {i v t : Nat} (h : map[i]? = some v) (ht : t < 32) :
    bitAt map (i * 32 + t) = v.testBit t := by
  rw [bitAt, show (i * 32 + t) / 32 = i by omega, show (i * 32 + t) % 32 = t by omega, List.getD_eq_getElem?_getD, h]
  rfl

theorem MapOf.elem_pos {map ids : List Nat} (_hm : MapOf map ids) {n i : Nat} (hn : n ∈ ids) (hi : i = n / 32) :
    map.getD i 0 ≠ 0 := by
  intro h0
  have := (_hm.bits n).2 hn
  rw [bitAt, ← hi, h0] at this
  simp at this

/-- The smallest number, when its bit is the lowest of its element; otherwise "none". -/
theorem getMin_ids {map ids : List Nat} (hm : MapOf map ids) (hlt : ∀ n ∈ ids, n < 2 ^ 32) {m : Nat}
    (h : Spec.IsLeast ids m) : getMinLexId map 0 = if m % 32 = 0 then m else noLexId := by
  rcases getMin_spec map 0 hm.word with ⟨_, h2⟩ | ⟨i, v, h1, h2, h3, h4⟩
  · exfalso
    apply hm.elem_pos h.1 rfl
    rw [List.getD_eq_getElem?_getD]
    cases hx : map[m / 32]? with
    | none => rfl
    | some w => exact h2 w (List.mem_of_getElem? hx)
  · have hw : v < 2 ^ 32 := hm.word v (List.mem_of_getElem? h1)
    obtain ⟨t, ht, hbt⟩ := exists_testBit h2 hw
    have hid : i * 32 + t ∈ ids := (hm.bits _).1 (by rw [bitAt_mk h1 ht]; exact hbt)
    have hle := h.2 _ hid
    have hi : m / 32 = i := by
      have h5 : ¬ m / 32 < i := fun hc => hm.elem_pos h.1 rfl (h3 _ hc)
      omega
    rw [h4]
    have hm32 := hlt m h.1
    by_cases hb : m % 32 = 0
    · have : v.testBit 0 = true := by
        have := (hm.bits m).2 h.1
        rw [show m = i * 32 + 0 by omega, bitAt_mk h1 (by decide)] at this
        exact this
      rw [if_pos this, if_pos hb]
      omega
    · have : v.testBit 0 = false := by
        cases hx : v.testBit 0 with
        | false => rfl
        | true =>
          have := (hm.bits (i * 32 + 0)).1 (by rw [bitAt_mk h1 (by decide)]; exact hx)
          have := h.2 _ this
          omega
      rw [this, if_neg hb]; simp

theorem getMin_nil {map : List Nat} (hm : MapOf map []) : getMinLexId map 0 = noLexId := by
  rcases getMin_spec map 0 hm.word with ⟨h, _⟩ | ⟨i, v, h1, h2, _, _⟩
  · exact h
  · exfalso
    obtain ⟨t, ht, hbt⟩ := exists_testBit h2 (hm.word v (List.mem_of_getElem? h1))
    have := (hm.bits (i * 32 + t)).1 (by rw [bitAt_mk h1 ht]; exact hbt)
    simp at this

theorem MapOf.length {map ids : List Nat} (hm : MapOf map ids) {m : Nat} (h : Spec.IsLargest ids m) :
    map.length = m / 32 + 1 := by
  have h1 := bitAt_lt ((hm.bits m).2 h.1)
  have hne : map.length - 1 < map.length := by omega
  have hl : map.getLast? = some map[map.length - 1] := by
    rw [List.getLast?_eq_getElem?, List.getElem?_eq_getElem hne]
  have h2 := hm.last _ hl
  have hg : map[map.length - 1]? = some map[map.length - 1] := List.getElem?_eq_getElem hne
  obtain ⟨t, ht, hbt⟩ := exists_testBit h2 (hm.word _ (List.getElem_mem hne))
  have hid := (hm.bits ((map.length - 1) * 32 + t)).1 (by rw [bitAt_mk hg ht]; exact hbt)
  have := h.2 _ hid
  omega

theorem getMax_ids {map ids : List Nat} (hm : MapOf map ids) (hlt : ∀ n ∈ ids, n < 2 ^ 32) {m : Nat}
    (h : Spec.IsLargest ids m) : getMaxLexId map = m := by
  have hlen := hm.length h
  have hne : map.length - 1 < map.length := by omega
  obtain ⟨init, v, rfl⟩ : ∃ init v, map = init ++ [v] := by
    refine ⟨map.dropLast, map[map.length - 1], ?_⟩
    conv => lhs; rw [← List.take_append_drop (map.length - 1) map]
    rw [List.dropLast_eq_take, List.drop_eq_getElem_cons hne, show map.length - 1 + 1 = map.length by omega, List.drop_length]
  have hv0 : v ≠ 0 := hm.last v (by simp)
  have hi : init.length = m / 32 := by simpa using hlen
  have hget : (init ++ [v])[m / 32]? = some v := by rw [← hi]; simp
  rw [getMaxLexId, List.reverse_append, List.reverse_singleton, List.singleton_append, getMaxLexIdRev, if_neg hv0,
    List.length_reverse, hi]
  have hs := find_range_rev (fun off => decide (v &&& (1 <<< off) ≠ 0)) 32
  have hmv : v.testBit (m % 32) = true := by
    have := (hm.bits m).2 h.1
    rw [show m = m / 32 * 32 + m % 32 by omega, bitAt_mk hget (by omega)] at this
    exact this
  cases hf : (List.range 32).reverse.find? (fun off => decide (v &&& (1 <<< off) ≠ 0)) with
  | none =>
    rw [hf] at hs
    have := hs (m % 32) (by omega)
    rw [decide_eq_false_iff_not] at this
    exact absurd ((and_shift_ne _ _).2 hmv) this
  | some s =>
    rw [hf] at hs
    obtain ⟨h1, h2, h3⟩ := hs
    have hsv : v.testBit s = true := (and_shift_ne _ _).1 (by simpa using h2)
    have hid := (hm.bits (m / 32 * 32 + s)).1 (by rw [bitAt_mk hget h1]; exact hsv)
    have hle := h.2 _ hid
    have hge : ¬ s < m % 32 := by
      intro hc
      have := h3 (m % 32) hc (by omega)
      rw [decide_eq_false_iff_not] at this
      exact this ((and_shift_ne _ _).2 hmv)
    have := hlt m h.1
    show (s + m / 32 * 32) % 2 ^ 32 = m
    omega

end Libmorph
