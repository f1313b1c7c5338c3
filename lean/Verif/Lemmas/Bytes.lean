import Verif.Model.Bytes
namespace Libmorph

theorem putserial_len (n : Nat) : (putserial n).length = serialLen n := by
  fun_induction putserial n with
  | case1 n h => rw [serialLen]; simp [h]
  | case2 n h ih => rw [serialLen]; simp [h, ih]

theorem or_shift_eq_add {acc m k : Nat} (h : acc < 2 ^ k) : acc ||| (m <<< k) = acc + m * 2 ^ k := by
  rw [Nat.shiftLeft_eq, Nat.or_comm, Nat.mul_comm, ← Nat.two_pow_add_eq_or_of_lt h, Nat.add_comm]

/-- The loop reads back what `putserial` wrote, on top of the bits already accumulated. -/
theorem getserialLoop_putserial (n : Nat) (k acc : Nat) (tl : List Byte)
    (hacc : acc < 2 ^ (7 * k)) (hn : n * 2 ^ (7 * k) + acc < 2 ^ 32) (hk : n = 0 → k = 0) :
    getserialLoop (putserial n ++ tl) k acc = some (n * 2 ^ (7 * k) + acc, tl) := by
  have hk32 : 7 * k < 32 := by
    rcases Nat.eq_zero_or_pos n with h0 | hpos
    · simp [hk h0]
    · have : 2 ^ (7 * k) < 2 ^ 32 := by
        calc 2 ^ (7 * k) ≤ n * 2 ^ (7 * k) := Nat.le_mul_of_pos_left _ hpos
          _ < 2 ^ 32 := by omega
      exact (Nat.pow_lt_pow_iff_right (by omega)).1 this
  fun_induction putserial n generalizing k acc with
  | case1 n h =>
    have h1 : n % 128 = n := Nat.mod_eq_of_lt h
    have h2 : ¬ 128 ≤ n := by omega
    have h3 : (n <<< (7 * k)) % 2 ^ 32 = n <<< (7 * k) := by
      apply Nat.mod_eq_of_lt; rw [Nat.shiftLeft_eq]; omega
    simp only [List.cons_append, List.nil_append, getserialLoop]
    rw [if_neg (by omega), h1, h3, or_shift_eq_add hacc, if_neg h2]
    simp [Nat.add_comm]
  | case2 n h ih =>
    have hm : (n % 128 + 128) % 128 = n % 128 := by omega
    have hdm := Nat.div_add_mod n 128
    have hpow : 2 ^ (7 * (k + 1)) = 128 * 2 ^ (7 * k) := by
      rw [show 7 * (k + 1) = 7 + 7 * k by omega, Nat.pow_add]
    have hsum : n * 2 ^ (7 * k) = (n / 128) * (128 * 2 ^ (7 * k)) + (n % 128) * 2 ^ (7 * k) := by
      conv => lhs; rw [← hdm]
      rw [Nat.add_mul, Nat.mul_comm 128 (n / 128), Nat.mul_assoc]
    have hlt : (n % 128) * 2 ^ (7 * k) < 2 ^ 32 := by omega
    have h3 : ((n % 128) <<< (7 * k)) % 2 ^ 32 = (n % 128) <<< (7 * k) := by
      apply Nat.mod_eq_of_lt; rw [Nat.shiftLeft_eq]; exact hlt
    have hq : n / 128 ≠ 0 := by omega
    have hacc' : acc + n % 128 * 2 ^ (7 * k) < 2 ^ (7 * (k + 1)) := by
      rw [hpow]
      have : n % 128 * 2 ^ (7 * k) ≤ 127 * 2 ^ (7 * k) := Nat.mul_le_mul_right _ (by omega)
      omega
    have hn' : n / 128 * 2 ^ (7 * (k + 1)) + (acc + n % 128 * 2 ^ (7 * k)) < 2 ^ 32 := by
      rw [hpow]; omega
    have hn'' : n / 128 * 2 ^ (7 * (k + 1)) < 2 ^ 32 := by omega
    simp only [List.cons_append, getserialLoop]
    rw [if_neg (by omega), hm, h3, or_shift_eq_add hacc, if_pos (by omega)]
    rw [ih (k + 1) _ hacc' hn' (fun h => absurd h hq) ?_, hpow]
    · congr 2; omega
    · have : 2 ^ (7 * (k + 1)) < 2 ^ 32 := by
        calc 2 ^ (7 * (k + 1)) ≤ n / 128 * 2 ^ (7 * (k + 1)) := Nat.le_mul_of_pos_left _ (by omega)
          _ < 2 ^ 32 := hn''
      exact (Nat.pow_lt_pow_iff_right (by omega)).1 this

theorem getserial_putserial {n : Nat} (h : n < 2 ^ 32) (tl : List Byte) :
    getserial (putserial n ++ tl) = some (n, tl) := by
  unfold getserial
  rw [getserialLoop_putserial n 0 0 tl (by decide) (by simpa using h) (fun _ => rfl)]
  simp

theorem getword16_putword16 {w : Nat} (h : w < 2 ^ 16) (tl : List Byte) :
    getword16 (putword16 w ++ tl) = some (w, tl) := by
  simp only [putword16, List.cons_append, List.nil_append, getword16]
  rw [or_shift_eq_add (k := 8) (by omega)]
  congr 2
  omega

theorem getword16_append {p q : List Byte} {w : Nat} {r : List Byte}
    (h : getword16 p = some (w, r)) : getword16 (p ++ q) = some (w, r ++ q) := by
  match p with
  | [] => simp [getword16] at h
  | [_] => simp [getword16] at h
  | lo :: hi :: p =>
    simp only [getword16, Option.some.injEq, Prod.mk.injEq] at h
    simp only [List.cons_append, getword16]
    rw [h.1, h.2]

theorem and_two_pow_if (n i : Nat) : n &&& 2 ^ i = if n.testBit i then 2 ^ i else 0 := by
  apply Nat.eq_of_testBit_eq
  intro j
  rw [Nat.testBit_and, Nat.testBit_two_pow]
  by_cases h : i = j
  · subst h
    cases n.testBit i <;> simp
  · cases hb : n.testBit i <;> simp [h]

theorem putserial_lt (n : Nat) : ∀ b ∈ putserial n, b < 256 := by
  fun_induction putserial n with
  | case1 n h => simp; omega
  | case2 n h ih =>
    intro b hb
    rcases List.mem_cons.1 hb with rfl | hb
    · omega
    · exact ih b hb

theorem putserial_ne_nil (n : Nat) : putserial n ≠ [] := by
  unfold putserial; split <;> simp

end Libmorph
