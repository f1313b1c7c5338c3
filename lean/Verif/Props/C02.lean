import Verif.Lemmas.Bytes
import Mathlib.Tactic.SplitIfs
/-! C02 — a lexeme id has one lookup key, shared by compiler and run-time. -/
namespace Libmorph

theorem lexkey_length_le (id : Nat) : (lexkey id).length ≤ 4 := by
  unfold lexkey; split_ifs <;> simp

theorem lexkey_lt (id : Nat) : ∀ b ∈ lexkey id, b < 256 := by
  intro b hb
  unfold lexkey at hb
  split_ifs at hb <;>
    simp only [List.mem_cons, List.not_mem_nil, or_false] at hb <;> omega

theorem lexkeybuf_eq {id : Nat} (h : id < 2 ^ 24) : lexkeybuf id = lexkey id := by
  unfold lexkeybuf lexkey
  simp [h]

/-- Different 32-bit ids have different run-time keys. -/
theorem C02_keys_distinct (a b : Nat) (ha : a < 2 ^ 32) (hb : b < 2 ^ 32) (h : lexkey a = lexkey b) :
    a = b := by
  unfold lexkey at h
  simp only [Nat.shiftRight_eq_div_pow] at h
  split_ifs at h <;>
    simp only [List.cons.injEq, and_true, and_false, reduceCtorEq] at h <;> omega

/-- The full statement: the compiler files every 32-bit id under the run-time key. -/
def C02_full : Prop := ∀ id, id < 2 ^ 32 → lexkeybuf id = lexkey id

/-- Ids below 2^24 are filed under the run-time key, and different ids under different keys.
Missing for the full statement: ids from 2^24 on (where it is false, see
`C02_counterexample`). -/
theorem C02_shared_key_partial (a b : Nat) (ha : a < 2 ^ 24) (hb : b < 2 ^ 24) :
    lexkeybuf a = lexkey a ∧ (lexkeybuf a = lexkeybuf b → a = b) := by
  refine ⟨lexkeybuf_eq ha, fun h => C02_keys_distinct a b (by omega) (by omega) ?_⟩
  rw [← lexkeybuf_eq ha, ← lexkeybuf_eq hb, h]

/-- The full statement is false of the code: the compiler drops one byte of ids from 2^24 on; such
an id is filed under a key the run-time never looks for, and two such ids can share a key. -/
theorem C02_counterexample :
    ¬ C02_full ∧ (∃ a b, a < 2 ^ 32 ∧ b < 2 ^ 32 ∧ a ≠ b ∧ lexkeybuf a = lexkeybuf b) ∧
    (∀ id, 2 ^ 24 ≤ id → id < 2 ^ 32 → lexkeybuf id ≠ lexkey id) := by
  refine ⟨fun h => ?_, ⟨0x01000000, 0x01010000, by decide, by decide, by decide, by decide⟩, ?_⟩
  · have := h 0x01020304 (by decide)
    revert this; decide
  · intro id h1 h2 h
    have := congrArg List.length h
    unfold lexkeybuf lexkey at this
    simp only [show ¬ id < 2 ^ 8 by omega, show ¬ id < 2 ^ 16 by omega, show ¬ id < 2 ^ 24 by omega] at this
    simp at this

example : lexkey 0x010000 = [1, 0, 0] ∧ lexkeybuf 0x010000 = [1, 0, 0] := by decide

end Libmorph
