import Verif.Lemmas.Bytes
/-! C01 — numbers stored in a compiled dictionary are read back unchanged. -/
namespace Libmorph

/-- Every 32-bit number and every 16-bit word is read back as written; the reader stops exactly at
the bytes `rest` that follow (any bytes whatever), and the number of bytes written is the number
the compiler announced. -/
theorem C01_numbers_read_back (n w : Nat) (hn : n < 2 ^ 32) (hw : w < 2 ^ 16) (rest : List Byte) :
    getserial (putserial n ++ rest) = some (n, rest) ∧
    getword16 (putword16 w ++ rest) = some (w, rest) ∧
    (putserial n).length = serialLen n ∧ (∀ b ∈ putserial n ++ putword16 w, b < 256) := by
  refine ⟨getserial_putserial hn rest, getword16_putword16 hw rest, putserial_len n, ?_⟩
  intro b hb
  rcases List.mem_append.1 hb with hb | hb
  · exact putserial_lt n b hb
  · simp only [putword16, List.mem_cons, List.not_mem_nil, or_false] at hb; omega

/-- Two different numbers never share an encoding, and no encoding is a prefix of another one. -/
theorem C01_prefix_free (m n : Nat) (hm : m < 2 ^ 32) (hn : n < 2 ^ 32) (r r' : List Byte)
    (h : putserial m ++ r = putserial n ++ r') : m = n ∧ r = r' := by
  have h1 := getserial_putserial hm r
  rw [h, getserial_putserial hn r'] at h1
  simp only [Option.some.injEq, Prod.mk.injEq] at h1
  exact ⟨h1.1.symm, h1.2.symm⟩

/-- Non-vacuity: a five byte number followed by other bytes. -/
example : getserial (putserial 4294967295 ++ [7, 200]) = some (4294967295, [7, 200]) :=
  (C01_numbers_read_back 4294967295 0 (by decide) (by decide) [7, 200]).1

example : putserial 300 = [172, 2] := by simp [putserial]

end Libmorph
