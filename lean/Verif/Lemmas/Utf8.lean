import Verif.Spec.Utf8
namespace Libmorph

theorem utf8Dec_enc (b : Byte) (hb : utf8Known b) (l : List Byte) : utf8Dec (utf8Enc b ++ l) = (utf8Dec l).map (b :: ·) := by
  by_cases h1 : b < 128
  · simp only [utf8Enc, if_pos h1, List.singleton_append]
    rw [utf8Dec.eq_def]
    simp only [if_pos h1]
  · have h2 : b = 0xa8 ∨ b = 0xb8 ∨ (0xc0 ≤ b ∧ b ≤ 0xff) := by
      rcases hb with h | h
      · exact absurd h h1
      · exact h
    have h3 : cyrPoint b / 64 = 16 ∨ cyrPoint b / 64 = 17 := by
      simp only [cyrPoint]
      split
      · omega
      · split
        · omega
        · omega
    have h4 : cyrByte (cyrPoint b) = some b := by
      simp only [cyrPoint]
      split
      · subst_vars; rfl
      · split
        · subst_vars; rfl
        · rw [cyrByte, if_neg (by omega), if_neg (by omega), if_pos (by omega)]
          congr 1; omega
    simp only [utf8Enc, if_neg h1, if_pos h2, List.cons_append, List.nil_append]
    have h5 : ¬ 0xc0 + cyrPoint b / 64 < 128 := by omega
    rw [utf8Dec.eq_def]
    simp only [if_neg h5]
    rw [show (0xc0 + cyrPoint b / 64 - 0xc0) * 64 + (0x80 + cyrPoint b % 64 - 0x80) = cyrPoint b by omega, h4]
    rfl

theorem utf8Dec_inPage (w : List Byte) (hw : ∀ b ∈ w, utf8Known b) : utf8Dec (inPage utf8Enc w) = some w := by
  induction w with
  | nil => rfl
  | cons b w ih =>
    have : inPage utf8Enc (b :: w) = utf8Enc b ++ inPage utf8Enc w := rfl
    rw [this, utf8Dec_enc b (hw b (by simp)), ih fun b hb => hw b (by simp [hb])]
    rfl

/-- UTF-8 meets the contract. -/
theorem utf8Page_ok : utf8Page.Ok utf8Enc utf8Known where
  into_room n w hw hl := by simp [utf8Page, utf8Dec_inPage w hw, Nat.le_of_lt hl]
  into_some n w t hw h := by
    simp only [utf8Page, utf8Dec_inPage w hw, Option.bind_some] at h
    split at h
    · cases h; exact ⟨rfl, by assumption⟩
    · cases h
  from_room n p h := by simp [utf8Page, h]
  from_some n p k o h := by
    simp only [utf8Page] at h
    split at h
    · cases h
      exact ⟨rfl, .inr rfl, by simp; omega⟩
    · split at h
      · cases h
        exact ⟨rfl, .inl rfl, by omega⟩
      · cases h
  zero := rfl
  code b hb := by
    simp only [utf8Enc]
    split
    · simp [Ne.symm hb]
    · split
      · simp; omega
      · simp

end Libmorph
