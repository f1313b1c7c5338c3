import Verif.Lemmas.CapFit
/-
The capitalization analysis on words of any number of parts: what an answer, if there is one, says.
-/
namespace Libmorph

theorem capLoop_some (T : CharTab) (hT : T.Ok) (n : Nat) : ∀ (src : List Byte), src.length ≤ n →
    ∀ (room cd sch : Nat) (bv : Bool) (out o : List Byte) (cd' sch' : Nat) (bv' : Bool),
    capLoop T room src cd sch bv out = some (some (o, cd', sch', bv')) →
    src.length < room ∧ cd' = cd + dlmCount T src ∧ o = out ++ src.map T.lower := by
  induction n with
  | zero =>
    intro src hsrc room cd sch bv out o cd' sch' bv' h
    have : src = [] := List.length_eq_zero_iff.1 (by omega)
    subst this
    cases room with
    | zero => simp [capLoop] at h
    | succ room =>
      simp only [capLoop, Option.some.injEq, Prod.mk.injEq] at h
      simp [dlmCount, h.1, h.2.1]
  | succ n ih =>
    intro src hsrc room cd sch bv out o cd' sch' bv' h
    cases room with
    | zero => simp [capLoop] at h
    | succ room =>
    cases src with
    | nil =>
      simp only [capLoop, Option.some.injEq, Prod.mk.injEq] at h
      simp [dlmCount, h.1, h.2.1]
    | cons c src =>
      obtain ⟨h1, h2⟩ := capPart_eq T (room + 1) (c :: src) 0
      have hfa := firstPart_after T (c :: src)
      by_cases hfit : (firstPart T (c :: src)).length < room + 1
      · rw [capLoop_cons T room c src cd sch bv out _ _ _ _ (h2 hfit)] at h
        rw [if_neg (by omega)] at h
        split at h
        · simp at h
        · cases hA : afterPart T (c :: src) with
          | nil =>
            rw [hA, List.append_nil] at hfa
            have hnd := firstPart_nodlm T (c :: src)
            rw [hfa] at hnd hfit
            rw [hA, hfa] at h
            simp only at h
            have h := ih [] (by simp) _ _ _ _ _ _ _ _ _ h
            refine ⟨hfit, ?_, by simpa using h.2.2⟩
            have : dlmCount T (c :: src) = 0 := by
              simp only [dlmCount, List.length_eq_zero_iff, List.filter_eq_nil_iff, decide_eq_true_eq]
              exact hnd
            rw [this, h.2.1]; simp [dlmCount]
          | cons d src2 =>
            have hd := afterPart_head T (c :: src) hA
            rw [hA] at h hfa
            simp only at h
            have hd2 : T.ctype d = ctDlm := by simpa using hd
            rw [if_pos hd2] at h
            have hl : (firstPart T (c :: src)).length + (src2.length + 1) = (c :: src).length := by
              have := congrArg List.length hfa
              simpa only [List.length_append, List.length_cons] using this
            have h := ih src2 (by simp only [List.length_cons] at hl hsrc; omega) _ _ _ _ _ _ _ _ _ h
            have hnd := firstPart_nodlm T (c :: src)
            have h0 : ((firstPart T (c :: src)).filter fun c => T.ctype c = ctDlm) = [] := by
              simp only [List.filter_eq_nil_iff, decide_eq_true_eq]; exact hnd
            have hdl : dlmCount T (c :: src) = 1 + dlmCount T src2 := by
              have := congrArg (fun l => (List.filter (fun c => decide (T.ctype c = ctDlm)) l).length) hfa
              simp only [List.filter_append, h0, List.nil_append, List.filter_cons, hd2, decide_true, if_true,
                List.length_cons] at this
              rw [dlmCount, dlmCount, Nat.add_comm, this]
              simp only [List.filter_cons]
            refine ⟨by omega, by omega, ?_⟩
            have := congrArg (List.map T.lower) hfa
            rw [List.map_append, List.map_cons, hT.dlm d hd2] at this
            rw [h.2.2, ← this]
            simp
      · exfalso
        rw [capLoop_cons T room c src cd sch bv out (capPart T (room + 1) (c :: src) 0).1 (capPart T (room + 1) (c :: src) 0).2.1
          (capPart T (room + 1) (c :: src) 0).2.2.1 (capPart T (room + 1) (c :: src) 0).2.2.2 rfl] at h
        rw [h1, if_pos (by omega)] at h
        simp at h

/-- An answer, whatever the number of parts: the word fits, the copy is the lower-cased word, and a scheme
good for some demand has at most three parts. -/
theorem capGet_some (T : CharTab) (hT : T.Ok) (outlen : Nat) (hbuf : outlen ≤ 255) (w out : List Byte) (s : Nat)
    (h : capGet T outlen w = some (some (out, s))) :
    w.length < outlen ∧ out = w.map T.lower ∧ ∀ m, isGood (s % 65536) m = true → (wordParts T w).length ≤ 3 := by
  simp only [capGet, bind, Option.bind_eq_some_iff] at h
  obtain ⟨r, h1, h2⟩ := h
  cases r with
  | none => simp at h2
  | some r =>
    obtain ⟨o, cd, sch, bv⟩ := r
    simp only [pure, Option.some.injEq, Prod.mk.injEq] at h2
    obtain ⟨a1, a2, a3⟩ := capLoop_some T hT w.length w le_rfl _ _ _ _ _ _ _ _ _ h1
    refine ⟨a1, by rw [← h2.1, a3]; simp, ?_⟩
    intro m hm
    have hr := (isGood_range _ _ hm).2.2.1
    have hn := wordParts_length T w
    have hd : dlmCount T w ≤ w.length := by rw [dlmCount]; exact List.length_filter_le _ _
    have : (cd + 1) * 256 ≤ s % 65536 := by
      rw [← h2.2, show (65536 : Nat) = 2 ^ 16 from rfl, Nat.or_mod_two_pow, Nat.or_mod_two_pow]
      have h3 : ((cd + 1) <<< 8) % 2 ^ 32 % 2 ^ 16 = (cd + 1) * 256 := by
        rw [Nat.shiftLeft_eq]; omega
      rw [h3]
      exact le_trans Nat.right_le_or Nat.left_le_or
    omega

end Libmorph
