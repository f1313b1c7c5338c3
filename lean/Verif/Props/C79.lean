import Verif.Lemmas.DicDump
/-
C79: the control dump of the dictionary, lang-rus/dicdump: the comparison.
-/
namespace Libmorph
open Spec

theorem diffLoop_step : ∀ (n : Nat) {d e : DiffState}, (∀ s ∈ d.src1, s ≠ []) → (∀ s ∈ d.src2, s ≠ []) → diffLoop n d = some e → DiffStep d e ∧
    (d.v1 ≠ [] → d.v2 ≠ [] → e.v1 = [] ∧ e.v2 = [])
  | 0, d, e, _, _, h => by simp [diffLoop] at h
  | n + 1, d, e, h1, h2, h => by
    rw [diffLoop] at h
    split at h
    · rename_i hv
      cases h
      refine ⟨.refl h1 h2, fun a b => ?_⟩
      rcases hv with k | k
      · exact absurd k a
      · exact absurd k b
    · obtain ⟨s1, s2, _⟩ := DiffState.round_step (d := d) h1 h2
      obtain ⟨k1, k2⟩ := diffLoop_step n s1.src1 s1.src2 h
      refine ⟨s1.trans k1, fun _ _ => ?_⟩
      by_cases hz : d.round.v1 = []
      · cases n with
        | zero => simp [diffLoop] at h
        | succ n =>
          rw [diffLoop, if_pos (Or.inl hz)] at h
          cases h
          exact ⟨hz, s2.1 hz⟩
      · exact k2 hz fun k => hz (s2.2 k)

theorem noCross_suffix {α : Type} {a l b r : List α} (h : NoCross (a ++ l) (b ++ r)) : NoCross l r :=
  fun x y hne h1 h2 => h x y hne (h1.trans (List.sublist_append_right _ _)) (h2.trans (List.sublist_append_right _ _))

theorem diffLoop_ends : ∀ (k : Nat) (d : DiffState), d.todo1.length + d.todo2.length = k → (∀ s ∈ d.src1, s ≠ []) → (∀ s ∈ d.src2, s ≠ []) →
    NoCross d.todo1 d.todo2 → ∀ n, k < n → ∃ e, diffLoop n d = some e := by
  intro k
  induction k using Nat.strongRecOn with
  | _ k ih =>
    intro d hk h1 h2 hx n hn
    obtain ⟨m, rfl⟩ : ∃ m, n = m + 1 := ⟨n - 1, by omega⟩
    rw [diffLoop]
    split
    · exact ⟨d, rfl⟩
    · rename_i hv
      rw [not_or] at hv
      obtain ⟨s1, s2, s3⟩ := DiffState.round_step (d := d) h1 h2
      have hlt := s3 hv.1 hv.2 hx
      obtain ⟨new, c, a, b, q1, q2, q3, q4, _⟩ := s1.done
      rw [q3, q4] at hx
      exact ih _ (by omega) d.round rfl s1.src1 s1.src2 (noCross_suffix hx) m (by omega)

theorem srcGet_eq {l : List DumpLine} (h : ∀ s ∈ l, s ≠ []) : (l = [] ∧ srcGet l = ([], [])) ∨ ∃ s r, l = s :: r ∧ s ≠ [] ∧ srcGet l = (s, r) := by
  cases l with
  | nil => exact Or.inl ⟨rfl, rfl⟩
  | cons s r => exact Or.inr ⟨s, r, rfl, h s (by simp), rfl⟩

/-- Lines that are not empty. -/
def nonEmpty (l : List DumpLine) : List DumpLine := l.filter (· ≠ [])

theorem nonEmpty_of {l : List DumpLine} (h : ∀ s ∈ l, s ≠ []) : nonEmpty l = l := by
  rw [nonEmpty, List.filter_eq_self]
  intro s hs
  simpa using h s hs

theorem nonEmpty_get {l : List DumpLine} (h : ∀ s ∈ l, s ≠ []) : nonEmpty ((srcGet l).1 :: (srcGet l).2) = l ∧ (∀ s ∈ (srcGet l).2, s ≠ []) ∧
    (srcGet l).2.length ≤ l.length ∧ ((srcGet l).1 ≠ [] → l = (srcGet l).1 :: (srcGet l).2) ∧ ((srcGet l).1 = [] → l = [] ∧ (srcGet l).2 = []) := by
  rcases srcGet_eq h with ⟨rfl, e⟩ | ⟨s, r, rfl, hs, e⟩
  · rw [e]; simp [nonEmpty]
  · rw [e]
    refine ⟨nonEmpty_of h, fun x hx => h x (by simp [hx]), by simp, fun _ => rfl, fun k => absurd k hs⟩

theorem nonEmpty_app (a b : List DumpLine) : nonEmpty (a ++ b) = nonEmpty a ++ nonEmpty b := List.filter_append ..

theorem dumpDiff_report : ∀ (n : Nat) {src1 src2 : List DumpLine} {out res : List DiffOut}, (∀ s ∈ src1, s ≠ []) → (∀ s ∈ src2, s ≠ []) →
    dumpDiff n src1 src2 out = some res → ∃ new c, res = out ++ new ∧ DiffOut.tooBig ∉ new ∧ Woven c (nonEmpty (lefts new)) src1 ∧ Woven c (nonEmpty (rights new)) src2
  | 0, _, _, _, _, _, _, h => by simp [dumpDiff] at h
  | n + 1, src1, src2, out, res, h1, h2, h => by
    obtain ⟨g1, g2, _, g3, g4⟩ := nonEmpty_get h1
    obtain ⟨f1, f2, _, f3, f4⟩ := nonEmpty_get h2
    rw [dumpDiff] at h
    simp only at h
    split at h
    · rename_i hv
      cases h
      refine ⟨[], [], by simp, by simp, ?_, ?_⟩
      · rw [(g4 hv.1).1]; exact .nil
      · rw [(f4 hv.2).1]; exact .nil
    · rename_i hv
      split at h
      · rename_i he
        obtain ⟨new, c, q1, q2, q3, q4⟩ := dumpDiff_report n g2 f2 h
        have n1 : (srcGet src1).1 ≠ [] := fun k => hv ⟨k, by rw [← he]; exact k⟩
        refine ⟨new, (srcGet src1).1 :: c, q1, q2, ?_, ?_⟩
        · rw [g3 n1]; exact .common _ q3
        · rw [f3 (by rw [← he]; exact n1), ← he]; exact .common _ q4
      · rename_i he
        obtain ⟨a1, t1, a2⟩ := loadList_eq 0x400 (srcGet src1).2 [(srcGet src1).1] g2
        obtain ⟨b1, t2, b2⟩ := loadList_eq 0x400 (srcGet src2).2 [(srcGet src2).1] f2
        have k1 : ∀ s ∈ (loadList [(srcGet src1).1] 0x400 (srcGet src1).2).2, s ≠ [] := by
          rw [a2, List.append_assoc] at a1
          have := List.append_cancel_left a1
          intro s hs
          exact g2 s (by rw [this]; simp; exact Or.inr hs)
        have k2 : ∀ s ∈ (loadList [(srcGet src2).1] 0x400 (srcGet src2).2).2, s ≠ [] := by
          rw [b2, List.append_assoc] at b1
          have := List.append_cancel_left b1
          intro s hs
          exact f2 s (by rw [this]; simp; exact Or.inr hs)
        split at h
        · simp at h
        · rename_i d hd
          obtain ⟨s1, s2⟩ := diffLoop_step n (d := ⟨_, _, _, _, _⟩) k1 k2 hd
          have hz := s2 (by simp only [a2]; simp) (by simp only [b2]; simp)
          rw [if_pos hz] at h
          obtain ⟨new, c, a, b, q1, q2, q3, q4, q5, q6⟩ := s1.done
          obtain ⟨new', c', r1, r2, r3, r4⟩ := dumpDiff_report n s1.src1 s1.src2 h
          have e1 : src1 = nonEmpty a ++ d.src1 := by
            rw [← g1]
            have : (srcGet src1).1 :: (srcGet src1).2 = a ++ d.todo1 := by
              rw [← q3, DiffState.todo1]
              simp only
              rw [← a1]; rfl
            rw [this, nonEmpty_app, DiffState.todo1, hz.1, List.nil_append, nonEmpty_of s1.src1]
          have e2 : src2 = nonEmpty b ++ d.src2 := by
            rw [← f1]
            have : (srcGet src2).1 :: (srcGet src2).2 = b ++ d.todo2 := by
              rw [← q4, DiffState.todo2]
              simp only
              rw [← b1]; rfl
            rw [this, nonEmpty_app, DiffState.todo2, hz.2, List.nil_append, nonEmpty_of s1.src2]
          refine ⟨new ++ new', nonEmpty c ++ c', ?_, by simp [q2, r2], ?_, ?_⟩
          · rw [r1, q1]; simp
          · rw [e1, lefts_app, nonEmpty_app]
            exact q5.filt.app r3
          · rw [e2, rights_app, nonEmpty_app]
            exact q6.filt.app r4

/-- **C79, the report.**  When the comparison of two lists of lines ends, the lines printed for the left and for the right list (but for empty ones) are the lines the
lists have beside a common part, in their order; and the message that the difference is too big is never printed. -/
theorem C79_report {n : Nat} {L R : List DumpLine} {out : List DiffOut} (hL : ∀ s ∈ L, s ≠ []) (hR : ∀ s ∈ R, s ≠ []) (h : dumpDiff n L R [] = some out) :
    DiffOut.tooBig ∉ out ∧ ∃ common, Woven common (nonEmpty (lefts out)) L ∧ Woven common (nonEmpty (rights out)) R := by
  obtain ⟨new, c, h1, h2, h3, h4⟩ := dumpDiff_report n hL hR h
  rw [h1, List.nil_append]
  exact ⟨h2, c, h3, h4⟩

theorem dumpDiff_same : ∀ (L : List DumpLine) (n : Nat) (out : List DiffOut), (∀ s ∈ L, s ≠ []) → L.length < n → dumpDiff n L L out = some out
  | [], n, out, _, hn => by
    obtain ⟨m, rfl⟩ : ∃ m, n = m + 1 := ⟨n - 1, by omega⟩
    rw [dumpDiff]; simp [srcGet]
  | s :: L, n, out, h, hn => by
    obtain ⟨m, rfl⟩ : ∃ m, n = m + 1 := ⟨n - 1, by omega⟩
    have := h s (by simp)
    rw [dumpDiff]
    simp only [srcGet, this, and_self, if_false, if_true]
    exact dumpDiff_same L m out (fun x hx => h x (by simp [hx])) (by simp at hn; omega)

/-- **C79, equal lists.**  Nothing is printed, and the comparison ends, if the lists are equal; and only then. -/
theorem C79_same {L R : List DumpLine} (hL : ∀ s ∈ L, s ≠ []) (hR : ∀ s ∈ R, s ≠ []) : (∃ n, dumpDiff n L R [] = some []) ↔ L = R := by
  constructor
  · rintro ⟨n, h⟩
    obtain ⟨_, c, h1, h2⟩ := C79_report hL hR h
    rw [woven_no_extra h1 rfl, woven_no_extra h2 rfl]
  · rintro rfl
    exact ⟨_, dumpDiff_same L _ [] hL (Nat.lt_succ_self _)⟩

theorem dumpDiff_ends : ∀ (k : Nat) (L R : List DumpLine) (out : List DiffOut), L.length + R.length = k → (∀ s ∈ L, s ≠ []) → (∀ s ∈ R, s ≠ []) →
    NoCross L R → ∀ n, 2 * k + 3 < n → ∃ res, dumpDiff n L R out = some res := by
  intro k
  induction k using Nat.strongRecOn with
  | _ k ih =>
    intro L R out hk hL hR hx n hn
    obtain ⟨m, rfl⟩ : ∃ m, n = m + 1 := ⟨n - 1, by omega⟩
    obtain ⟨g1, g2, g5, g3, g4⟩ := nonEmpty_get hL
    obtain ⟨f1, f2, f5, f3, f4⟩ := nonEmpty_get hR
    rw [dumpDiff]
    simp only
    split
    · exact ⟨_, rfl⟩
    · rename_i hv
      split
      · rename_i he
        have n1 : (srcGet L).1 ≠ [] := fun k => hv ⟨k, by rw [← he]; exact k⟩
        have e1 := g3 n1
        have e2 := f3 (by rw [← he]; exact n1)
        have l1 : L.length = (srcGet L).2.length + 1 := by conv => lhs; rw [e1]
                                                           simp
        refine ih ((srcGet L).2.length + (srcGet R).2.length) (by omega) _ _ _ rfl g2 f2 ?_ m (by omega)
        intro x y hne h1 h2
        refine hx x y hne ?_ ?_
        · rw [e1]; exact h1.trans (List.sublist_cons_self _ _)
        · rw [e2]; exact h2.trans (List.sublist_cons_self _ _)
      · rename_i he
        obtain ⟨a1, t1, a2⟩ := loadList_eq 0x400 (srcGet L).2 [(srcGet L).1] g2
        obtain ⟨b1, t2, b2⟩ := loadList_eq 0x400 (srcGet R).2 [(srcGet R).1] f2
        have k1 : ∀ s ∈ (loadList [(srcGet L).1] 0x400 (srcGet L).2).2, s ≠ [] := by
          rw [a2, List.append_assoc] at a1
          have := List.append_cancel_left a1
          intro s hs
          exact g2 s (by rw [this]; simp; exact Or.inr hs)
        have k2 : ∀ s ∈ (loadList [(srcGet R).1] 0x400 (srcGet R).2).2, s ≠ [] := by
          rw [b2, List.append_assoc] at b1
          have := List.append_cancel_left b1
          intro s hs
          exact f2 s (by rw [this]; simp; exact Or.inr hs)
        have hx' : NoCross ((srcGet L).1 :: (srcGet L).2) ((srcGet R).1 :: (srcGet R).2) := by
          intro x y hne h1 h2
          by_cases z1 : (srcGet L).1 = []
          · rw [(g4 z1).2] at h1
            have := h1.length_le
            simp at this
          · by_cases z2 : (srcGet R).1 = []
            · rw [(f4 z2).2] at h2
              have := h2.length_le
              simp at this
            · rw [← g3 z1] at h1
              rw [← f3 z2] at h2
              exact hx x y hne h1 h2
        have len1 : (srcGet L).2.length ≤ L.length := g5
        have len2 : (srcGet R).2.length ≤ R.length := f5
        have hpos : 0 < k := by
          by_contra h0
          have z1 : L = [] := List.length_eq_zero_iff.1 (by omega)
          have z2 : R = [] := List.length_eq_zero_iff.1 (by omega)
          rw [z1, z2] at he
          exact he rfl
        have t1' : ([(srcGet L).1] ++ (srcGet L).2) = (loadList [(srcGet L).1] 0x400 (srcGet L).2).1 ++ (loadList [(srcGet L).1] 0x400 (srcGet L).2).2 := a1
        have t2' : ([(srcGet R).1] ++ (srcGet R).2) = (loadList [(srcGet R).1] 0x400 (srcGet R).2).1 ++ (loadList [(srcGet R).1] 0x400 (srcGet R).2).2 := b1
        obtain ⟨d, hd⟩ := diffLoop_ends ((srcGet L).2.length + 1 + ((srcGet R).2.length + 1))
          ⟨(loadList [(srcGet L).1] 0x400 (srcGet L).2).1, (loadList [(srcGet R).1] 0x400 (srcGet R).2).1, (loadList [(srcGet L).1] 0x400 (srcGet L).2).2,
            (loadList [(srcGet R).1] 0x400 (srcGet R).2).2, out⟩ (by
            simp only [DiffState.todo1, DiffState.todo2]
            rw [← t1', ← t2']; simp) k1 k2 (by
            simp only [DiffState.todo1, DiffState.todo2]
            rw [← t1', ← t2']; exact hx') m (by omega)
        rw [hd]
        simp only
        obtain ⟨s1, s2⟩ := diffLoop_step m (d := ⟨_, _, _, _, _⟩) k1 k2 hd
        have hz := s2 (by simp only [a2]; simp) (by simp only [b2]; simp)
        rw [if_pos hz]
        obtain ⟨new, c, a, b, q1, q2, q3, q4, q5, q6⟩ := s1.done
        simp only [DiffState.todo1, DiffState.todo2, hz.1, hz.2, List.nil_append] at q3 q4
        rw [← t1'] at q3
        rw [← t2'] at q4
        have w1 : (loadList [(srcGet L).1] 0x400 (srcGet L).2).2.length ≤ (srcGet L).2.length := by
          rw [a2, List.append_assoc] at a1
          have := congrArg List.length (List.append_cancel_left a1)
          rw [List.length_append] at this; omega
        have w2 : (loadList [(srcGet R).1] 0x400 (srcGet R).2).2.length ≤ (srcGet R).2.length := by
          rw [b2, List.append_assoc] at b1
          have := congrArg List.length (List.append_cancel_left b1)
          rw [List.length_append] at this; omega
        have l1 : d.src1.length ≤ (srcGet L).2.length := Nat.le_trans s1.len1 w1
        have l2 : d.src2.length ≤ (srcGet R).2.length := Nat.le_trans s1.len2 w2
        have hdec : d.src1.length + d.src2.length < k := by
          by_cases z1 : (srcGet L).1 = []
          · have z2 : (srcGet R).1 ≠ [] := fun z => hv ⟨z1, z⟩
            have := congrArg List.length (f3 z2)
            rw [List.length_cons] at this; omega
          · have := congrArg List.length (g3 z1)
            rw [List.length_cons] at this; omega
        rw [List.singleton_append] at q3 q4
        rw [q3, q4] at hx'
        exact ih _ hdec _ _ _ rfl s1.src1 s1.src2 (noCross_suffix hx') m (by omega)

/-- **C79, the end.**  The comparison ends if no two lines that both lists have are in different order in them. -/
theorem C79_ends {L R : List DumpLine} (hL : ∀ s ∈ L, s ≠ []) (hR : ∀ s ∈ R, s ≠ []) (hx : NoCross L R) : ∃ n out, dumpDiff n L R [] = some out := by
  exact ⟨_, dumpDiff_ends _ L R [] rfl hL hR hx _ (Nat.lt_succ_self _)⟩

/-- So it does when both are ordered, by anything that orders lines. -/
theorem C79_ends_ordered {lt : DumpLine → DumpLine → Prop} (hirr : ∀ x, ¬ lt x x) (htr : ∀ x y z, lt x y → lt y z → lt x z) {L R : List DumpLine}
    (hL : ∀ s ∈ L, s ≠ []) (hR : ∀ s ∈ R, s ≠ []) (sL : L.Pairwise lt) (sR : R.Pairwise lt) : ∃ n out, dumpDiff n L R [] = some out := by
  refine C79_ends hL hR fun x y _ h1 h2 => ?_
  have k1 := sL.sublist h1
  have k2 := sR.sublist h2
  simp at k1 k2
  exact hirr x (htr _ _ _ k1 k2)

/-- **C79, no end.**  Two lines in one order and in the other: the comparison never ends. -/
theorem C79_hangs {a b : DumpLine} (ha : a ≠ []) (hb : b ≠ []) (hab : a ≠ b) (n : Nat) : dumpDiff n [a, b] [b, a] [] = none := by
  have hba : b ≠ a := fun h => hab h.symm
  have hround : (⟨[a, b], [b, a], [], [], []⟩ : DiffState).round = ⟨[a, b], [b, a], [], [], []⟩ := by
    simp [DiffState.round, skipSame, popDiff, loadList, hab]
  have hloop : ∀ m, diffLoop m ⟨[a, b], [b, a], [], [], []⟩ = none := by
    intro m
    induction m with
    | zero => rfl
    | succ m ih =>
      rw [diffLoop, hround, ih]
      simp
  cases n with
  | zero => rfl
  | succ n =>
    rw [dumpDiff]
    simp only [srcGet, ha, hb, false_and, if_false, hab]
    simp only [loadList, List.length_cons, List.length_nil, ha, hb, if_false, List.singleton_append]
    rw [if_pos (by decide), if_pos (by decide)]
    simp only [hloop]

/-- Why the lines must not be empty: an empty line in both files at the same place ends the comparison, whatever follows it… -/
theorem C79_blank (n : Nat) (L R : List DumpLine) (out : List DiffOut) : dumpDiff (n + 1) ([] :: L) ([] :: R) out = some out := by
  rw [dumpDiff]; simp [srcGet]

/-- …unless lines that differ stand before it: then it is passed over. -/
theorem C79_blank_passed {a b : DumpLine} (ha : a ≠ []) (hb : b ≠ []) (hab : a ≠ b) (n : Nat) (L R : List DumpLine) (out : List DiffOut) :
    dumpDiff (n + 3) (a :: [] :: L) (b :: [] :: R) out = dumpDiff (n + 2) L R (out ++ [.left a, .right b]) := by
  rw [dumpDiff]
  simp only [srcGet, ha, hb, hab, and_self, if_false, loadList, List.length_cons, List.length_nil, if_true, Nat.reduceAdd, Nat.reduceLT]
  rw [diffLoop]
  simp [diffLoop, DiffState.round, skipSame, popDiff, hab]
  cases L <;> cases R <;> simp [loadList]
end Libmorph
