import Verif.Model.Letters
import Verif.Spec.Letters
import Mathlib.Data.Nat.Bitwise
import Mathlib.Data.List.Perm.Subperm
import Mathlib.Data.List.Nodup
/-
The game of five letters: the functions on letters, and the loop.
-/
namespace Libmorph
open Libmorph.Spec

theorem letterBit_small {c : Nat} (h : SmallLetter c) : letterBit c = some (2 ^ (c - 0x430)) := by
  rw [letterBit, if_pos (show 0x430 ≤ c ∧ c < 0x450 from h)]

theorem and_bit (n i : Nat) : (n &&& 2 ^ i ≠ 0) ↔ n.testBit i = true := by
  rw [Nat.and_two_pow]
  cases n.testBit i <;> simp

theorem isExcluded_eq (w : List Nat) (exc : Nat) (h : ∀ c ∈ w, SmallLetter c) :
    ∃ b, isExcluded w exc = some b ∧ (b = true ↔ ∃ c ∈ w, InSet exc c) := by
  induction w with
  | nil => exact ⟨false, rfl, by simp⟩
  | cons c cs ih =>
    have hc := h c (by simp)
    obtain ⟨b, h1, h2⟩ := ih fun d hd => h d (by simp [hd])
    simp only [isExcluded, letterBit_small hc, bind, Option.bind_some, and_bit]
    by_cases ht : exc.testBit (c - 0x430) = true
    · rw [if_pos ht]
      exact ⟨true, rfl, by simp only [true_iff]; exact ⟨c, by simp, hc, ht⟩⟩
    · rw [if_neg ht]
      refine ⟨b, h1, h2.trans ?_⟩
      constructor
      · rintro ⟨d, hd, k⟩; exact ⟨d, by simp [hd], k⟩
      · rintro ⟨d, hd, k⟩
        rcases List.mem_cons.1 hd with rfl | hd
        · exact absurd k.2 ht
        · exact ⟨d, hd, k⟩

theorem small_bit {c d : Nat} (hc : SmallLetter c) (hd : SmallLetter d) (h : c - 0x430 = d - 0x430) : c = d := by
  unfold SmallLetter at *; omega

theorem isIncluded_eq (w : List Nat) (inc : Nat) (h : ∀ c ∈ w, SmallLetter c) (hi : inc < 2 ^ 32) :
    ∃ b, isIncluded w inc = some b ∧ (b = true ↔ ∀ c, InSet inc c → c ∈ w) := by
  induction w generalizing inc with
  | nil =>
    refine ⟨inc == 0, rfl, ?_⟩
    rw [beq_iff_eq]
    constructor
    · rintro rfl c ⟨-, hc⟩; simp at hc
    · intro hn
      apply Nat.eq_of_testBit_eq
      intro i
      rw [Nat.zero_testBit]
      by_contra hb
      simp only [Bool.not_eq_false] at hb
      have hi32 : i < 32 := by
        by_contra hge
        have : inc < 2 ^ i := Nat.lt_of_lt_of_le hi (Nat.pow_le_pow_right (by omega) (by omega))
        rw [Nat.testBit_lt_two_pow this] at hb
        cases hb
      have := hn (0x430 + i) ⟨by unfold SmallLetter; omega, by rw [show 0x430 + i - 0x430 = i by omega]; exact hb⟩
      simp at this
  | cons c cs ih =>
    have hc := h c (by simp)
    have hlt : inc &&& (0xFFFFFFFF ^^^ 2 ^ (c - 0x430)) < 2 ^ 32 := Nat.lt_of_le_of_lt Nat.and_le_left hi
    have hbit : ∀ i, (inc &&& (0xFFFFFFFF ^^^ 2 ^ (c - 0x430))).testBit i = true ↔ inc.testBit i = true ∧ i ≠ c - 0x430 := by
      intro i
      rw [Nat.testBit_and, Nat.testBit_xor, show (0xFFFFFFFF : Nat) = 2 ^ 32 - 1 by rfl, Nat.testBit_two_pow_sub_one, Nat.testBit_two_pow,
        Bool.and_eq_true]
      constructor
      · rintro ⟨h1, h2⟩
        refine ⟨h1, fun he => ?_⟩
        have : i < 32 := by unfold SmallLetter at hc; omega
        rw [decide_eq_true this, decide_eq_true he.symm] at h2
        cases h2
      · rintro ⟨h1, h2⟩
        refine ⟨h1, ?_⟩
        have hi32 : i < 32 := by
          by_contra hge
          have : inc < 2 ^ i := Nat.lt_of_lt_of_le hi (Nat.pow_le_pow_right (by omega) (by omega))
          rw [Nat.testBit_lt_two_pow this] at h1
          cases h1
        rw [decide_eq_true hi32, decide_eq_false (Ne.symm h2)]
        rfl
    obtain ⟨b, h1, h2⟩ := ih _ (fun d hd => h d (by simp [hd])) hlt
    refine ⟨b, by simp only [isIncluded, letterBit_small hc, bind, Option.bind_some]; exact h1, h2.trans ?_⟩
    constructor
    · intro k d hd
      by_cases he : d = c
      · simp [he]
      · exact List.mem_cons_of_mem _ (k d ⟨hd.1, (hbit _).2 ⟨hd.2, fun e => he (small_bit hd.1 hc e)⟩⟩)
    · intro k d hd
      obtain ⟨m1, m2⟩ := (hbit _).1 hd.2
      rcases List.mem_cons.1 (k d ⟨hd.1, m1⟩) with rfl | hm
      · exact absurd rfl m2
      · exact hm

theorem makeMask_eq (w : List Nat) (m : Nat) (h : ∀ c ∈ w, SmallLetter c) (hm : m < 2 ^ 32) :
    ∃ k, makeMask w m = some k ∧ k < 2 ^ 32 ∧ ∀ c, InSet k c ↔ InSet m c ∨ c ∈ w := by
  induction w generalizing m with
  | nil => exact ⟨m, rfl, hm, by simp⟩
  | cons c cs ih =>
    have hc := h c (by simp)
    have hp : 2 ^ (c - 0x430) < 2 ^ 32 := Nat.pow_lt_pow_right (by omega) (by unfold SmallLetter at hc; omega)
    obtain ⟨k, h1, h2, h3⟩ := ih (m ||| 2 ^ (c - 0x430)) (fun d hd => h d (by simp [hd])) (Nat.or_lt_two_pow hm hp)
    refine ⟨k, by simp only [makeMask, letterBit_small hc, bind, Option.bind_some]; exact h1, h2, fun d => (h3 d).trans ?_⟩
    have : InSet (m ||| 2 ^ (c - 0x430)) d ↔ InSet m d ∨ d = c := by
      unfold InSet
      rw [Nat.testBit_or, Nat.testBit_two_pow, Bool.or_eq_true, decide_eq_true_iff]
      constructor
      · rintro ⟨a, b | b⟩
        · exact .inl ⟨a, b⟩
        · exact .inr (small_bit a hc b.symm)
      · rintro (⟨a, b⟩ | rfl)
        · exact ⟨a, .inl b⟩
        · exact ⟨hc, .inr rfl⟩
    rw [this, List.mem_cons, or_assoc]

theorem wordRank_some (w : List Nat) (r : Nat) (h : ∀ c ∈ w, SmallLetter c) : ∃ s, wordRank w r = some s := by
  induction w generalizing r with
  | nil => exact ⟨r, rfl⟩
  | cons c cs ih =>
    have hc := h c (by simp)
    unfold SmallLetter at hc
    have hl : c - 0x430 < charRank.length := by rw [show charRank.length = 32 by rfl]; omega
    obtain ⟨s, hs⟩ := ih ((r + charRank[c - 0x430]) % 2 ^ 32) fun d hd => h d (by simp [hd])
    exact ⟨s, by simp only [wordRank, if_neg (show ¬ c < 0x430 by omega), List.getElem?_eq_getElem hl, bind, Option.bind_some]; exact hs⟩

/-- The choice: an untested word of a rank no other untested one exceeds; none if all are tested. -/
theorem pickLoop_eq (tested hs : List (List Nat)) (best : Option (List Nat × Nat)) (h : ∀ w ∈ hs, ∀ c ∈ w, SmallLetter c) :
    ∃ r, pickLoop tested hs best = some r ∧
      (∀ w s, r = some (w, s) → best = some (w, s) ∨ w ∈ hs ∧ w ∉ tested ∧ wordRank w 0 = some s) ∧
      (r = none ↔ best = none ∧ ∀ w ∈ hs, w ∈ tested) ∧
      (∀ w s, r = some (w, s) → (∀ b q, best = some (b, q) → q ≤ s) ∧ ∀ v ∈ hs, v ∉ tested → ∀ q, wordRank v 0 = some q → q ≤ s) := by
  induction hs generalizing best with
  | nil =>
    refine ⟨best, rfl, fun w s hr => .inl hr, by simp, fun w s hr => ⟨fun b q hb => ?_, by simp⟩⟩
    rw [hr] at hb; cases hb; exact Nat.le_refl _
  | cons x hs ih =>
    have ih := fun b => ih b fun w hw => h w (by simp [hw])
    by_cases ht : tested.contains x = true
    · have hx : x ∈ tested := by simpa using ht
      obtain ⟨r, h1, h2, h3, h4⟩ := ih best
      refine ⟨r, by simp only [pickLoop, if_pos ht]; exact h1, fun w s hr => ?_, h3.trans ?_, fun w s hr => ?_⟩
      · rcases h2 w s hr with k | ⟨k1, k2⟩
        · exact .inl k
        · exact .inr ⟨by simp [k1], k2⟩
      · simp [hx]
      · obtain ⟨k1, k2⟩ := h4 w s hr
        refine ⟨k1, fun v hv hn => ?_⟩
        rcases List.mem_cons.1 hv with rfl | hv
        · exact absurd hx hn
        · exact k2 v hv hn
    · have hx : x ∉ tested := by simpa using ht
      obtain ⟨q, hq⟩ := wordRank_some x 0 (h x (by simp))
      have main : ∀ (b' : Option (List Nat × Nat)), (b' = some (x, q) ∨ (b' = best ∧ best ≠ none)) →
          (∀ b p, best = some (b, p) → ∀ b2 p2, b' = some (b2, p2) → p ≤ p2) → (∀ b2 p2, b' = some (b2, p2) → q ≤ p2) →
          pickLoop tested (x :: hs) best = pickLoop tested hs b' → ∃ r, pickLoop tested (x :: hs) best = some r ∧
          (∀ w s, r = some (w, s) → best = some (w, s) ∨ w ∈ x :: hs ∧ w ∉ tested ∧ wordRank w 0 = some s) ∧
          (r = none ↔ best = none ∧ ∀ w ∈ x :: hs, w ∈ tested) ∧
          (∀ w s, r = some (w, s) → (∀ b q, best = some (b, q) → q ≤ s) ∧ ∀ v ∈ x :: hs, v ∉ tested → ∀ q, wordRank v 0 = some q → q ≤ s) := by
        intro b' hb' hle hleq e
        obtain ⟨r, h1, h2, h3, h4⟩ := ih b'
        have hsome : b' ≠ none := by
          rcases hb' with rfl | ⟨rfl, hn⟩
          · simp
          · exact hn
        refine ⟨r, by rw [e]; exact h1, fun w s hr => ?_, ?_, fun w s hr => ?_⟩
        · rcases h2 w s hr with k | ⟨k1, k2⟩
          · rcases hb' with rfl | ⟨rfl, hn⟩
            · cases k; exact .inr ⟨by simp, hx, hq⟩
            · exact .inl k
          · exact .inr ⟨by simp [k1], k2⟩
        · constructor
          · intro hr; exact absurd (h3.1 hr).1 hsome
          · rintro ⟨-, k⟩; exact absurd (k x (by simp)) hx
        · obtain ⟨k1, k2⟩ := h4 w s hr
          obtain ⟨⟨b2, p2⟩, hb2⟩ := Option.ne_none_iff_exists'.1 hsome
          refine ⟨fun b p hb => Nat.le_trans (hle b p hb b2 p2 hb2) (k1 b2 p2 hb2), fun v hv hn => ?_⟩
          rcases List.mem_cons.1 hv with rfl | hv
          · intro p hp; rw [hq] at hp; cases hp
            exact Nat.le_trans (hleq b2 p2 hb2) (k1 b2 p2 hb2)
          · exact k2 v hv hn
      cases best with
      | none =>
        refine main (some (x, q)) (.inl rfl) (by simp) (by simp) ?_
        simp only [pickLoop, if_neg ht, hq, bind, Option.bind_some]
      | some p =>
        obtain ⟨b, s⟩ := p
        by_cases hgt : q > s
        · refine main (some (x, q)) (.inl rfl) (by simp; omega) (by simp) ?_
          simp only [pickLoop, if_neg ht, hq, bind, Option.bind_some, if_pos hgt]
        · refine main (some (b, s)) (.inr ⟨rfl, by simp⟩) (by simp) (by simp; omega) ?_
          simp only [pickLoop, if_neg ht, hq, bind, Option.bind_some, if_neg hgt]

/-! ### The markup -/

theorem mapM_all {α β : Type} {f : α → Option β} {g : α → β} : ∀ {l : List α}, (∀ i ∈ l, f i = some (g i)) → l.mapM f = some (l.map g) := by
  intro l
  induction l with
  | nil => intro _; rfl
  | cons x l ih =>
    intro h
    rw [List.mapM_cons, h x (by simp), ih fun i hi => h i (by simp [hi])]
    rfl

/-- The mark of one place. -/
def markOf (sample word : List Nat) (i : Nat) : Nat :=
  if sample.getD i 0 = word.getD i 0 then sample.getD i 0 else if word.getD i 0 ∈ sample then 43 else 45

theorem getD_of_lt {l : List Nat} (h : l.length = 5) {i : Nat} (hi : i < 5) : l[i]? = some (l.getD i 0) := by
  have : i < l.length := by omega
  simp [List.getElem?_eq_getElem this]

theorem markAt_eq {sample word : List Nat} (hs : sample.length = 5) (hw : word.length = 5) {i : Nat} (hi : i < 5) :
    markAt sample word i = some (markOf sample word i, decide (sample.getD i 0 = word.getD i 0)) := by
  simp only [markAt, getD_of_lt hs hi, getD_of_lt hw hi, bind, Option.bind_some, markOf]
  by_cases h : sample.getD i 0 = word.getD i 0
  · rw [if_pos h, if_pos h, decide_eq_true h]; rfl
  · rw [if_neg h, if_neg h, if_pos (by omega), decide_eq_false h, List.take_of_length_le (by omega)]
    simp

theorem five_ext {a b : List Nat} (ha : a.length = 5) (hb : b.length = 5) (h : ∀ i < 5, a.getD i 0 = b.getD i 0) : a = b := by
  refine List.ext_getElem? fun i => ?_
  by_cases hi : i < 5
  · rw [getD_of_lt ha hi, getD_of_lt hb hi, h i hi]
  · rw [List.getElem?_eq_none (by omega), List.getElem?_eq_none (by omega)]

theorem checkGuess_eq {sample word : List Nat} (hs : sample.length = 5) (hw : word.length = 5) :
    checkGuess sample word = some ((List.range 5).map (markOf sample word), decide (sample = word)) := by
  rw [checkGuess, mapM_all (g := fun i => (markOf sample word i, decide (sample.getD i 0 = word.getD i 0)))
    fun i hi => markAt_eq hs hw (List.mem_range.1 hi)]
  simp only [bind, Option.bind_some, pure, List.map_map, Option.some.injEq, Prod.mk.injEq]
  refine ⟨rfl, ?_⟩
  rw [Bool.eq_iff_iff, List.all_eq_true, decide_eq_true_iff]
  constructor
  · intro h
    refine five_ext hs hw fun i hi => ?_
    have := h _ (List.mem_map.2 ⟨i, List.mem_range.2 hi, rfl⟩)
    simpa using this
  · rintro rfl x hx
    obtain ⟨i, -, rfl⟩ := List.mem_map.1 hx
    simp

theorem isMarkup_markOf {sample word : List Nat} : IsMarkup sample word ((List.range 5).map (markOf sample word)) := by
  refine ⟨by simp, fun i hi s c h1 h2 => ?_⟩
  have e1 : sample.getD i 0 = s := by rw [List.getD_eq_getElem?_getD, h1]; rfl
  have e2 : word.getD i 0 = c := by rw [List.getD_eq_getElem?_getD, h2]; rfl
  rw [List.getElem?_map, List.getElem?_range hi, Option.map_some, markOf, e1, e2]

theorem mem_getD {w : List Nat} (hw : w.length = 5) {i : Nat} (hi : i < 5) : w.getD i 0 ∈ w :=
  List.mem_of_getElem? (getD_of_lt hw hi)

/-- What the places `I` have told. -/
structure Told (sample word : List Nat) (I : List Nat) (g r : List Nat × Nat × Nat) : Prop where
  search : r.1.length = 5 ∧ ∀ j < 5, r.1.getD j 0 = if j ∈ I ∧ sample.getD j 0 = word.getD j 0 then sample.getD j 0 else g.1.getD j 0
  inc : r.2.1 < 2 ^ 32 ∧ ∀ c, InSet r.2.1 c ↔ InSet g.2.1 c ∨ ∃ i ∈ I, word.getD i 0 = c ∧ sample.getD i 0 ≠ c ∧ c ∈ sample
  exc : r.2.2 < 2 ^ 32 ∧ ∀ c, InSet r.2.2 c ↔ InSet g.2.2 c ∨ ∃ i ∈ I, word.getD i 0 = c ∧ c ∉ sample

theorem InSet_or (m k c : Nat) : InSet (m ||| k) c ↔ InSet m c ∨ InSet k c := by
  unfold InSet
  rw [Nat.testBit_or, Bool.or_eq_true]
  constructor
  · rintro ⟨a, b | b⟩
    · exact .inl ⟨a, b⟩
    · exact .inr ⟨a, b⟩
  · rintro (⟨a, b⟩ | ⟨a, b⟩)
    · exact ⟨a, .inl b⟩
    · exact ⟨a, .inr b⟩

theorem getD_set5 {l : List Nat} (hl : l.length = 5) {i j x : Nat} (hj : j < 5) : (l.set i x).getD j 0 = if i = j then x else l.getD j 0 := by
  rw [List.getD_eq_getElem?_getD, List.getD_eq_getElem?_getD, List.getElem?_set]
  by_cases h : i = j
  · subst h
    rw [if_pos rfl, if_pos rfl, if_pos (by omega)]; rfl
  · rw [if_neg h, if_neg h]

theorem not_inSet_zero (c : Nat) : ¬ InSet 0 c := by
  rintro ⟨-, h⟩; simp at h

theorem updateAt_eq {sample word : List Nat} (hs : FiveLetters sample) (hw : FiveLetters word) {g : List Nat × Nat × Nat}
    (hg : g.1.length = 5) (hi1 : g.2.1 < 2 ^ 32) (hi2 : g.2.2 < 2 ^ 32) {i : Nat} (hi : i < 5) :
    ∃ r, updateAt sample word ((List.range 5).map (markOf sample word)) g i = some r ∧ Told sample word [i] g r := by
  have hm : ((List.range 5).map (markOf sample word))[i]? = some (markOf sample word i) := by simp [hi]
  have hc : SmallLetter (word.getD i 0) := hw.2 _ (mem_getD hw.1 hi)
  have hmem : sample.getD i 0 ∈ sample := mem_getD hs.1 hi
  simp only [updateAt, hm, getD_of_lt hw.1 hi, getD_of_lt hs.1 hi, bind, Option.bind_some]
  by_cases he : sample.getD i 0 = word.getD i 0
  · have h1 : markOf sample word i = word.getD i 0 := by rw [markOf, if_pos he, he]
    rw [if_pos h1, if_pos (by omega)]
    refine ⟨_, rfl, ⟨by simpa using hg, fun j hj => ?_⟩, ⟨hi1, fun c => ?_⟩, ⟨hi2, fun c => ?_⟩⟩
    · rw [getD_set5 hg hj]
      by_cases hij : i = j
      · subst hij; rw [if_pos rfl, if_pos ⟨by simp, he⟩]
      · rw [if_neg hij, if_neg (by simp; omega)]
    · simp only [List.mem_singleton, exists_eq_left]
      constructor
      · exact .inl
      · rintro (k | ⟨k1, k2, -⟩)
        · exact k
        · exact absurd (he.trans k1) k2
    · simp only [List.mem_singleton, exists_eq_left]
      constructor
      · exact .inl
      · rintro (k | ⟨k1, k2⟩)
        · exact k
        · exact absurd (k1 ▸ he ▸ hmem) k2
  · obtain ⟨k, k1, k2, k3⟩ := makeMask_eq [word.getD i 0] 0 (by simpa using hc) (by omega)
    have k3 : ∀ c, InSet k c ↔ c = word.getD i 0 := fun c => (k3 c).trans (by simp [not_inSet_zero])
    by_cases hin : word.getD i 0 ∈ sample
    · have h1 : markOf sample word i = 43 := by rw [markOf, if_neg he, if_pos hin]
      rw [h1, if_neg (by unfold SmallLetter at hc; omega), if_pos rfl, k1]
      refine ⟨_, rfl, ⟨hg, fun j hj => ?_⟩, ⟨Nat.or_lt_two_pow hi1 k2, fun c => ?_⟩, ⟨hi2, fun c => ?_⟩⟩
      · rw [if_neg]; rintro ⟨m1, m2⟩; rw [List.mem_singleton.1 m1] at m2; exact he m2
      · simp only [InSet_or, k3, List.mem_singleton, exists_eq_left]
        constructor
        · rintro (h | rfl)
          · exact .inl h
          · exact .inr ⟨rfl, he, hin⟩
        · rintro (h | ⟨h, -, -⟩)
          · exact .inl h
          · exact .inr h.symm
      · simp only [List.mem_singleton, exists_eq_left]
        constructor
        · exact .inl
        · rintro (h | ⟨rfl, h⟩)
          · exact h
          · exact absurd hin h
    · have h1 : markOf sample word i = 45 := by rw [markOf, if_neg he, if_neg hin]
      rw [h1, if_neg (by unfold SmallLetter at hc; omega), if_neg (by decide), if_pos rfl, k1]
      refine ⟨_, rfl, ⟨hg, fun j hj => ?_⟩, ⟨hi1, fun c => ?_⟩, ⟨Nat.or_lt_two_pow hi2 k2, fun c => ?_⟩⟩
      · rw [if_neg]; rintro ⟨m1, m2⟩; rw [List.mem_singleton.1 m1] at m2; exact he m2
      · simp only [List.mem_singleton, exists_eq_left]
        constructor
        · exact .inl
        · rintro (h | ⟨rfl, -, h⟩)
          · exact h
          · exact absurd h hin
      · simp only [InSet_or, k3, List.mem_singleton, exists_eq_left]
        constructor
        · rintro (h | rfl)
          · exact .inl h
          · exact .inr ⟨rfl, hin⟩
        · rintro (h | ⟨h, -⟩)
          · exact .inl h
          · exact .inr h.symm

theorem update_eq {sample word : List Nat} (hs : FiveLetters sample) (hw : FiveLetters word) (I : List Nat) (hI : ∀ i ∈ I, i < 5)
    {g : List Nat × Nat × Nat} (hg : g.1.length = 5) (hi1 : g.2.1 < 2 ^ 32) (hi2 : g.2.2 < 2 ^ 32) :
    ∃ r, I.foldlM (updateAt sample word ((List.range 5).map (markOf sample word))) g = some r ∧ Told sample word I g r := by
  induction I generalizing g with
  | nil =>
    refine ⟨g, rfl, ⟨hg, fun j _ => by simp⟩, ⟨hi1, fun c => by simp⟩, ⟨hi2, fun c => by simp⟩⟩
  | cons i I ih =>
    obtain ⟨r, h1, h2⟩ := updateAt_eq hs hw hg hi1 hi2 (hI i (by simp))
    obtain ⟨q, h3, h4⟩ := ih (fun j hj => hI j (by simp [hj])) (g := r) h2.search.1 h2.inc.1 h2.exc.1
    refine ⟨q, by rw [List.foldlM_cons, h1]; exact h3, ⟨h4.search.1, fun j hj => ?_⟩, ⟨h4.inc.1, fun c => ?_⟩, ⟨h4.exc.1, fun c => ?_⟩⟩
    · rw [h4.search.2 j hj, h2.search.2 j hj]
      by_cases he : sample.getD j 0 = word.getD j 0
      · by_cases a : j ∈ I
        · rw [if_pos ⟨a, he⟩, if_pos ⟨List.mem_cons_of_mem _ a, he⟩]
        · rw [if_neg (fun k => a k.1)]
          by_cases b : j = i
          · rw [if_pos ⟨by simp [b], he⟩, if_pos ⟨by simp [b], he⟩]
          · rw [if_neg (fun k => b (List.mem_singleton.1 k.1)), if_neg (fun k => (List.mem_cons.1 k.1).elim b a)]
      · rw [if_neg (fun k => he k.2), if_neg (fun k => he k.2), if_neg (fun k => he k.2)]
    · rw [h4.inc.2, h2.inc.2]
      simp only [List.mem_singleton, exists_eq_left, List.mem_cons, exists_eq_or_imp, or_assoc, List.not_mem_nil, false_and, exists_false, false_or]
    · rw [h4.exc.2, h2.exc.2]
      simp only [List.mem_singleton, exists_eq_left, List.mem_cons, exists_eq_or_imp, or_assoc, List.not_mem_nil, false_and, exists_false, false_or]

/-! ### The loop -/

/-- The state of the game between two passes. -/
structure GameOk (words : List (List Nat)) (sample : List Nat) (g : Game) : Prop where
  search : FiveTemplate g.search
  inc : g.inc < 2 ^ 32
  exc : g.exc < 2 ^ 32
  hypots : ∀ w ∈ g.hypots, w ∈ words ∧ FitsTemplate g.search w
  shown : g.shown.map Prod.fst = g.tested
  once : g.tested.Nodup
  known : ∀ w ∈ g.tested, w ∈ words
  others : sample ∉ g.tested
  marked : ∀ p ∈ g.shown, IsMarkup sample p.1 p.2

/-- The template cannot fit the sample. -/
def Misfit (t sample : List Nat) : Prop := ∃ i < 5, t.getD i 0 ≠ 63 ∧ t.getD i 0 ≠ sample.getD i 0

theorem fits_getD {t w : List Nat} (ht : t.length = 5) (hw : w.length = 5) :
    FitsTemplate t w ↔ ∀ i < 5, t.getD i 0 = 63 ∨ t.getD i 0 = w.getD i 0 := by
  constructor
  · rintro ⟨-, h⟩ i hi
    have := h i
    rw [getD_of_lt ht hi, getD_of_lt hw hi] at this
    simpa only [Option.some.injEq] using this
  · intro h
    refine ⟨by omega, fun i => ?_⟩
    by_cases hi : i < 5
    · rw [getD_of_lt ht hi, getD_of_lt hw hi, Option.some.injEq, Option.some.injEq]
      exact h i hi
    · right; rw [List.getElem?_eq_none (by omega), List.getElem?_eq_none (by omega)]

theorem misfit_or {t w : List Nat} (ht : t.length = 5) (hw : w.length = 5) (h : ¬ FitsTemplate t w) : Misfit t w := by
  rw [fits_getD ht hw] at h
  by_contra hm
  refine h fun i hi => ?_
  by_contra hc
  rw [not_or] at hc
  exact hm ⟨i, hi, hc⟩

/-- One pass. -/
theorem gameStep_cases {ask : List Nat → Nat → Nat → Option (List (List Nat))} {words : List (List Nat)} (ha : WordSource ask words)
    {sample : List Nat} (hs : FiveLetters sample) {g : Game} (hg : GameOk words sample g) :
    (gameStep ask sample g = some (.lost g.shown) ∧ ∀ w ∈ g.hypots, w ∈ g.tested) ∨
    (∃ mk, gameStep ask sample g = some (.won (g.shown ++ [(sample, mk)])) ∧ sample ∈ g.hypots ∧ IsMarkup sample sample mk) ∨
    (∃ g' w, gameStep ask sample g = some (.next g') ∧ GameOk words sample g' ∧ g'.tested = g.tested ++ [w] ∧ w ∈ words ∧
      (Answers g.search g.exc g.inc sample → Answers g'.search g'.exc g'.inc sample) ∧
      (Misfit g.search sample → Misfit g'.search sample) ∧
      ∀ v, v ∈ g'.hypots ↔ v ∈ words ∧ Answers g'.search g'.exc g'.inc v) := by
  obtain ⟨r, r1, r2, r3, -⟩ := pickLoop_eq g.tested g.hypots none fun w hw => (ha.five w (hg.hypots w hw).1).2
  by_cases hn : g.hypots = []
  · left
    exact ⟨by simp [gameStep, hn], by simp [hn]⟩
  cases r with
  | none =>
    left
    exact ⟨by simp only [gameStep, if_neg hn, r1, bind, Option.bind_some, pure], (r3.1 rfl).2⟩
  | some p =>
    right
    obtain ⟨word, q⟩ := p
    rcases r2 word q rfl with k | ⟨k1, k2, -⟩
    · cases k
    obtain ⟨w1, w2⟩ := hg.hypots word k1
    have hw := ha.five word w1
    have hstep : gameStep ask sample g = (if decide (sample = word) = true then some (Move.won (g.shown ++ [(word, (List.range 5).map (markOf sample word))]))
        else (List.range 5).foldlM (updateAt sample word ((List.range 5).map (markOf sample word))) (g.search, g.inc, g.exc) >>= fun s =>
          ask s.1 s.2.2 s.2.1 >>= fun hypots => some (Move.next ⟨s.1, s.2.1, s.2.2, hypots, g.tested ++ [word],
            g.shown ++ [(word, (List.range 5).map (markOf sample word))]⟩)) := by
      simp only [gameStep, if_neg hn, r1, bind, Option.bind_some, checkGuess_eq hs.1 hw.1, pure]
    by_cases he : sample = word
    · left
      subst he
      exact ⟨_, by rw [hstep, if_pos (by simp)], k1, isMarkup_markOf⟩
    · right
      obtain ⟨s, s1, s2⟩ := update_eq hs hw (List.range 5) (fun i hi => List.mem_range.1 hi) (g := (g.search, g.inc, g.exc))
        hg.search.1 hg.inc hg.exc
      have htm : FiveTemplate s.1 := by
        refine ⟨s2.search.1, fun c hc => ?_⟩
        obtain ⟨j, hj, hc⟩ := List.getElem_of_mem hc
        have hj5 : j < 5 := by rw [← s2.search.1]; exact hj
        have e := s2.search.2 j hj5
        have : s.1.getD j 0 = c := by simp [List.getD_eq_getElem?_getD, hj, hc]
        rw [this] at e
        split at e
        · right; rw [e]; exact hs.2 _ (mem_getD hs.1 hj5)
        · rw [e]; exact hg.search.2 _ (mem_getD hg.search.1 hj5)
      obtain ⟨l, l1, l2⟩ := ha.exact s.1 s.2.2 s.2.1 htm s2.exc.1 s2.inc.1
      refine ⟨⟨s.1, s.2.1, s.2.2, l, g.tested ++ [word], g.shown ++ [(word, (List.range 5).map (markOf sample word))]⟩, word,
        by rw [hstep, if_neg (by simpa using he), s1]; simp only [bind, Option.bind_some, l1], ?_, rfl, w1, ?_, ?_, l2⟩
      · refine ⟨htm, s2.inc.1, s2.exc.1, fun w hw => ⟨((l2 w).1 hw).1, ((l2 w).1 hw).2.fits⟩, ?_, ?_, ?_, ?_, ?_⟩
        · simp [hg.shown]
        · rw [List.nodup_append]
          exact ⟨hg.once, by simp, by intro a ha b hb; rw [List.mem_singleton.1 hb]; rintro rfl; exact k2 ha⟩
        · intro w hw
          rcases List.mem_append.1 hw with hw | hw
          · exact hg.known w hw
          · rw [List.mem_singleton.1 hw]; exact w1
        · intro hm
          rcases List.mem_append.1 hm with hm | hm
          · exact hg.others hm
          · exact he (List.mem_singleton.1 hm)
        · intro p hp
          rcases List.mem_append.1 hp with hp | hp
          · exact hg.marked p hp
          · rw [List.mem_singleton.1 hp]; exact isMarkup_markOf
      · rintro ⟨a1, a2, a3⟩
        rw [fits_getD hg.search.1 hs.1] at a1
        refine ⟨(fits_getD s2.search.1 hs.1).2 fun i hi => ?_, fun c hc hin => ?_, fun c hin => ?_⟩
        · rw [s2.search.2 i hi]
          split
          · exact .inr rfl
          · exact a1 i hi
        · rcases (s2.exc.2 c).1 hin with h | ⟨i, -, -, h⟩
          · exact a2 c hc h
          · exact h hc
        · rcases (s2.inc.2 c).1 hin with h | ⟨i, -, -, -, h⟩
          · exact a3 c h
          · exact h
      · rintro ⟨i, hi, m1, m2⟩
        refine ⟨i, hi, ?_⟩
        rw [s2.search.2 i hi, if_neg]
        · exact ⟨m1, m2⟩
        · rintro ⟨-, k⟩
          rcases (fits_getD hg.search.1 hw.1).1 w2 i hi with h | h
          · exact m1 h
          · exact m2 (h.trans k.symm)

theorem nodup_room {tested words : List (List Nat)} (h1 : tested.Nodup) (h2 : ∀ w ∈ tested, w ∈ words) : tested.length ≤ words.length :=
  (List.subperm_of_subset h1 h2).length_le

/-- The game ends, in at most as many passes as there are words left and one. -/
theorem gameLoop_ends {ask : List Nat → Nat → Nat → Option (List (List Nat))} {words : List (List Nat)} (ha : WordSource ask words)
    {sample : List Nat} (hs : FiveLetters sample) (n : Nat) {g : Game} (hg : GameOk words sample g) (hn : words.length - g.tested.length < n) :
    ∃ b shown, gameLoop ask sample n g = some (some (b, shown)) ∧
      (shown.map Prod.fst).Nodup ∧ (∀ p ∈ shown, p.1 ∈ words ∧ IsMarkup sample p.1 p.2) ∧
      (b = true ↔ sample ∈ shown.map Prod.fst) ∧ (b = true → (shown.map Prod.fst).getLast? = some sample) ∧
      (b = true → sample ∈ words ∧ ¬ Misfit g.search sample) ∧
      (sample ∈ words → Answers g.search g.exc g.inc sample → (sample ∈ g.hypots ∨ g.tested = [] ∧ g.hypots ≠ []) → b = true) := by
  induction n generalizing g with
  | zero => omega
  | succ n ih =>
    rcases gameStep_cases ha hs hg with ⟨h1, h2⟩ | ⟨mk, h1, h2, h3⟩ | ⟨g', w, h1, h2, h3, h4, h5, h6, h7⟩
    · refine ⟨false, g.shown, by simp [gameLoop, h1], by rw [hg.shown]; exact hg.once, fun p hp => ⟨?_, hg.marked p hp⟩, ?_, by simp, by simp, ?_⟩
      · exact hg.known _ (hg.shown ▸ List.mem_map.2 ⟨p, hp, rfl⟩)
      · rw [hg.shown]; simp [hg.others]
      · rintro - - (hm | ⟨k1, k2⟩)
        · exact absurd (h2 _ hm) hg.others
        · obtain ⟨x, hx⟩ := List.exists_mem_of_ne_nil _ k2
          have := h2 x hx
          rw [k1] at this; cases this
    · refine ⟨true, g.shown ++ [(sample, mk)], by simp [gameLoop, h1], ?_, ?_, by simp, by simp, fun _ => ⟨(hg.hypots _ h2).1, ?_⟩, fun _ _ _ => rfl⟩
      · rw [List.map_append, hg.shown, List.nodup_append]
        refine ⟨hg.once, by simp, ?_⟩
        intro a ha b hb
        simp only [List.map_cons, List.map_nil, List.mem_singleton] at hb
        rintro rfl
        exact hg.others (hb ▸ ha)
      · intro p hp
        rcases List.mem_append.1 hp with hp | hp
        · exact ⟨hg.known _ (hg.shown ▸ List.mem_map.2 ⟨p, hp, rfl⟩), hg.marked p hp⟩
        · rw [List.mem_singleton.1 hp]; exact ⟨(hg.hypots _ h2).1, h3⟩
      · rintro ⟨i, hi, m1, m2⟩
        rcases (fits_getD hg.search.1 hs.1).1 (hg.hypots _ h2).2 i hi with h | h
        · exact m1 h
        · exact m2 h
    · have hroom := nodup_room h2.once h2.known
      rw [h3, List.length_append, List.length_singleton] at hroom
      obtain ⟨b, shown, b1, b2, b3, b4, b5, b6, b7⟩ := ih h2 (by rw [h3, List.length_append, List.length_singleton]; omega)
      refine ⟨b, shown, by simp only [gameLoop, h1, bind, Option.bind_some]; exact b1, b2, b3, b4, b5, fun hb => ⟨(b6 hb).1, fun hm => (b6 hb).2 (h6 hm)⟩, ?_⟩
      intro hw hgood _
      exact b7 hw (h5 hgood) (.inl ((h7 sample).2 ⟨hw, h5 hgood⟩))

end Libmorph
