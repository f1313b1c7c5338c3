import Verif.Lemmas.CapSet
/-
C15, C16, C17, C18: capitalization.
-/
namespace Libmorph

theorem partKind_le (T : CharTab) (p : List Byte) (k : Nat) (h : partKind T p = some k) : k ≤ 2 := by
  simp only [partKind] at h
  split at h <;> try (simp at h; done)
  split at h
  · simp at h; omega
  · split at h
    · simp at h; omega
    · split at h
      · simp at h; omega
      · simp at h

/-- The answer of the analysis, without any restriction but the 32 bits of the scheme. -/
theorem capGet_value (T : CharTab) (hT : T.Ok) (outlen : Nat) (w : List Byte)
    (hparts : (checkedParts T w).length ≤ 16) :
    (outlen ≤ w.length → capGet T outlen w = some none) ∧
    (w.length < outlen → ∃ sch, capGet T outlen w = some (some (w.map T.lower,
        ((w.length <<< 16) % 2 ^ 32) ||| (((wordParts T w).length <<< 8) % 2 ^ 32) |||
          (if (checkedParts T w).all fun p => (partKind T p).isSome then sch else 0xff))) ∧
      ((∀ p ∈ checkedParts T w, (partKind T p).isSome) →
        sch = packKinds ((checkedParts T w).map fun p => (partKind T p).getD 0))) := by
  obtain ⟨h1, h2⟩ := capLoop_eq T hT w.length w le_rfl outlen 0 0 true [] (by omega) (by simp)
  refine ⟨?_, ?_⟩
  · intro h; simp [capGet, h1 h]
  · intro h
    obtain ⟨sch, h3, h4⟩ := h2 h
    refine ⟨sch, ?_, ?_⟩
    · simp [capGet, h3, wordParts_length]
    · intro h; have := h4 rfl h; simpa using this

theorem packKinds_lt (ks : List Nat) (h : ∀ k ∈ ks, k ≤ 2) : packKinds ks < 4 ^ ks.length := by
  induction ks with
  | nil => simp [packKinds]
  | cons k ks ih =>
    have h1 := h k (by simp)
    have h2 := ih (fun k hk => h k (by simp [hk]))
    simp only [packKinds, List.length_cons, Nat.pow_succ]; omega

theorem word_layout (len n x : Nat) (h1 : len < 2 ^ 16) (h2 : n < 256) (h3 : x < 256) :
    ((len <<< 16) % 2 ^ 32) ||| ((n <<< 8) % 2 ^ 32) ||| x = len * 65536 + n * 256 + x := by
  rw [Nat.shiftLeft_eq, Nat.shiftLeft_eq, Nat.mod_eq_of_lt (by omega), Nat.mod_eq_of_lt (by omega)]
  have e1 := or_shift_eq_add (acc := x) (m := n) (k := 8) (by omega)
  have e2 := or_shift_eq_add (acc := n * 2 ^ 8 + x) (m := len) (k := 16) (by omega)
  rw [Nat.shiftLeft_eq] at e1 e2
  rw [Nat.or_assoc, Nat.or_comm (n * 2 ^ 8), e1]
  rw [Nat.or_comm, Nat.add_comm x, e2]
  omega

theorem checkedParts_full (T : CharTab) (w : List Byte) (h : (wordParts T w).getLast? ≠ some []) :
    checkedParts T w = wordParts T w := by
  cases w with
  | nil => simp [wordParts] at h
  | cons c w => simp only [checkedParts]; rw [if_neg h]

/-- **C15**, for words of up to four parts that do not end in a delimiter: the analysis returns the
lower-cased copy, and a word made of the length, the number of parts, and the kinds of the parts
(two bits each) if every part has one, 255 otherwise.
Missing: words of five parts and more, and words that end in a delimiter: for those the claim is
false, see `C15_counterexample_many` and `C15_counterexample_trailing`. -/
theorem C15_classification_partial (T : CharTab) (hT : T.Ok) (outlen : Nat) (w : List Byte)
    (hlen : w.length < outlen) (hbuf : outlen ≤ 2 ^ 16)
    (hparts : (wordParts T w).length ≤ 4) (hlast : (wordParts T w).getLast? ≠ some []) :
    capGet T outlen w = some (some (w.map T.lower,
      w.length * 65536 + (wordParts T w).length * 256 +
        if ∀ p ∈ wordParts T w, (partKind T p).isSome
        then packKinds ((wordParts T w).map fun p => (partKind T p).getD 0) else 255)) := by
  have hc := checkedParts_full T w hlast
  obtain ⟨sch, h1, h2⟩ := (capGet_value T hT outlen w (by rw [hc]; omega)).2 hlen
  rw [hc] at h1 h2
  rw [h1]
  by_cases hall : ∀ p ∈ wordParts T w, (partKind T p).isSome
  · have hb : ((wordParts T w).all fun p => (partKind T p).isSome) = true := by simpa using hall
    have hlt := packKinds_lt ((wordParts T w).map fun p => (partKind T p).getD 0) (by
      intro k hk
      obtain ⟨p, hp, rfl⟩ := List.mem_map.1 hk
      have := hall p hp
      cases hpk : partKind T p with
      | none => rw [hpk] at this; simp at this
      | some k => exact partKind_le T p k hpk)
    rw [List.length_map] at hlt
    have : 4 ^ (wordParts T w).length ≤ 4 ^ 4 := Nat.pow_le_pow_right (by omega) hparts
    rw [if_pos hall, hb, if_pos rfl, h2 hall, word_layout _ _ _ (by omega) (by omega) (by omega)]
  · have hb : ((wordParts T w).all fun p => (partKind T p).isSome) = false := by
      rw [Bool.eq_false_iff]; simpa using hall
    rw [if_neg hall, hb, word_layout _ _ _ (by omega) (by omega) (by simp)]
    simp

/-- **C15** the two bits of a part in the packed word are the kind of that part. -/
theorem C15_kind_of_part (ks : List Nat) (h : ∀ k ∈ ks, k ≤ 2) (i : Nat) (hi : i < ks.length) :
    packKinds ks / 4 ^ i % 4 = ks[i] := by
  induction ks generalizing i with
  | nil => simp at hi
  | cons k ks ih =>
    have h1 := h k (by simp)
    cases i with
    | zero => simp [packKinds]; omega
    | succ i =>
      have := ih (fun k hk => h k (by simp [hk])) i (by simpa using hi)
      simp only [packKinds, List.getElem_cons_succ]
      rw [← this, Nat.pow_succ', ← Nat.div_div_eq_div_mul]
      congr 2; omega

/-- **C15** a word that does not fit the buffer is refused (up to sixteen parts). -/
theorem C15_too_long (T : CharTab) (hT : T.Ok) (outlen : Nat) (w : List Byte)
    (hlen : outlen ≤ w.length) (hparts : (wordParts T w).length ≤ 16) : capGet T outlen w = some none := by
  refine (capGet_value T hT outlen w ?_).1 hlen
  cases w with
  | nil => simp [checkedParts]
  | cons c w =>
    simp only [checkedParts]; split
    · rw [List.length_dropLast]; omega
    · exact hparts

/-- **C15** a word of five to sixteen parts still gets its lower-cased copy, but no capitalization
requirement is ever met by it. -/
theorem C15_many_parts (T : CharTab) (hT : T.Ok) (outlen : Nat) (w : List Byte)
    (hlen : w.length < outlen) (h5 : 5 ≤ (wordParts T w).length) (h16 : (wordParts T w).length ≤ 16) :
    ∃ s, capGet T outlen w = some (some (w.map T.lower, s)) ∧ ∀ m, isGood (s % 65536) m = false := by
  obtain ⟨sch, h1, -⟩ := (capGet_value T hT outlen w (by
    cases w with
    | nil => simp [checkedParts]
    | cons c w =>
      simp only [checkedParts]; split
      · rw [List.length_dropLast]; omega
      · exact h16)).2 hlen
  refine ⟨_, h1, ?_⟩
  intro m
  generalize (wordParts T w).length = n at *
  generalize (if ((checkedParts T w).all fun p => (partKind T p).isSome) = true then sch else 0xff) = x
  have e1 : (((w.length <<< 16) % 2 ^ 32) ||| ((n <<< 8) % 2 ^ 32) ||| x) % 65536 ≥ 0x500 := by
    have e : (65536 : Nat) = 2 ^ 16 := rfl
    rw [e, Nat.or_mod_two_pow, Nat.or_mod_two_pow]
    have h3 : (n <<< 8) % 2 ^ 32 % 2 ^ 16 = n * 256 := by
      rw [Nat.shiftLeft_eq]; omega
    rw [h3]
    refine le_trans (by omega : 0x500 ≤ n * 256) (le_trans Nat.right_le_or Nat.left_le_or)
  generalize (((w.length <<< 16) % 2 ^ 32) ||| ((n <<< 8) % 2 ^ 32) ||| x) % 65536 = s at e1
  simp only [isGood, isGoodMin0, isGoodMin1, isGoodMin2]
  split
  · simp; omega
  · split
    · simp; omega
    · split
      · simp; omega
      · rfl

/-- **C15** refuted for a word that ends in a hyphen: "a-" (an empty last part) is declared valid. -/
theorem C15_counterexample_trailing :
    capGet engTab 48 [97, 45] = some (some ([97, 45], 2 * 65536 + 2 * 256 + 0)) ∧
    partKind engTab [] = none ∧ wordParts engTab [97, 45] = [[97], []] := by decide +kernel

/-- **C15** refuted for five parts: "a-a-a-a-A" is reported to have seven parts. -/
theorem C15_counterexample_many :
    (wordParts engTab [97, 45, 97, 45, 97, 45, 97, 45, 65]).length = 5 ∧
    capGet engTab 48 [97, 45, 97, 45, 97, 45, 97, 45, 65] =
      some (some ([97, 45, 97, 45, 97, 45, 97, 45, 97], 9 * 65536 + 7 * 256 + 0)) := by decide +kernel

/-- **C15** refuted for nine parts: with a capital in the ninth part the reported *length* is wrong
("a-a-a-a-a-a-a-a-A", 17 bytes, is reported to have 19, i.e. beyond the terminator). -/
theorem C15_counterexample_length :
    capGet engTab 48 [97, 45, 97, 45, 97, 45, 97, 45, 97, 45, 97, 45, 97, 45, 97, 45, 65] =
      some (some ([97, 45, 97, 45, 97, 45, 97, 45, 97, 45, 97, 45, 97, 45, 97, 45, 97], 19 * 65536 + 9 * 256 + 0)) := by
  decide +kernel

/-- **C15** refuted for seventeen parts: the shift count reaches 32, which is undefined behaviour
("a-a-…-a", seventeen times, 33 bytes, below the word limit). -/
theorem C15_counterexample_shift :
    capGet engTab 48 (List.flatten (List.replicate 16 [97, 45]) ++ [97]) = none := by decide +kernel

/-- The hypotheses of `C15_classification_partial` are met by "Jean-PAUL". -/
example : capGet engTab 48 [74, 101, 97, 110, 45, 80, 65, 85, 76] =
    some (some ([106, 101, 97, 110, 45, 112, 97, 117, 108], 9 * 65536 + 2 * 256 + (1 + 4 * 2))) := by
  have := C15_classification_partial engTab engTab_ok 48 [74, 101, 97, 110, 45, 80, 65, 85, 76]
    (by decide) (by decide) (by decide +kernel) (by decide +kernel)
  rw [this]; decide +kernel

/-! ### C18 -/

/-- **C18** a spelling that is good for a higher demand is good for every lower one. -/
theorem C18_monotone (s m m' : Nat) (h : isGood s m = true) (hm : m' ≤ m) : isGood s m' = true := by
  have hm2 : m ≤ 2 := by
    by_contra hc
    simp only [isGood] at h
    rw [if_neg (by omega), if_neg (by omega), if_neg (by omega)] at h
    simp at h
  have hm' : m' ≤ 2 := by omega
  interval_cases m <;> interval_cases m' <;> simp_all [isGood, isGoodMin0, isGoodMin1]

/-- "ANNA-MARIA" is good for all three demands, "Anna-Maria" for two, "anna-maria" for one. -/
example : isGood 0x020A 2 = true ∧ isGood 0x0205 2 = false ∧ isGood 0x0205 1 = true ∧
    isGood 0x0200 1 = false ∧ isGood 0x0200 0 = true := by decide

/-! ### C16 -/

theorem forall₂_length {α β : Type} {R : α → β → Prop} {a : List α} {b : List β} (h : List.Forall₂ R a b) :
    a.length = b.length := by
  induction h with
  | nil => rfl
  | cons _ _ ih => simp [ih]

/-- **C16** applying a capitalization to a zero-terminated string changes nothing but letters into
their capitals: every byte stays or becomes its capital, delimiters stay, the terminator and every
byte after it stay. -/
theorem C16_only_case (T : CharTab) (hT : T.Ok) (hU : T.UpOk) (w tail : List Byte) (min : Nat)
    (hw : ∀ c ∈ w, c ≠ 0 ∧ c < 256) :
    ∃ w', capSet T (w ++ 0 :: tail) w.length min = some (w' ++ 0 :: tail) ∧
      List.Forall₂ (fun a b => b = a ∨ (T.ctype a ≠ ctDlm ∧ b = T.upper a)) w w' := by
  have hn : (wordParts T w).length = 1 + ((w.filter fun b => T.ctype b = ctDlm).length) := by
    rw [wordParts_length]; simp [dlmCount, Nat.add_comm]
  obtain ⟨w', h1, -, h3⟩ := setLoop_eq T hT hU tail _ (capWord (wordParts T w).length min) w hw rfl
  refine ⟨w', ?_, h3⟩
  rw [capSet, if_neg (by simp)]
  simp only [List.take_left']
  rw [← hn, h1]

/-- **C16** the length is kept, and the letters up to case. -/
theorem C16_same_letters (T : CharTab) (hT : T.Ok) (hU : T.UpOk) (w tail : List Byte) (min : Nat)
    (hw : ∀ c ∈ w, c ≠ 0 ∧ c < 256) (hl : ∀ c ∈ w, T.ctype c ≠ ctInvalid) :
    ∃ w', capSet T (w ++ 0 :: tail) w.length min = some (w' ++ 0 :: tail) ∧
      w'.length = w.length ∧ w'.map T.lower = w.map T.lower := by
  obtain ⟨w', h1, h2⟩ := C16_only_case T hT hU w tail min hw
  refine ⟨w', h1, (forall₂_length h2).symm, ?_⟩
  clear h1
  induction h2 with
  | nil => rfl
  | @cons a b l1 l2 h _ ih =>
    rw [List.map_cons, List.map_cons, ih (fun c hc => hw c (by simp [hc])) (fun c hc => hl c (by simp [hc]))]
    rcases h with rfl | ⟨h, rfl⟩
    · rfl
    · have h1 := hl a (by simp)
      have h2 := hT.types a
      rw [hU.same a (hw a (by simp)).2 (by simp only [ctDlm, ctInvalid] at *; omega)]

/-- "jean-paul" becomes "Jean-Paul"; the rest of the buffer stays. -/
example : capSet engTab ([106, 101, 97, 110, 45, 112, 97, 117, 108] ++ 0 :: [97, 98]) 9 1 =
    some ([74, 101, 97, 110, 45, 80, 97, 117, 108] ++ 0 :: [97, 98]) := by decide +kernel

/-! ### C17 -/

theorem kindsOf_zero (n : Nat) : kindsOf n 0 = List.replicate n 0 := by
  induction n with
  | zero => rfl
  | succ n ih => simp [kindsOf, ih, List.replicate_succ]

theorem kindsOf_capWord (n min : Nat) (hm : min ≤ 2) : kindsOf n (capWord n min) = demands n min := by
  match n with
  | 0 => rfl
  | 1 => interval_cases min <;> rfl
  | 2 => interval_cases min <;> rfl
  | 3 => interval_cases min <;> rfl
  | n + 4 => exact kindsOf_zero _

theorem demands_le (n min : Nat) (hm : min ≤ 2) : ∀ k ∈ demands n min, k ≤ 2 := by
  intro k hk
  match n with
  | 0 => simp [demands] at hk
  | 1 => simp [demands] at hk; omega
  | 2 => simp [demands] at hk; omega
  | 3 =>
    simp only [demands] at hk
    split at hk <;> simp at hk <;> omega
  | n + 4 => simp [demands] at hk; omega

theorem applyCase_cased (T : CharTab) (k : Nat) (hk : k ≤ 2) (p : List Byte) : applyCase T k p = casedPart T k p := by
  have : k = 0 ∨ k = 1 ∨ k = 2 := by omega
  rcases this with rfl | rfl | rfl
  · simp [applyCase_0, casedPart]
  · cases p with
    | nil => rfl
    | cons c p => simp [applyCase_1, casedPart]
  · simp [applyCase_2, casedPart]

/-- **C17/C16** the parts of the capitalized word are the capitalized parts. -/
theorem C16_parts (T : CharTab) (hT : T.Ok) (hU : T.UpOk) (w tail : List Byte) (min : Nat) (hm : min ≤ 2)
    (hw : ∀ c ∈ w, c ≠ 0 ∧ c < 256) :
    ∃ w', capSet T (w ++ 0 :: tail) w.length min = some (w' ++ 0 :: tail) ∧ w'.length = w.length ∧
      wordParts T w' = List.zipWith (casedPart T) (demands (wordParts T w).length min) (wordParts T w) := by
  have hn : (wordParts T w).length = 1 + ((w.filter fun b => T.ctype b = ctDlm).length) := by
    rw [wordParts_length]; simp [dlmCount, Nat.add_comm]
  obtain ⟨w', h1, h2, h3⟩ := setLoop_eq T hT hU tail _ (capWord (wordParts T w).length min) w hw rfl
  refine ⟨w', ?_, (forall₂_length h3).symm, ?_⟩
  · rw [capSet, if_neg (by simp)]
    simp only [List.take_left']
    rw [← hn, h1]
  · rw [h2, kindsOf_capWord _ _ hm]
    have hle := demands_le (wordParts T w).length min hm
    generalize demands (wordParts T w).length min = ks at hle
    generalize wordParts T w = ps
    induction ks generalizing ps with
    | nil => simp
    | cons k ks ih =>
      cases ps with
      | nil => simp
      | cons p ps =>
        simp only [List.zipWith_cons_cons]
        rw [applyCase_cased T k (hle k (by simp)), ih (fun k hk => hle k (by simp [hk]))]

/-- A part of small letters that all have a capital. -/
def Small (T : CharTab) (p : List Byte) : Prop :=
  p ≠ [] ∧ ∀ c ∈ p, T.ctype c = ctRegular ∧ T.ctype (T.upper c) = ctCapital

theorem kind_cased_0 (T : CharTab) (p : List Byte) (h : Small T p) : partKind T (casedPart T 0 p) = some 0 := by
  obtain ⟨h1, h2⟩ := h
  simp only [casedPart, partKind, if_neg h1]
  rw [if_pos]
  simp; intro c hc; exact (h2 c hc).1

theorem kind_cased_2 (T : CharTab) (p : List Byte) (h : Small T p) : partKind T (casedPart T 2 p) = some 2 := by
  obtain ⟨h1, h2⟩ := h
  cases p with
  | nil => exact absurd rfl h1
  | cons c p =>
    simp only [casedPart, partKind]
    rw [if_neg (by simp), if_neg, if_pos]
    · simp; exact ⟨(h2 c (by simp)).2, fun d hd => (h2 d (by simp [hd])).2⟩
    · simp [(h2 c (by simp)).2]

theorem kind_cased_1 (T : CharTab) (p : List Byte) (h : Small T p) :
    partKind T (casedPart T 1 p) = some (if p.length = 1 then 2 else 1) := by
  obtain ⟨h1, h2⟩ := h
  match p, h1, h2 with
  | [c], _, h2 => simp [casedPart, partKind, (h2 c (by simp)).2]
  | c :: d :: q, _, h2 =>
    have hd := (h2 d (by simp)).1
    have hc := (h2 c (by simp)).2
    simp only [casedPart, partKind]
    rw [if_neg (by simp), if_neg (by simp [hc]), if_neg (by simp [hd]), if_pos, if_neg (by simp)]
    simp only [List.head?_cons, Option.all_some, hc, decide_true, List.tail_cons, List.all_eq_true, Bool.true_and,
      decide_eq_true_eq]
    intro x hx
    exact (h2 x (by simp at hx ⊢; tauto)).1

/-- **C17**, for forms of up to three parts made of small letters that have capitals: the form as
printed is accepted again, i.e. its analysis meets the demand it was printed for.  For demand 1 and
more than one part, the parts must have two letters.
Missing: forms of four parts and more (`C17_four_parts`: false for all of them), forms with a
one-letter part under demand 1 (`C17_counterexample_one_letter`), forms with letters that have no
capital, such as the apostrophe (`C17_counterexample_apostrophe`). -/
theorem C17_printed_is_accepted_partial (T : CharTab) (hT : T.Ok) (hU : T.UpOk) (w tail : List Byte) (min : Nat)
    (hm : min ≤ 2) (hw : ∀ c ∈ w, c ≠ 0 ∧ c < 256) (hlen : w.length < 48)
    (hsmall : ∀ p ∈ wordParts T w, Small T p) (hparts : (wordParts T w).length ≤ 3)
    (h1 : min = 1 → 1 < (wordParts T w).length → ∀ p ∈ wordParts T w, 2 ≤ p.length) :
    ∃ w' out s, capSet T (w ++ 0 :: tail) w.length min = some (w' ++ 0 :: tail) ∧
      capGet T 48 w' = some (some (out, s)) ∧ isGood (s % 65536) min = true := by
  obtain ⟨w', e1, e2, e3⟩ := C16_parts T hT hU w tail min hm hw
  have hne := wordParts_ne T w
  have hsome : ∀ p ∈ wordParts T w', (partKind T p).isSome ∧ p ≠ [] := by
    rw [e3]
    have hle := demands_le (wordParts T w).length min hm
    generalize demands (wordParts T w).length min = ks at hle
    generalize wordParts T w = ps at hsmall
    intro p hp
    obtain ⟨k, q, hk, hq, rfl⟩ : ∃ k q, k ∈ ks ∧ q ∈ ps ∧ casedPart T k q = p := by
      clear e3 h1 hparts hne
      induction ks generalizing ps with
      | nil => simp at hp
      | cons k ks ih =>
        cases ps with
        | nil => simp at hp
        | cons q ps =>
          simp only [List.zipWith_cons_cons, List.mem_cons] at hp
          rcases hp with rfl | hp
          · exact ⟨k, q, by simp, by simp, rfl⟩
          · obtain ⟨k', q', a, b, c⟩ := ih (fun k hk => hle k (by simp [hk])) ps (fun p h => hsmall p (by simp [h])) hp
            exact ⟨k', q', by simp [a], by simp [b], c⟩
    have hs := hsmall q hq
    have hk2 := hle k hk
    have hqk : partKind T [] = none := rfl
    have hall : (partKind T (casedPart T k q)).isSome := by
      interval_cases k
      · rw [kind_cased_0 T q hs]; rfl
      · rw [kind_cased_1 T q hs]; rfl
      · rw [kind_cased_2 T q hs]; rfl
    refine ⟨hall, ?_⟩
    intro h0; rw [h0, hqk] at hall; simp at hall
  have hdl : (demands (wordParts T w).length min).length = (wordParts T w).length := by
    generalize (wordParts T w).length = n
    match n with
    | 0 => rfl
    | 1 => rfl
    | 2 => rfl
    | 3 => rfl
    | n + 4 => simp [demands]
  have hn' : (wordParts T w').length = (wordParts T w).length := by
    rw [e3, List.length_zipWith, hdl]; simp
  have hlast : (wordParts T w').getLast? ≠ some [] := by
    intro h
    exact (hsome [] (List.mem_of_getLast? h)).2 rfl
  have hget := C15_classification_partial T hT 48 w' (by omega) (by norm_num) (by omega) hlast
  rw [if_pos (fun p hp => (hsome p hp).1)] at hget
  refine ⟨w', _, _, e1, hget, ?_⟩
  rw [hn', e3]
  generalize w'.length = L
  generalize wordParts T w = ps at *
  match ps, hne, hparts with
  | [p], _, _ =>
    have hp := hsmall p (by simp)
    interval_cases min
    · simp only [demands, List.length_singleton, List.zipWith_cons_cons, List.zipWith_nil_left, List.map_cons, List.map_nil, packKinds,
        kind_cased_0 T p hp, Option.getD_some]
      rw [show (L * 65536 + 1 * 256 + (0 + 4 * 0)) % 65536 = 0x100 by omega]; decide
    · simp only [demands, List.length_singleton, List.zipWith_cons_cons, List.zipWith_nil_left, List.map_cons, List.map_nil, packKinds,
        kind_cased_1 T p hp, Option.getD_some]
      split
      · rw [show (L * 65536 + 1 * 256 + (2 + 4 * 0)) % 65536 = 0x102 by omega]; decide
      · rw [show (L * 65536 + 1 * 256 + (1 + 4 * 0)) % 65536 = 0x101 by omega]; decide
    · simp only [demands, List.length_singleton, List.zipWith_cons_cons, List.zipWith_nil_left, List.map_cons, List.map_nil, packKinds,
        kind_cased_2 T p hp, Option.getD_some]
      rw [show (L * 65536 + 1 * 256 + (2 + 4 * 0)) % 65536 = 0x102 by omega]; decide
  | [p, q], _, _ =>
    have hp := hsmall p (by simp)
    have hq := hsmall q (by simp)
    interval_cases min
    · simp only [demands, List.length_cons, List.length_nil, List.zipWith_cons_cons, List.zipWith_nil_left, List.map_cons, List.map_nil, packKinds,
        kind_cased_0 T p hp, kind_cased_0 T q hq, Option.getD_some]
      rw [show (L * 65536 + (0 + 1 + 1) * 256 + (0 + 4 * (0 + 4 * 0))) % 65536 = 0x200 by omega]; decide
    · have l1 := h1 rfl (by simp) p (by simp)
      have l2 := h1 rfl (by simp) q (by simp)
      simp only [demands, List.length_cons, List.length_nil, List.zipWith_cons_cons, List.zipWith_nil_left, List.map_cons, List.map_nil, packKinds,
        kind_cased_1 T p hp, kind_cased_1 T q hq, Option.getD_some]
      rw [if_neg (by omega), if_neg (by omega),
        show (L * 65536 + (0 + 1 + 1) * 256 + (1 + 4 * (1 + 4 * 0))) % 65536 = 0x205 by omega]; decide
    · simp only [demands, List.length_cons, List.length_nil, List.zipWith_cons_cons, List.zipWith_nil_left, List.map_cons, List.map_nil, packKinds,
        kind_cased_2 T p hp, kind_cased_2 T q hq, Option.getD_some]
      rw [show (L * 65536 + (0 + 1 + 1) * 256 + (2 + 4 * (2 + 4 * 0))) % 65536 = 0x20A by omega]; decide
  | [p, q, r], _, _ =>
    have hp := hsmall p (by simp)
    have hq := hsmall q (by simp)
    have hr := hsmall r (by simp)
    interval_cases min
    · simp only [demands, List.length_cons, List.length_nil, List.zipWith_cons_cons, List.zipWith_nil_left, List.map_cons, List.map_nil, packKinds,
        kind_cased_0 T p hp, kind_cased_0 T q hq, kind_cased_0 T r hr, Option.getD_some]
      simp only [if_neg (show ¬ (0 = 2) by decide), kind_cased_0 T q hq, Option.getD_some]
      rw [show (L * 65536 + (0 + 1 + 1 + 1) * 256 + (0 + 4 * (0 + 4 * (0 + 4 * 0)))) % 65536 = 0x300 by omega]; decide
    · have l1 := h1 rfl (by simp) p (by simp)
      have l3 := h1 rfl (by simp) r (by simp)
      simp only [demands, List.length_cons, List.length_nil, List.zipWith_cons_cons, List.zipWith_nil_left, List.map_cons, List.map_nil, packKinds,
        kind_cased_1 T p hp, kind_cased_1 T r hr, Option.getD_some]
      simp only [if_neg (show ¬ (1 = 2) by decide), kind_cased_0 T q hq, Option.getD_some]
      rw [if_neg (by omega), if_neg (by omega),
        show (L * 65536 + (0 + 1 + 1 + 1) * 256 + (1 + 4 * (0 + 4 * (1 + 4 * 0)))) % 65536 = 0x311 by omega]; decide
    · simp only [demands, List.length_cons, List.length_nil, List.zipWith_cons_cons, List.zipWith_nil_left, List.map_cons, List.map_nil, packKinds,
        kind_cased_2 T p hp, kind_cased_2 T r hr, Option.getD_some]
      simp only [if_true, kind_cased_2 T q hq, Option.getD_some]
      rw [show (L * 65536 + (0 + 1 + 1 + 1) * 256 + (2 + 4 * (2 + 4 * (2 + 4 * 0)))) % 65536 = 0x32A by omega]; decide

/-- **C17** refuted for four parts: whatever its capitalization, a word of four parts that does not end in a
hyphen meets no demand; e.g. "out-of-the-way", an article of lang-eng/dict/adj.dic, is refused under default settings. -/
theorem C17_four_parts (T : CharTab) (hT : T.Ok) (w : List Byte) (hlen : w.length < 48)
    (h4 : (wordParts T w).length = 4) (hlast : (wordParts T w).getLast? ≠ some []) :
    ∃ out s, capGet T 48 w = some (some (out, s)) ∧ ∀ m, isGood (s % 65536) m = false := by
  have := C15_classification_partial T hT 48 w hlen (by norm_num) (by omega) hlast
  refine ⟨_, _, this, ?_⟩
  intro m
  generalize hx : (if ∀ p ∈ wordParts T w, (partKind T p).isSome then
    packKinds ((wordParts T w).map fun p => (partKind T p).getD 0) else 255) = x
  have hxb : x < 256 := by
    rw [← hx]; split
    · rename_i hall
      have := packKinds_lt ((wordParts T w).map fun p => (partKind T p).getD 0) (by
        intro k hk
        obtain ⟨p, hp, rfl⟩ := List.mem_map.1 hk
        have := hall p hp
        cases hpk : partKind T p with
        | none => rw [hpk] at this; simp at this
        | some k => exact partKind_le T p k hpk)
      rw [List.length_map, h4] at this; omega
    · omega
  have e1 : 0x400 ≤ (w.length * 65536 + (wordParts T w).length * 256 + x) % 65536 := by omega
  generalize (w.length * 65536 + (wordParts T w).length * 256 + x) % 65536 = s at e1
  simp only [isGood, isGoodMin0, isGoodMin1, isGoodMin2]
  split
  · simp; omega
  · split
    · simp; omega
    · split
      · simp; omega
      · rfl

/-- **C17** refuted with a one-letter part: "t-bone" with demand 1 is printed "T-Bone", which is not accepted. -/
theorem C17_counterexample_one_letter :
    capSet engTab ([116, 45, 98, 111, 110, 101] ++ [0]) 6 1 = some ([84, 45, 66, 111, 110, 101] ++ [0]) ∧
    capGet engTab 48 [84, 45, 66, 111, 110, 101] = some (some ([116, 45, 98, 111, 110, 101], 6 * 65536 + 0x206)) ∧
    isGood 0x206 1 = false := by decide +kernel

/-- **C17** refuted with an apostrophe in front: "'em" with demand 1 is printed "'em", which is not accepted. -/
theorem C17_counterexample_apostrophe :
    capSet engTab ([39, 101, 109] ++ [0]) 3 1 = some ([39, 101, 109] ++ [0]) ∧
    capGet engTab 48 [39, 101, 109] = some (some ([39, 101, 109], 3 * 65536 + 0x100)) ∧
    isGood 0x100 1 = false := by decide +kernel

/-- The hypotheses of `C17_printed_is_accepted_partial` are met by "jean-paul" with demand 1. -/
example : ∃ w' out s, capSet engTab ([106, 101, 97, 110, 45, 112, 97, 117, 108] ++ 0 :: []) 9 1 = some (w' ++ 0 :: []) ∧
      capGet engTab 48 w' = some (some (out, s)) ∧ isGood (s % 65536) 1 = true :=
  C17_printed_is_accepted_partial engTab engTab_ok engTab_upOk [106, 101, 97, 110, 45, 112, 97, 117, 108] [] 1
    (by decide) (by decide) (by decide) (by
      have : wordParts engTab [106, 101, 97, 110, 45, 112, 97, 117, 108] = [[106, 101, 97, 110], [112, 97, 117, 108]] := by
        decide +kernel
      rw [this]; unfold Small; decide +kernel) (by decide +kernel) (by decide +kernel)

/-- The hypotheses of `C17_four_parts` are met by "out-of-the-way". -/
example : ∃ out s, capGet engTab 48 [111, 117, 116, 45, 111, 102, 45, 116, 104, 101, 45, 119, 97, 121] = some (some (out, s)) ∧
    ∀ m, isGood (s % 65536) m = false :=
  C17_four_parts engTab engTab_ok _ (by decide) (by decide +kernel) (by decide +kernel)

end Libmorph
