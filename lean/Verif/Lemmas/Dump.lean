import Verif.Model.Dump
import Verif.Spec.Cpp
import Mathlib.Tactic.Ring
/-
The texts of tools/dumppage.h as a C++ compiler reads them, for C78.
-/
namespace Libmorph
open Spec

theorem tok_nil : cTokens [] = some [] := by rw [cTokens]

theorem tok_blank {c : Nat} {s : List Nat} (h : c = 32 ∨ c = 9 ∨ c = 10 ∨ c = 13) : cTokens (c :: s) = cTokens s := by
  rw [cTokens, if_pos h]

theorem tok_punct {c : Nat} {s : List Nat} (h : c ∈ [91, 93, 123, 125, 61, 44, 59]) : cTokens (c :: s) = (cTokens s).map (CTok.punct c :: ·) := by
  have h' := h
  simp only [List.mem_cons, List.not_mem_nil, or_false] at h'
  rw [cTokens, if_neg (by omega), if_neg (by omega), if_neg (by omega), if_pos h]

theorem tok_colons {s : List Nat} : cTokens (58 :: 58 :: s) = (cTokens s).map (CTok.punct 58 :: ·) := by
  rw [cTokens, if_neg (by omega), if_neg (by omega), if_neg (by omega), if_neg (by decide), if_pos (by simp)]
  rfl

theorem takeWhile_append_all {p : Nat → Bool} : ∀ {w s : List Nat}, (∀ c ∈ w, p c = true) → (∀ c, s.head? = some c → p c = false) →
    (w ++ s).takeWhile p = w ∧ (w ++ s).dropWhile p = s
  | [], s, _, h => by
    cases s with
    | nil => simp
    | cons c s =>
      have := h c rfl
      simp [this]
  | c :: w, s, h1, h2 => by
    have := takeWhile_append_all (p := p) (w := w) (s := s) (fun c hc => h1 c (by simp [hc])) h2
    have hc := h1 c (by simp)
    simp only [List.cons_append]
    rw [List.takeWhile_cons, List.dropWhile_cons, hc]
    simp [this]

theorem word_char {c : Nat} (h : isWordChar c = true) : ¬ (c = 32 ∨ c = 9 ∨ c = 10 ∨ c = 13) ∧ c ≠ 47 ∧ c ∉ [91, 93, 123, 125, 61, 44, 59] ∧ c ≠ 58 := by
  simp only [isWordChar, Bool.or_eq_true, Bool.and_eq_true, decide_eq_true_eq] at h
  simp only [List.mem_cons, List.not_mem_nil, or_false]
  omega

theorem tok_word {w s : List Nat} (h : CWord w) (hs : ∀ c, s.head? = some c → isWordChar c = false) :
    cTokens (w ++ s) = (cTokens s).map (CTok.word w :: ·) := by
  obtain ⟨⟨c, t, rfl, hd⟩, hw⟩ := h
  have hc := hw c (by simp)
  obtain ⟨w1, w2, w3, w4⟩ := word_char hc
  obtain ⟨e1, e2⟩ := takeWhile_append_all (w := t) (s := s) (fun c hc => hw c (by simp [hc])) hs
  rw [List.cons_append, cTokens, if_neg w1, if_neg (by simp [w2]), if_neg (by simp [w2]), if_neg w3, if_neg (by simp [w4]), if_neg (by simp [hd]), if_pos hc, e1, e2]

theorem tok_num {c : Nat} {t s : List Nat} {v : Nat} (hc : isDecDigit c = true) (ht : ∀ c ∈ t, isWordChar c = true) (hv : literal (c :: t) = some v)
    (hs : ∀ c, s.head? = some c → isWordChar c = false) : cTokens (c :: t ++ s) = (cTokens s).map (CTok.num v :: ·) := by
  have hw : isWordChar c = true := by
    rw [isDecDigit] at hc
    rw [isWordChar, hc]; simp
  obtain ⟨w1, w2, w3, w4⟩ := word_char hw
  obtain ⟨e1, e2⟩ := takeWhile_append_all (w := t) (s := s) ht hs
  rw [List.cons_append, cTokens, if_neg w1, if_neg (by simp [w2]), if_neg (by simp [w2]), if_neg w3, if_neg (by simp [w4]), if_pos hc, e1, e2, hv]
  rfl

/-! ### Numbers -/

theorem hexFrom_append : ∀ (v : Nat) (s t : List Nat), hexFrom v (s ++ t) = (hexFrom v s).bind fun u => hexFrom u t
  | v, [], t => rfl
  | v, c :: s, t => by
    rw [List.cons_append, hexFrom, hexFrom]
    cases hexVal c with
    | none => rfl
    | some d => exact hexFrom_append _ s t

theorem hexVal_digit {d : Nat} (h : d < 16) : hexVal (hexDigit d) = some d ∧ isWordChar (hexDigit d) = true := by
  have : ∀ d < 16, hexVal (hexDigit d) = some d ∧ isWordChar (hexDigit d) = true := by decide
  exact this d h

theorem hexFrom_rev : ∀ (n v : Nat), v < 16 ^ n → hexFrom 0 (hexRev n v).reverse = some v
  | 0, v, h => by
    have : v = 0 := by simpa using h
    subst this; rfl
  | n + 1, v, h => by
    rw [hexRev]
    by_cases h0 : v = 0
    · rw [if_pos h0, h0]; rfl
    · rw [if_neg h0, List.reverse_cons, hexFrom_append, hexFrom_rev n (v / 16) (by rw [Nat.div_lt_iff_lt_mul (by omega)]; rw [pow_succ] at h; exact h)]
      simp only [Option.bind_some, hexFrom, (hexVal_digit (Nat.mod_lt v (show 16 > 0 by omega))).1, Option.some.injEq]
      omega

theorem hexFrom_zeros : ∀ n, hexFrom 0 (List.replicate n 48) = some 0
  | 0 => rfl
  | n + 1 => by
    rw [List.replicate_succ, hexFrom]
    exact hexFrom_zeros n

theorem hexRev_chars : ∀ (n v : Nat), ∀ c ∈ hexRev n v, isWordChar c = true
  | 0, v => by simp [hexRev]
  | n + 1, v => by
    rw [hexRev]
    by_cases h0 : v = 0
    · simp [h0]
    · rw [if_neg h0]
      intro c hc
      rcases List.mem_cons.1 hc with rfl | hc
      · exact (hexVal_digit (Nat.mod_lt v (show 16 > 0 by omega))).2
      · exact hexRev_chars n _ c hc

theorem hexText_read {w v : Nat} (hw : 0 < w) (hv : v < 2 ^ 32) : literal (48 :: 120 :: hexText w v) = some v ∧ ∀ c ∈ 120 :: hexText w v, isWordChar c = true := by
  have h8 : v < 16 ^ 8 := by norm_num at hv ⊢; omega
  have hval : hexFrom 0 (hexText w v) = some v := by
    rw [hexText, hexFrom_append, hexFrom_zeros]
    exact hexFrom_rev 8 v h8
  have hne : hexText w v ≠ [] := by
    intro e
    rw [hexText] at e
    have := congrArg List.length e
    rw [List.length_append, List.length_replicate, List.length_nil] at this
    omega
  obtain ⟨c, s, e⟩ := List.exists_cons_of_ne_nil hne
  constructor
  · rw [e, literal, ← e, hval]
  · intro d hd
    rcases List.mem_cons.1 hd with rfl | hd
    · decide
    · rw [hexText] at hd
      rcases List.mem_append.1 hd with hd | hd
      · rw [List.eq_of_mem_replicate hd]; decide
      · exact hexRev_chars 8 v d (by simpa using hd)

theorem decFrom_append : ∀ (v : Nat) (s t : List Nat), decFrom v (s ++ t) = (decFrom v s).bind fun u => decFrom u t
  | v, [], t => rfl
  | v, c :: s, t => by
    rw [List.cons_append, decFrom, decFrom]
    by_cases h : isDecDigit c = true
    · rw [if_pos h, if_pos h]; exact decFrom_append _ s t
    · rw [if_neg h, if_neg h]; rfl

theorem decFrom_rev : ∀ (n v : Nat), v < 10 ^ n → decFrom 0 (decRev n v).reverse = some v
  | 0, v, h => by
    have : v = 0 := by simpa using h
    subst this; rfl
  | n + 1, v, h => by
    rw [decRev]
    by_cases h0 : v = 0
    · rw [if_pos h0, h0]; rfl
    · have hd : isDecDigit (48 + v % 10) = true := by
        simp only [isDecDigit, Bool.and_eq_true, decide_eq_true_eq]; omega
      rw [if_neg h0, List.reverse_cons, decFrom_append, decFrom_rev n (v / 10) (by rw [Nat.div_lt_iff_lt_mul (by omega)]; rw [pow_succ] at h; exact h)]
      simp only [Option.bind_some, decFrom, if_pos hd, Option.some.injEq]
      omega

theorem decRev_digits : ∀ (n v : Nat), ∀ c ∈ decRev n v, isDecDigit c = true
  | 0, v => by simp [decRev]
  | n + 1, v => by
    rw [decRev]
    by_cases h0 : v = 0
    · simp [h0]
    · rw [if_neg h0]
      intro c hc
      rcases List.mem_cons.1 hc with rfl | hc
      · simp only [isDecDigit, Bool.and_eq_true, decide_eq_true_eq]; omega
      · exact decRev_digits n _ c hc

theorem decRev_last : ∀ (n v : Nat), v ≠ 0 → v < 10 ^ n → ∃ c, (decRev n v).getLast? = some c ∧ c ≠ 48
  | 0, v, h0, h => by
    have : v = 0 := by simpa using h
    exact absurd this h0
  | n + 1, v, h0, h => by
    rw [decRev, if_neg h0]
    by_cases h1 : v / 10 = 0
    · refine ⟨48 + v % 10, ?_, by omega⟩
      have : decRev n (v / 10) = [] := by
        cases n with
        | zero => rfl
        | succ n => rw [decRev, if_pos h1]
      rw [this]; rfl
    · obtain ⟨c, h2, h3⟩ := decRev_last n (v / 10) h1 (by rw [Nat.div_lt_iff_lt_mul (by omega)]; rw [pow_succ] at h; exact h)
      refine ⟨c, ?_, h3⟩
      rw [List.getLast?_cons, h2]
      rfl

theorem decText_read {v : Nat} (hv : v < 2 ^ 32) : ∃ c t, decText v = c :: t ∧ isDecDigit c = true ∧ (∀ d ∈ t, isWordChar d = true) ∧ literal (c :: t) = some v := by
  have hdig : ∀ d, isDecDigit d = true → isWordChar d = true := by
    intro d h
    rw [isDecDigit] at h
    rw [isWordChar, h]; simp
  rw [decText]
  by_cases h0 : v = 0
  · rw [if_pos h0]
    exact ⟨48, [], rfl, by decide, by simp, by rw [h0]; rfl⟩
  · rw [if_neg h0]
    have h10 : v < 10 ^ 10 := by norm_num at hv ⊢; omega
    obtain ⟨c, h2, h3⟩ := decRev_last 10 v h0 h10
    obtain ⟨t, ht⟩ := List.getLast?_eq_some_iff.1 h2
    have hr : (decRev 10 v).reverse = c :: t.reverse := by rw [ht]; simp
    have hall := decRev_digits 10 v
    refine ⟨c, t.reverse, hr, hall c (by rw [ht]; simp), fun d hd => hdig d (hall d (by rw [ht]; simp at hd ⊢; exact Or.inl hd)), ?_⟩
    have hval := decFrom_rev 10 v h10
    rw [hr] at hval
    unfold literal
    split
    · rename_i e; simp at e; exact absurd e.1 h3
    · rename_i e; simp at e; exact absurd e.1 h3
    · rename_i e
      simp at e
      obtain ⟨rfl, rfl⟩ := e
      rw [if_neg h3]; exact hval
    · rename_i e; simp at e

/-! ### Arrays -/

/-- What is written between the values. -/
def dumpSep (k : Nat) : List Byte := if k = 0 then [] else if k % 12 = 0 then cText ",\n    " else cText ","

/-- The text of values, `k` of them being written. -/
def dumpBody : Nat → List Byte → List Byte
  | _, [] => []
  | k, b :: bs => dumpSep k ++ (cText "0x" ++ hexText 2 b) ++ dumpBody (k + 1) bs

theorem putbuff_out : ∀ (bs : List Byte) (o : DumpSource), o.stored + bs.length < 2 ^ 32 → (o.putbuff bs).out = o.out ++ dumpBody o.stored bs
  | [], o, _ => by simp [DumpSource.putbuff, dumpBody]
  | b :: bs, o, h => by
    rw [List.length_cons] at h
    have hm : (o.stored + 1) % 2 ^ 32 = o.stored + 1 := Nat.mod_eq_of_lt (by omega)
    have hp : o.putByte b = ⟨o.stored + 1, (o.putByte b).out⟩ := by
      rw [DumpSource.putByte, hm]
    have := putbuff_out bs (o.putByte b) (by rw [hp]; show o.stored + 1 + bs.length < 2 ^ 32; omega)
    rw [DumpSource.putbuff, List.foldl_cons]
    rw [DumpSource.putbuff] at this
    rw [this]
    have hs : (o.putByte b).stored = o.stored + 1 := by rw [hp]
    rw [hs]
    simp [DumpSource.putByte, dumpBody, dumpSep]

theorem pieces_out (ps : List (List Byte)) : ∀ o : DumpSource, (ps.foldl DumpSource.putbuff o) = o.putbuff ps.flatten := by
  induction ps with
  | nil => intro o; rfl
  | cons p ps ih =>
    intro o
    rw [List.foldl_cons, ih, List.flatten_cons, DumpSource.putbuff, DumpSource.putbuff, DumpSource.putbuff, List.foldl_append]

/-- The tokens of the values. -/
def itemToks (bs : List Nat) : List CTok := bs.flatMap fun b => [CTok.punct 44, CTok.num b]

theorem dumpBody_head (k : Nat) (hk : k ≠ 0) (bs : List Byte) (s : List Nat) (hs : ∀ c, s.head? = some c → isWordChar c = false) :
    ∀ c, (dumpBody k bs ++ s).head? = some c → isWordChar c = false := by
  cases bs with
  | nil => simpa [dumpBody] using hs
  | cons b bs =>
    intro c hc
    rw [dumpBody, dumpSep, if_neg hk] at hc
    have : c = 44 := by
      split at hc
      · have : (cText ",\n    ").head? = some 44 := by decide
        simp [List.head?_append, this] at hc
        exact hc.symm
      · have : (cText ",").head? = some 44 := by decide
        simp [List.head?_append, this] at hc
        exact hc.symm
    rw [this]; decide

theorem tok_sep (k : Nat) (hk : k ≠ 0) (s : List Nat) : cTokens (dumpSep k ++ s) = (cTokens s).map (CTok.punct 44 :: ·) := by
  rw [dumpSep, if_neg hk]
  split
  · show cTokens (44 :: 10 :: 32 :: 32 :: 32 :: 32 :: s) = _
    rw [tok_punct (by decide), tok_blank (by decide), tok_blank (by decide), tok_blank (by decide), tok_blank (by decide), tok_blank (by decide)]
  · show cTokens (44 :: s) = _
    rw [tok_punct (by decide)]

theorem tok_hex {w v : Nat} (hw : 0 < w) (hv : v < 2 ^ 32) (s : List Nat) (hs : ∀ c, s.head? = some c → isWordChar c = false) :
    cTokens (cText "0x" ++ hexText w v ++ s) = (cTokens s).map (CTok.num v :: ·) := by
  obtain ⟨h1, h2⟩ := hexText_read hw hv
  have : cText "0x" ++ hexText w v ++ s = 48 :: (120 :: hexText w v) ++ s := rfl
  rw [this]
  exact tok_num (by decide) h2 h1 hs

theorem tok_body : ∀ (bs : List Byte) (k : Nat), k ≠ 0 → (∀ b ∈ bs, b < 256) → ∀ s, (∀ c, s.head? = some c → isWordChar c = false) →
    cTokens (dumpBody k bs ++ s) = (cTokens s).map (itemToks bs ++ ·)
  | [], k, _, _, s, _ => by
    simp [dumpBody, itemToks]
  | b :: bs, k, hk, hb, s, hs => by
    have hb0 := hb b (by simp)
    rw [dumpBody, List.append_assoc, List.append_assoc, tok_sep k hk, tok_hex (by omega) (by omega) _ (dumpBody_head (k + 1) (by omega) bs s hs),
      tok_body bs (k + 1) (by omega) (fun b h => hb b (by simp [h])) s hs]
    cases cTokens s <;> simp [itemToks]

theorem tok_array (b : Byte) (bs : List Byte) (hb : ∀ x ∈ b :: bs, x < 256) (s : List Nat) (hs : ∀ c, s.head? = some c → isWordChar c = false) :
    cTokens (dumpBody 0 (b :: bs) ++ s) = (cTokens s).map ((CTok.num b :: itemToks bs) ++ ·) := by
  have hb0 := hb b (by simp)
  rw [dumpBody, dumpSep, if_pos rfl, List.nil_append, List.append_assoc, tok_hex (by omega) (by omega) _ (dumpBody_head 1 (by omega) bs s hs),
    tok_body bs 1 (by omega) (fun b h => hb b (by simp [h])) s hs]
  cases cTokens s <;> simp

theorem cItems_of (ts : List CTok) : ∀ (bs : List Nat) (b : Nat), cItems ((CTok.num b :: itemToks bs) ++ CTok.punct 125 :: ts) = some (b :: bs, ts)
  | [], b => by simp [itemToks, cItems]
  | c :: bs, b => by
    have : (CTok.num b :: itemToks (c :: bs)) ++ CTok.punct 125 :: ts =
        CTok.num b :: CTok.punct 44 :: ((CTok.num c :: itemToks bs) ++ CTok.punct 125 :: ts) := by simp [itemToks]
    rw [this]
    have ih := cItems_of ts bs c
    rw [List.cons_append] at ih ⊢
    rw [cItems, ih]
    · rfl
    · intro x e; simp at e

/-! ### Files -/

def tokNamespace : CTok := .word (cText "namespace")
def tokUnsigned : CTok := .word (cText "unsigned")
def tokChar : CTok := .word (cText "char")

/-- The tokens of an array of bytes. -/
def arrayToks (name : List Byte) (b : Byte) (bs : List Byte) : List CTok :=
  tokUnsigned :: tokChar :: .word name :: .punct 91 :: .punct 93 :: .punct 61 :: .punct 123 :: ((.num b :: itemToks bs) ++ [.punct 125, .punct 59])

theorem notWord_of {c : Nat} (h : isWordChar c = false) (s : List Nat) : ∀ d, (c :: s).head? = some d → isWordChar d = false := by
  intro d hd
  simp at hd
  rw [← hd]; exact h

theorem name_unsigned : CWord (cText "unsigned") := ⟨⟨117, cText "nsigned", by decide, by decide⟩, by decide⟩
theorem name_char : CWord (cText "char") := ⟨⟨99, cText "har", by decide, by decide⟩, by decide⟩
theorem name_namespace : CWord (cText "namespace") := ⟨⟨110, cText "amespace", by decide, by decide⟩, by decide⟩

theorem tok_blanks : ∀ (w s : List Nat), (∀ c ∈ w, c = 32 ∨ c = 9 ∨ c = 10 ∨ c = 13) → cTokens (w ++ s) = cTokens s
  | [], s, _ => rfl
  | c :: w, s, h => by
    rw [List.cons_append, tok_blank (h c (by simp)), tok_blanks w s fun c hc => h c (by simp [hc])]

/-- The text of an array. -/
def arrayText (name : List Byte) (bs : List Byte) : List Byte :=
  cText "  unsigned char " ++ name ++ cText "[] =\n  {\n    " ++ dumpBody 0 bs ++ cText "\n  };\n"

theorem tok_arrayText {name : List Byte} (hn : CWord name) (b : Byte) (bs : List Byte) (hb : ∀ x ∈ b :: bs, x < 256) (s : List Nat) :
    cTokens (arrayText name (b :: bs) ++ s) = (cTokens s).map (arrayToks name b bs ++ ·) := by
  have e : arrayText name (b :: bs) ++ s = [32, 32] ++ (cText "unsigned" ++ (32 :: (cText "char" ++ (32 :: (name ++ (91 :: 93 :: 32 :: 61 ::
      ([10, 32, 32] ++ (123 :: ([10, 32, 32, 32, 32] ++ (dumpBody 0 (b :: bs) ++ (10 :: 32 :: 32 :: 125 :: 59 :: 10 :: s))))))))))) := by
    rw [arrayText, show cText "  unsigned char " = [32, 32] ++ cText "unsigned" ++ [32] ++ cText "char" ++ [32] by decide,
      show cText "[] =\n  {\n    " = [91, 93, 32, 61, 10, 32, 32, 123, 10, 32, 32, 32, 32] by decide, show cText "\n  };\n" = [10, 32, 32, 125, 59, 10] by decide]
    simp
  rw [e, tok_blanks _ _ (by decide), tok_word name_unsigned (notWord_of (by decide) _), tok_blank (by decide), tok_word name_char (notWord_of (by decide) _),
    tok_blank (by decide), tok_word hn (notWord_of (by decide) _), tok_punct (by decide), tok_punct (by decide), tok_blank (by decide), tok_punct (by decide),
    tok_blanks _ _ (by decide), tok_punct (by decide), tok_blanks _ _ (by decide), tok_array b bs hb _ (notWord_of (by decide) _), tok_blank (by decide),
    tok_blank (by decide), tok_blank (by decide), tok_punct (by decide), tok_punct (by decide), tok_blank (by decide)]
  cases cTokens s <;> simp [arrayToks, tokUnsigned, tokChar]

theorem decl_array {n : Nat} {scope : List (List (List Nat))} {name : List Byte} {b : Byte} {bs : List Byte} (hb : ∀ x ∈ b :: bs, x < 256) (ts : List CTok) :
    cDecls (n + 1) scope (arrayToks name b bs ++ ts) = (cDecls n scope ts).map (⟨scope.flatten, name, 8, true, b :: bs⟩ :: ·) := by
  have e : arrayToks name b bs ++ ts = tokUnsigned :: tokChar :: .word name :: .punct 91 :: .punct 93 :: .punct 61 :: .punct 123 ::
      ((.num b :: itemToks bs) ++ CTok.punct 125 :: (CTok.punct 59 :: ts)) := by
    simp [arrayToks]
  have u1 : cText "unsigned" = [117, 110, 115, 105, 103, 110, 101, 100] := by decide
  have u2 : cText "char" = [99, 104, 97, 114] := by decide
  rw [e, tokUnsigned, tokChar, u1, u2, cDecls]
  simp only [reduceCtorEq, if_false, if_true]
  rw [if_neg (by decide), cItems_of]
  simp only
  rw [if_pos hb]

/-- The tokens of the name of a namespace. -/
def pathToks : List (List Nat) → List CTok
  | [] => []
  | [n] => [.word n]
  | n :: m :: ns => .word n :: .punct 58 :: pathToks (m :: ns)

theorem tok_path : ∀ (names : List (List Nat)), (∀ n ∈ names, CWord n) → ∀ s : List Nat,
    (∀ c, s.head? = some c → isWordChar c = false) → cTokens (joinPath names ++ s) = (cTokens s).map (pathToks names ++ ·)
  | [], _, s, _ => by simp [joinPath, pathToks]
  | [n], h, s, hs => by
    rw [joinPath, tok_word (h n (by simp)) hs]
    rfl
  | n :: m :: ns, h, s, hs => by
    have e : joinPath (n :: m :: ns) ++ s = n ++ (58 :: 58 :: (joinPath (m :: ns) ++ s)) := by rw [joinPath]; simp
    rw [e, tok_word (h n (by simp)) (notWord_of (by decide) _), tok_colons, tok_path (m :: ns) (fun x hx => h x (by simp [hx])) s hs]
    cases cTokens s <;> simp [pathToks]

theorem cPath_toks : ∀ (names : List (List Nat)), names ≠ [] → ∀ ts, cPath (pathToks names ++ .punct 123 :: ts) = some (names, ts)
  | [n], _, ts => rfl
  | n :: m :: ns, _, ts => by
    show (cPath (pathToks (m :: ns) ++ .punct 123 :: ts)).map _ = _
    rw [cPath_toks (m :: ns) (by simp) ts]
    rfl

theorem pathToks_length (names : List (List Nat)) (h : names ≠ []) : 1 ≤ (pathToks names).length := by
  cases names with
  | nil => exact absurd rfl h
  | cons n ns => cases ns <;> simp [pathToks]

theorem pathOf_ne (s : List Nat) : pathOf s ≠ [] := by
  fun_cases pathOf s <;> simp

theorem decl_open {n : Nat} {scope : List (List (List Nat))} {names : List (List Nat)} (h : names ≠ []) (ts : List CTok) :
    cDecls (n + 1) scope ((tokNamespace :: pathToks names ++ [.punct 123]) ++ ts) = cDecls n (scope ++ [names]) ts := by
  have u : cText "namespace" = [110, 97, 109, 101, 115, 112, 97, 99, 101] := by decide
  have e : (tokNamespace :: pathToks names ++ [.punct 123]) ++ ts = tokNamespace :: (pathToks names ++ .punct 123 :: ts) := by simp
  rw [e, tokNamespace, u]
  show (match cPath (pathToks names ++ .punct 123 :: ts) with
    | some (names, ts) => cDecls n (scope ++ [names]) ts
    | none => none) = _
  rw [cPath_toks names h]

theorem pathOf_word : ∀ (n : List Nat), 58 ∉ n → pathOf n = [n]
  | [], _ => rfl
  | c :: n, h => by
    rw [pathOf]
    · rw [pathOf_word n (fun h' => h (by simp [h']))]
    · intro s e _; exact h (by simp [e])

theorem pathOf_cons : ∀ (n : List Nat), 58 ∉ n → ∀ s, pathOf (n ++ 58 :: 58 :: s) = n :: pathOf s
  | [], _, s => by rw [List.nil_append, pathOf]
  | c :: n, h, s => by
    rw [List.cons_append, pathOf]
    · rw [pathOf_cons n (fun h' => h (by simp [h'])) s]
    · intro s e _; exact h (by simp [e])

theorem pathOf_join : ∀ (names : List (List Nat)), names ≠ [] → (∀ n ∈ names, 58 ∉ n) → pathOf (joinPath names) = names
  | [n], _, h => by rw [joinPath, pathOf_word n (h n (by simp))]
  | n :: m :: ns, _, h => by
    have e : joinPath (n :: m :: ns) = n ++ 58 :: 58 :: joinPath (m :: ns) := by rw [joinPath]; simp
    rw [e, pathOf_cons n (h n (by simp)), pathOf_join (m :: ns) (by simp) fun x hx => h x (by simp [hx])]

theorem Spec.CWord.no_colon {n : List Nat} (h : CWord n) : 58 ∉ n := by
  intro hc
  have := h.chars 58 hc
  revert this; decide

theorem Spec.CName.path {n : List Nat} (h : CName n) : CPath n := ⟨[n], by simp, by simpa using h, rfl⟩

/-- The text that opens and closes a namespace. -/
theorem tok_open {ns : List Byte} (hn : CPath ns) (s : List Nat) :
    cTokens (cText "namespace " ++ ns ++ cText "\n{\n\n" ++ s) = (cTokens s).map ((tokNamespace :: pathToks (pathOf ns) ++ [.punct 123]) ++ ·) := by
  obtain ⟨names, h1, h2, rfl⟩ := hn
  have e : cText "namespace " ++ joinPath names ++ cText "\n{\n\n" ++ s = cText "namespace" ++ (32 :: (joinPath names ++ (10 :: 123 :: 10 :: 10 :: s))) := by
    rw [show cText "namespace " = cText "namespace" ++ [32] by decide, show cText "\n{\n\n" = [10, 123, 10, 10] by decide]; simp
  rw [e, tok_word name_namespace (notWord_of (by decide) _), tok_blank (by decide), tok_path names (fun n hn => (h2 n hn).word) _ (notWord_of (by decide) _), tok_blank (by decide),
    tok_punct (by decide), tok_blank (by decide), tok_blank (by decide), pathOf_join names h1 fun n hn => (h2 n hn).word.no_colon]
  cases cTokens s <;> simp [tokNamespace]

theorem tok_close : cTokens (cText "\n}  // end namespace\n\n") = some [.punct 125] := by
  have e : cText "\n}  // end namespace\n\n" = 10 :: 125 :: 32 :: 32 :: 47 :: (cText "/ end namespace\n\n") := by decide
  rw [e, tok_blank (by decide), tok_punct (by decide), tok_blank (by decide), tok_blank (by decide), cTokens, if_neg (by decide), if_neg (by decide), if_pos (by decide),
    show afterLine (cText "/ end namespace\n\n") = [10] by decide, tok_blank (by decide), tok_nil]
  rfl

/-- Comments. -/
def noClose : List Nat → Bool
  | 42 :: 47 :: _ => false
  | _ :: s => noClose s
  | [] => true

theorem afterBlock_body : ∀ (body r : List Nat), noClose body = true → afterBlock (body ++ 42 :: 47 :: r) = some r
  | [], r, _ => by simp [afterBlock]
  | [c], r, _ => by
    by_cases hc : c = 42
    · subst hc; simp [afterBlock]
    · show afterBlock (c :: 42 :: 47 :: r) = some r
      unfold afterBlock
      split
      · rename_i e; simp at e
      · rename_i e; simp at e; obtain ⟨_, rfl⟩ := e; simp [afterBlock]
      · rename_i e; simp at e
  | c :: d :: body, r, h => by
    by_cases hc : c = 42 ∧ d = 47
    · obtain ⟨rfl, rfl⟩ := hc
      simp [noClose] at h
    · have h' : noClose (d :: body) = true := by
        unfold noClose at h
        split at h
        · simp at h
        · rename_i e; simp at e; obtain ⟨_, rfl⟩ := e; exact h
        · rename_i e; simp at e
      have ih := afterBlock_body (d :: body) r h'
      simp only [List.cons_append] at ih ⊢
      unfold afterBlock
      split
      · rename_i e; simp at e; exact absurd ⟨e.1, e.2.1⟩ hc
      · rename_i e; simp at e; obtain ⟨_, rfl⟩ := e; exact ih
      · rename_i e; simp at e

theorem blank_comment {body : List Nat} (h : noClose body = true) : NoTokens (47 :: 42 :: (body ++ [42, 47, 10])) := by
  intro r
  have e : 47 :: 42 :: (body ++ [42, 47, 10]) ++ 10 :: r = 47 :: 42 :: (body ++ 42 :: 47 :: 10 :: 10 :: r) := by simp
  rw [e, cTokens, if_neg (by decide), if_pos (by simp)]
  have := afterBlock_body body (10 :: 10 :: r) h
  simp only [List.tail_cons]
  split
  · rename_i h'
    rw [this] at h'; cases h'
    rw [tok_blank (by decide), tok_blank (by decide)]
  · rename_i h'
    rw [this] at h'; simp at h'

end Libmorph
