import Verif.Model.Charset
import Mathlib.Data.Nat.Bitwise
/-
C36 Byte sets list their members once, in order.
-/
namespace Libmorph

section Aux

theorem and_shift_ne_zero (w b : Nat) : (w &&& (1 <<< b) ≠ 0) ↔ w.testBit b = true := by
  rw [Nat.one_shiftLeft, Nat.and_two_pow]
  cases w.testBit b <;> simp

/-- The collector receives as much of `l` as fits. -/
def pushed (cap : Nat) (out l : List Byte) (nc : Int) : Except (List Byte) (List Byte × Int) :=
  if out.length + l.length ≤ cap then .ok (out ++ l, nc + l.length) else .error ((out ++ l).take cap)

theorem charsetBits_eq {cap o w : Nat} (hw : o < 8) : ∀ {n b : Nat} {out : List Byte} {nc : Int}, b + n ≤ 32 →
    out.length ≤ cap →
    charsetBits cap o w n b out nc = pushed cap out (((List.range' b n).filter fun i => w.testBit i).map (o * 32 + ·)) nc := by
  intro n
  induction n with
  | zero => intro b out nc _ h; simp [charsetBits, pushed, h]
  | succ n ih =>
    intro b out nc hb hout
    rw [charsetBits, List.range'_succ]
    by_cases h : w.testBit b = true
    · rw [if_pos ((and_shift_ne_zero w b).2 h), List.filter_cons, if_pos h, List.map_cons]
      have hm : (o * 32 + b) % 256 = o * 32 + b := Nat.mod_eq_of_lt (by omega)
      rw [hm]
      unfold collAppend
      by_cases hc : out.length + 1 ≤ cap
      · rw [if_neg (by simpa using hc)]
        simp only []
        rw [ih (by omega) (by simpa using hc)]
        simp only [pushed, List.length_append, List.length_cons, List.length_nil, List.append_assoc, List.singleton_append, zero_add]
        have : (out.length + 1 + (((List.range' (b + 1) n).filter fun i => w.testBit i).map (o * 32 + ·)).length) =
          out.length + ((((List.range' (b + 1) n).filter fun i => w.testBit i).map (o * 32 + ·)).length + 1) := by omega
        rw [this]
        split
        · congr 2; push_cast; omega
        · rfl
      · rw [if_pos (by simpa using hc)]
        simp only [pushed]
        rw [if_neg (by simp only [List.length_cons]; omega)]
        have : cap = out.length := by omega
        rw [this, List.take_append_of_le_length le_rfl, List.take_length]
    · rw [if_neg (fun hx => h ((and_shift_ne_zero w b).1 hx)), List.filter_cons, if_neg h]
      exact ih (by omega) hout

/-- The members recorded in a list of words. -/
def wordsMembers : Nat → List Nat → List Byte
  | _, [] => []
  | o, w :: ws => ((List.range' 0 32).filter fun i => w.testBit i).map (o * 32 + ·) ++ wordsMembers (o + 1) ws

theorem charsetWords_eq {cap : Nat} : ∀ {ws : List Nat} {o : Nat} {out : List Byte} {nc : Int}, o + ws.length ≤ 8 →
    out.length ≤ cap → charsetWords cap o ws out nc =
      if out.length + (wordsMembers o ws).length ≤ cap then (nc + (wordsMembers o ws).length, out ++ wordsMembers o ws)
      else (-1, (out ++ wordsMembers o ws).take cap) := by
  intro ws
  induction ws with
  | nil => intro o out nc _ h; simp [charsetWords, wordsMembers, h]
  | cons w ws ih =>
    intro o out nc ho hout
    simp only [List.length_cons] at ho
    rw [charsetWords, wordsMembers]
    by_cases hw : w = 0
    · rw [if_neg (by simpa using hw), ih (by omega) hout]
      subst hw
      have e : ((List.range' 0 32).filter fun i => Nat.testBit 0 i) = [] := by simp [List.filter_eq_nil_iff]
      rw [e, List.map_nil, List.nil_append]
    · rw [if_pos hw, charsetBits_eq (by omega) (by omega) hout]
      simp only [pushed]
      set l := ((List.range' 0 32).filter fun i => w.testBit i).map (o * 32 + ·) with hl
      by_cases hc : out.length + l.length ≤ cap
      · rw [if_pos hc]
        simp only []
        rw [ih (by omega) (by simpa using hc)]
        simp only [List.length_append, List.append_assoc, ← Nat.add_assoc]
        split
        · congr 1; push_cast; omega
        · rfl
      · rw [if_neg hc]
        simp only []
        rw [if_neg (by simp only [List.length_append]; omega), ← List.append_assoc]
        congr 1
        exact (List.take_append_of_le_length (by rw [List.length_append]; omega)).symm

theorem wordsMembers_eq {cs : List Byte} : ∀ {ws : List Nat} {o : Nat},
    (∀ i b, b < 32 → ∀ w, ws[i]? = some w → w.testBit b = decide ((o + i) * 32 + b ∈ cs)) →
    wordsMembers o ws = (List.range' (o * 32) (ws.length * 32)).filter fun c => decide (c ∈ cs) := by
  intro ws
  induction ws with
  | nil => intro o _; simp [wordsMembers]
  | cons w ws ih =>
    intro o h
    rw [wordsMembers, ih (o := o + 1) fun i b hb w hw => by
      have := h (i + 1) b hb w (by simpa using hw)
      rwa [show o + (i + 1) = o + 1 + i by omega] at this]
    have e : (w :: ws).length * 32 = 32 + ws.length * 32 := by simp only [List.length_cons]; omega
    rw [e, ← List.range'_append_1, List.filter_append]
    rw [show (o + 1) * 32 = o * 32 + 32 by omega]
    congr 1
    have e1 : List.range' (o * 32) 32 = (List.range' 0 32).map (o * 32 + ·) := by
      rw [List.map_add_range', Nat.add_zero]
    rw [e1, List.filter_map]
    congr 1
    apply List.filter_congr
    intro b hb
    have hb : b < 32 := by simpa [List.mem_range'] using hb
    simpa using h 0 b hb w rfl

/-- What the words of a set say. -/
def CharsetIs (u : List Nat) (cs : List Byte) : Prop :=
  u.length = 8 ∧ ∀ i b, b < 32 → ∀ w, u[i]? = some w → w.testBit b = decide (i * 32 + b ∈ cs)

theorem charsetIs_add {u : List Nat} {cs : List Byte} {c : Byte} (h : CharsetIs u cs) :
    CharsetIs (charsetAdd u c) (cs ++ [c]) := by
  refine ⟨by simpa [charsetAdd] using h.1, fun i b hb w hw => ?_⟩
  rw [charsetAdd, List.getElem?_modify] at hw
  obtain ⟨v, hv, hw2⟩ := Option.map_eq_some_iff.1 hw
  have h1 := h.2 i b hb v hv
  split at hw2
  · rename_i he
    subst he
    rw [← hw2, Nat.testBit_or, h1, Nat.one_shiftLeft, Nat.testBit_two_pow]
    by_cases hcb : c % 32 = b
    · have : c / 32 * 32 + b = c := by omega
      simp [hcb, this]
    · have : c / 32 * 32 + b ≠ c := by omega
      simp [hcb, this]
  · rename_i he
    subst hw2
    have : i * 32 + b ≠ c := by omega
    simp [h1, this]

theorem charsetIs_fold {cs : List Byte} : ∀ {u : List Nat} {ds : List Byte}, CharsetIs u ds →
    CharsetIs (cs.foldl charsetAdd u) (ds ++ cs) := by
  induction cs with
  | nil => intro u ds h; simpa using h
  | cons c cs ih =>
    intro u ds h
    have := ih (charsetIs_add (c := c) h)
    simpa using this

end Aux

/-- The members of a set of bytes: each once, ascending. -/
def byteMembers (cs : List Byte) : List Byte := (List.range 256).filter fun c => decide (c ∈ cs)

/-- After inserting any bytes in any order, with repetitions, the set lists exactly the inserted bytes, each
once, in ascending order, and returns their number - if they fit; otherwise it returns -1 and the collector
holds the beginning of the list. -/
theorem C36_members (cs : List Byte) (cap : Nat) :
    charsetList cap (cs.foldl charsetAdd charsetEmpty) =
      if (byteMembers cs).length ≤ cap then (((byteMembers cs).length : Int), byteMembers cs)
      else (-1, (byteMembers cs).take cap) := by
  have h0 : CharsetIs charsetEmpty [] := by
    refine ⟨by simp [charsetEmpty], fun i b _ w hw => ?_⟩
    have hw : w = 0 := by
      have := List.mem_of_getElem? hw
      simpa [charsetEmpty] using this
    simp [hw]
  have h := charsetIs_fold (cs := cs) h0
  rw [List.nil_append] at h
  rw [charsetList, charsetWords_eq (by rw [h.1]) (Nat.zero_le _), wordsMembers_eq (cs := cs)
    fun i b hb w hw => by simpa using h.2 i b hb w hw, h.1]
  have e : List.range' (0 * 32) (8 * 32) = List.range 256 := by rw [List.range_eq_range']
  simp only [e, List.length_nil, zero_add, List.nil_append]
  rfl

/-- The list is a list of bytes without repetition, strictly ascending, with exactly the inserted members. -/
theorem C36_order (cs : List Byte) :
    (byteMembers cs).Pairwise (· < ·) ∧ ∀ c < 256, (c ∈ byteMembers cs ↔ c ∈ cs) :=
  ⟨List.Pairwise.filter _ List.pairwise_lt_range, fun c hc => by simp [byteMembers, hc]⟩

/-- A concrete case: inserted out of order and twice. -/
example : byteMembers [200, 31, 32, 31] = [31, 32, 200] ∧
    charsetList 3 ([200, 31, 32, 31].foldl charsetAdd charsetEmpty) = (3, [31, 32, 200]) ∧
    charsetList 2 ([200, 31, 32, 31].foldl charsetAdd charsetEmpty) = (-1, [31, 32]) := by decide +kernel

end Libmorph
