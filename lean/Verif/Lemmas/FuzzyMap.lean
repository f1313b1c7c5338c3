import Verif.Lemmas.FuzzyScan
/-
What the compiler of the fuzzy dictionaries stores: references by endings, class records by numbers.
-/
namespace Libmorph

/-- The references under a key. -/
def FuzzyMap.at (m : FuzzyMap) (k : List Byte) : List FuzzyRef := (m.lookup k).getD []

theorem FuzzyMap.at_push (m : FuzzyMap) (k k' : List Byte) (r : FuzzyRef) :
    (m.push k r).at k' = m.at k' ++ (if k = k' then [r] else []) := by
  induction m with
  | nil =>
    rw [FuzzyMap.push]
    by_cases h : k = k'
    · subst h; simp [FuzzyMap.at]
    · rw [if_neg h, FuzzyMap.at, List.lookup_cons, show (k' == k) = false from beq_false_of_ne fun e => h e.symm]; rfl
  | cons p m ih =>
    obtain ⟨q, l⟩ := p
    simp only [FuzzyMap.at] at ih
    rw [FuzzyMap.push]
    by_cases h : q = k
    · subst h
      rw [if_pos rfl]
      by_cases h' : q = k'
      · subst h'; simp [FuzzyMap.at]
      · have : (k' == q) = false := beq_false_of_ne fun e => h' e.symm
        simp only [FuzzyMap.at, List.lookup_cons, this, if_neg h']; simp
    · rw [if_neg h]
      by_cases h' : k' = q
      · subst h'
        rw [if_neg fun e => h e.symm]
        simp [FuzzyMap.at]
      · have : (k' == q) = false := beq_false_of_ne h'
        simp only [FuzzyMap.at, List.lookup_cons, this]
        exact ih

theorem FuzzyMap.at_models (n : Nat) (f : Byte × List Byte) (k : List Byte) (ms : List FuzzyModel) (m : FuzzyMap) :
    FuzzyMap.at (ms.foldl (fun m x => FuzzyMap.push m (fuzzyKey f.2 x) ⟨n, x.weight, f.1⟩) m) k =
      m.at k ++ ms.filterMap fun x => if fuzzyKey f.2 x = k then some ⟨n, x.weight, f.1⟩ else none := by
  induction ms generalizing m with
  | nil => simp
  | cons x ms ih =>
    rw [List.foldl_cons, ih, FuzzyMap.at_push, List.append_assoc, List.filterMap_cons]
    split <;> simp_all

theorem fuzzyKey_eq (f k : List Byte) (m : FuzzyModel) : fuzzyKey f m = k ↔ [m.s0, m.s1] ++ f = k.reverse := by
  rw [fuzzyKey]
  constructor
  · rintro rfl; simp
  · intro h
    have := congrArg List.reverse h
    simp at this ⊢
    exact this

theorem FuzzyMap.at_addClass (n : Nat) (c : FuzzyClass) (k : List Byte) (m : FuzzyMap) :
    (m.addClass n c).at k = m.at k ++ c.refsAt n k.reverse := by
  rw [FuzzyMap.addClass, FuzzyClass.refsAt]
  generalize c.flexes = fs
  induction fs generalizing m with
  | nil => simp
  | cons f fs ih =>
    rw [List.foldl_cons, ih, FuzzyMap.at_models, List.flatMap_cons, List.append_assoc]
    simp only [fuzzyKey_eq]

theorem fuzzyMap_at (cs : List FuzzyClass) (k : List Byte) : (fuzzyMap cs).at k = fuzzyRefsAt cs k.reverse := by
  have : ∀ (m : FuzzyMap) (n : Nat), FuzzyMap.at (cs.foldl (fun (p : FuzzyMap × Nat) c => (p.1.addClass p.2 c, p.2 + 1)) (m, n)).1 k =
      m.at k ++ (cs.zipIdx n).flatMap fun p => p.1.refsAt p.2 k.reverse := by
    induction cs with
    | nil => intro m n; simp
    | cons c cs ih =>
      intro m n
      rw [List.foldl_cons, ih, FuzzyMap.at_addClass, List.zipIdx_cons, List.flatMap_cons, List.append_assoc]
  rw [fuzzyMap, this]
  simp [FuzzyMap.at, fuzzyRefsAt]

/-- The visits of the scan are those of the specification. -/
theorem byLength_visits (cs : List FuzzyClass) (t : PTree) (h : t.Holds (fuzzyMap cs)) (w : List Byte) :
    byLength t.get w.reverse = fuzzyVisits cs w := by
  rw [byLength, fuzzyVisits, List.length_reverse]
  simp only [List.flatMap_def]
  congr 1
  apply List.map_congr_left
  intro n _
  have e := fuzzyMap_at cs (w.reverse.take n)
  rw [FuzzyMap.at] at e
  rw [h, e, List.reverse_take]
  simp

/-! ### Class records -/

theorem fuzzyOffsets_get (rs : List (List Byte)) (o i : Nat) :
    (fuzzyOffsets o rs)[i]? = if i < rs.length then some (o + (rs.take i).flatten.length) else none := by
  induction rs generalizing o i with
  | nil => simp [fuzzyOffsets]
  | cons r rs ih =>
    cases i with
    | zero => simp [fuzzyOffsets]
    | succ i =>
      rw [fuzzyOffsets, List.getElem?_cons_succ, ih]
      simp only [List.length_cons, Nat.add_lt_add_iff_right, List.take_succ_cons, List.flatten_cons, List.length_append]
      split
      · congr 1; omega
      · rfl

theorem fuzzyOffsets_length (rs : List (List Byte)) (o : Nat) : (fuzzyOffsets o rs).length = rs.length := by
  induction rs generalizing o with
  | nil => rfl
  | cons r rs ih => simp [fuzzyOffsets, ih]

theorem flatten_drop_take (rs : List (List Byte)) (i : Nat) : rs.flatten.drop (rs.take i).flatten.length = (rs.drop i).flatten := by
  conv => lhs; rw [← List.take_append_drop i rs]
  rw [List.flatten_append]
  by_cases h : i ≤ rs.length
  · rw [List.take_left' (by simp [h]), List.drop_left]
  · rw [List.drop_of_length_le (by omega : rs.length ≤ i), List.append_nil, List.take_of_length_le (by omega : rs.length ≤ i)]
    simp [List.take_of_length_le (by omega : rs.length ≤ i)]

/-- The rest of a class record after the head: the endings, then the models. -/
def FuzzyClass.rest (c : FuzzyClass) : List Byte :=
  (c.flexes.map fuzzyFlexSer).flatten
    ++ (putserial c.models.length ++ ((sortModels c.models).map FuzzyModel.ser).flatten)

/-- The record of a class is found by its number. -/
theorem fuzzyClass_eq (cs : List FuzzyClass) (t : PTree) (i : Nat) (h : ∀ c ∈ cs, c.flexes.length < 2 ^ 32) :
    (∀ c, cs[i]? = some c → ∃ tl, fuzzyClass (fuzzyImages cs t) i =
        some (some (c.partSp, if c.accent then 1 else 0, c.flexes.length, c.rest ++ tl)) ∧
        fuzzyWdInfo (fuzzyImages cs t) i = some (1, some c.partSp)) ∧
      (cs[i]? = none → fuzzyClass (fuzzyImages cs t) i = some none ∧
        fuzzyWdInfo (fuzzyImages cs t) i = some (ARGUMENT_FAILED, none)) := by
  constructor
  · intro c hc
    obtain ⟨hi, he⟩ := List.getElem?_eq_some_iff.1 hc
    have hf := h c (by rw [← he]; exact List.getElem_mem hi)
    rw [fuzzyClass, fuzzyWdInfo, fuzzyImages]
    simp only
    rw [fuzzyOffsets_get, if_pos (by simpa using hi)]
    simp only [Nat.zero_add]
    rw [flatten_drop_take, ← List.map_drop, List.drop_eq_getElem_cons hi, he, List.map_cons, List.flatten_cons]
    refine ⟨((cs.drop (i + 1)).map FuzzyClass.ser).flatten, ?_, ?_⟩
    · rw [FuzzyClass.ser]
      simp only [List.append_assoc, List.cons_append, List.nil_append, getbyte, Option.bind_eq_bind, Option.bind_some]
      rw [getserial_putserial hf]
      simp only [Option.bind_some, FuzzyClass.rest, List.append_assoc]
      rfl
    · rw [FuzzyClass.ser]
      simp only [List.append_assoc, List.cons_append, List.nil_append, getbyte, Option.bind_eq_bind, Option.bind_some]
      rfl
  · intro hc
    have hi := List.getElem?_eq_none_iff.1 hc
    rw [fuzzyClass, fuzzyWdInfo, fuzzyImages]
    simp only
    rw [fuzzyOffsets_get, if_neg (by simpa using hi)]
    exact ⟨rfl, rfl⟩

end Libmorph
