import Verif.Props.C79
import Verif.Lemmas.DicLines
import Verif.Props.C64
/-
C79: the control dump of the dictionary, lang-rus/dicdump: the lines, and both together.
-/
namespace Libmorph
open Spec

/-- **C79, the lines.**  The dump has a line for each lexeme number below 0x40000 that has a form, in the order of the numbers: no number is skipped, none comes twice. -/
theorem C79_dump {A : DumpApi} {F : Nat → Nat → List (List Byte)} (h : DumpOk A F) : dumpLines A = some ((List.range dumpLimit).filterMap (dumpedLine F)) := by
  rw [dumpLines, dumpLinesFrom_eq h _ 0 (by omega) (by omega), List.range_eq_range']
  rfl

/-- A line, when there is one: it shows the number and, for each form number that has forms, the first of them, all but the first one of the line without the
letters all of them begin with. -/
theorem C79_dump_line {A : DumpApi} {F : Nat → Nat → List (List Byte)} (h : DumpOk A F) {id : Nat} (hid : id < dumpLimit) :
    (dumpedLine F id = none ↔ ∀ f < 256, F id f = []) ∧
    ((∃ f < 256, F id f ≠ []) → ∃ c t, CutForms (firstForms (F id)) c ∧ lexLine id c = some t ∧ dumpedLine F id = some t) := by
  obtain ⟨t, ht, _⟩ := lexLine_some h hid
  have hnil : firstForms (F id) = [] ↔ ∀ f < 256, F id f = [] := by
    constructor
    · intro k f hf
      rw [firstForms, List.filterMap_eq_nil_iff] at k
      have := k f (by simpa using hf)
      cases hh : F id f with
      | nil => rfl
      | cons s l => rw [hh] at this; simp at this
    · exact firstForms_nil
  constructor
  · rw [← hnil, dumpedLine]
    constructor
    · intro k
      by_contra h0
      rw [if_neg h0, ht] at k
      simp at k
    · intro k; rw [if_pos k]
  · rintro ⟨f, hf, hne⟩
    refine ⟨_, t, cutMap_spec _, ht, ?_⟩
    rw [dumpedLine, if_neg (fun k => hne (hnil.1 k f hf)), ht]

/-! ### Lines tell lexemes apart -/

theorem sep_split {c : Nat} : ∀ {a b a' b' : List Nat}, c ∉ a → c ∉ a' → a ++ c :: b = a' ++ c :: b' → a = a' ∧ b = b'
  | [], b, [], b', _, _, h => by simpa using h
  | [], b, x :: a', b', _, h2, h => by
    simp at h
    exact absurd (by rw [h.1]; simp) h2
  | x :: a, b, [], b', h1, _, h => by
    simp at h
    exact absurd (by rw [h.1]; simp) h1
  | x :: a, b, y :: a', b', h1, h2, h => by
    simp only [List.cons_append, List.cons.injEq] at h
    simp only [List.mem_cons, not_or] at h1 h2
    obtain ⟨e1, e2⟩ := sep_split h1.2 h2.2 h.2
    exact ⟨by rw [h.1, e1], e2⟩

theorem hexText_inj {w v v' : Nat} (hw : 0 < w) (hv : v < 2 ^ 32) (hv' : v' < 2 ^ 32) (h : hexText w v = hexText w v') : v = v' := by
  have h1 := (hexText_read hw hv).1
  rw [h, (hexText_read hw hv').1] at h1
  simpa using h1.symm

theorem hexText_no {w v c : Nat} (hw : 0 < w) (hv : v < 2 ^ 32) (hc : isWordChar c = false) : c ∉ hexText w v := by
  intro h
  have := (hexText_read hw hv).2 c (by simp [h])
  rw [hc] at this; simp at this

theorem lexItems_cons {div : List Byte} {k : Nat} {s : List Byte} {m : List (Nat × List Byte)} {t : List Byte} (h : lexItems div ((k, s) :: m) = some t) :
    ∃ t', t = div ++ (s ++ 124 :: (hexText 2 k ++ t')) ∧ lexItems (cText "/") m = some t' := by
  rw [lexItems] at h
  split at h
  · cases ht : lexItems (cText "/") m with
    | none => rw [ht] at h; simp at h
    | some t' =>
      rw [ht] at h
      simp at h
      refine ⟨t', ?_, rfl⟩
      rw [← h, show cText "|" = [124] by decide]
      simp
  · simp at h

theorem lexItems_inj : ∀ {m m' : List (Nat × List Byte)} {div t : List Byte}, (∀ p ∈ m, p.1 < 256 ∧ 124 ∉ p.2) → (∀ p ∈ m', p.1 < 256 ∧ 124 ∉ p.2) →
    lexItems div m = some t → lexItems div m' = some t → m = m'
  | [], [], _, _, _, _, _, _ => rfl
  | [], (k, s) :: m', div, t, _, _, h, h' => by
    obtain ⟨t', e, _⟩ := lexItems_cons h'
    rw [lexItems] at h
    simp at h
    rw [h] at e
    have := congrArg List.length e
    simp at this
  | (k, s) :: m, [], div, t, _, _, h, h' => by
    obtain ⟨t', e, _⟩ := lexItems_cons h
    rw [lexItems] at h'
    simp at h'
    rw [h'] at e
    have := congrArg List.length e
    simp at this
  | (k, s) :: m, (k', s') :: m', div, t, h1, h2, h, h' => by
    obtain ⟨u, e, hu⟩ := lexItems_cons h
    obtain ⟨u', e', hu'⟩ := lexItems_cons h'
    rw [e] at e'
    have a1 := h1 (k, s) (by simp)
    have a2 := h2 (k', s') (by simp)
    obtain ⟨e1, e2⟩ := sep_split a1.2 a2.2 (List.append_cancel_left e')
    have l1 : (hexText 2 k).length = 2 := hexText_length a1.1 (by omega)
    have l2 : (hexText 2 k').length = 2 := hexText_length a2.1 (by omega)
    obtain ⟨e3, e4⟩ := List.append_inj e2 (by rw [l1, l2])
    have hk := hexText_inj (by omega) (by omega) (by omega) e3
    subst hk
    subst e4
    simp only at e1
    rw [e1, lexItems_inj (fun p hp => h1 p (by simp [hp])) (fun p hp => h2 p (by simp [hp])) hu hu']

/-- **C79, what a line tells.**  From the line one reads the lexeme number, the form numbers and the forms as they are shown (forms have no '|').  -/
theorem C79_line {id id' : Nat} {m m' : List (Nat × List Byte)} {t : DumpLine} (hid : id < 2 ^ 32) (hid' : id' < 2 ^ 32) (h : ∀ p ∈ m, p.1 < 256 ∧ 124 ∉ p.2)
    (h' : ∀ p ∈ m', p.1 < 256 ∧ 124 ∉ p.2) (h1 : lexLine id m = some t) (h2 : lexLine id' m' = some t) : id = id' ∧ m = m' := by
  rw [lexLine, Option.map_eq_some_iff] at h1 h2
  obtain ⟨u, hu, e⟩ := h1
  obtain ⟨u', hu', e'⟩ := h2
  rw [← e', List.append_assoc, List.append_assoc] at e
  obtain ⟨e1, e2⟩ := sep_split (hexText_no (by omega) hid (by decide)) (hexText_no (by omega) hid' (by decide)) e
  have := hexText_inj (by omega) hid hid' e1
  simp at e2
  rw [e2] at hu
  exact ⟨this, lexItems_inj h h' hu hu'⟩

/-- But the forms as they are shown do not tell the forms: how many letters were taken off is not shown.  "аб" with "абв", and "аб" with "в", make the same line. -/
theorem C79_ambiguous : ∃ m m' c : List (Nat × List Byte), m ≠ m' ∧ CutForms m c ∧ CutForms m' c ∧ ∀ id, lexLine id (cutMap m) = lexLine id (cutMap m') := by
  refine ⟨[(0, [224, 225]), (1, [224, 225, 226])], [(0, [224, 225]), (1, [226])], [(0, [224, 225]), (1, [226])], by decide, cutMap_spec _, cutMap_spec _, fun id => rfl⟩

/-! ### A file -/

theorem fgetsOne_line : ∀ (n : Nat) (s r : List Byte), 10 ∉ s → (s.length < n → fgetsOne n (s ++ 10 :: r) = (s ++ [10], r)) ∧
    (n ≤ s.length → fgetsOne n (s ++ 10 :: r) = (s.take n, s.drop n ++ 10 :: r))
  | 0, s, r, _ => by simp [fgetsOne]
  | n + 1, [], r, _ => by simp [fgetsOne]
  | n + 1, c :: s, r, h => by
    simp only [List.mem_cons, not_or] at h
    obtain ⟨h1, h2⟩ := fgetsOne_line n s r h.2
    have hc : c ≠ 10 := fun k => h.1 k.symm
    constructor
    · intro hn
      rw [List.cons_append, fgetsOne, if_neg hc, h1 (by simp at hn; omega)]
      rfl
    · intro hn
      rw [List.cons_append, fgetsOne, if_neg hc, h2 (by simp at hn; omega)]
      rfl

theorem takeWhile_nonzero : ∀ (s : List Byte), 0 ∉ s → s.takeWhile (fun x => decide (x ≠ 0)) = s
  | [], _ => rfl
  | c :: s, h => by
    simp only [List.mem_cons, not_or] at h
    rw [List.takeWhile_cons, takeWhile_nonzero s h.2]
    have : c ≠ 0 := fun k => h.1 k.symm
    simp [this]

theorem queueGet_line (k : Nat) : ∀ (s r : List Byte), s.length = k → 10 ∉ s → 0 ∉ s → queueGet (s ++ 10 :: r) = (s, r) := by
  induction k using Nat.strongRecOn with
  | _ k ih =>
    intro s r hk h10 h0
    obtain ⟨c, u, e⟩ : ∃ c u, s ++ 10 :: r = c :: u := by
      cases s with
      | nil => exact ⟨_, _, rfl⟩
      | cons c s => exact ⟨_, _, rfl⟩
    rw [e, queueGet, ← e]
    obtain ⟨h1, h2⟩ := fgetsOne_line 0x3ff s r h10
    rcases Nat.lt_or_ge s.length 0x3ff with hlt | hge
    · rw [h1 hlt]
      simp only
      rw [takeWhile_nonzero _ (by simp [h0])]
      simp
    · rw [h2 hge]
      simp only
      have ht0 : 0 ∉ s.take 0x3ff := fun k => h0 (List.mem_of_mem_take k)
      rw [takeWhile_nonzero _ ht0]
      have hlast : (s.take 0x3ff).getLast? ≠ some 10 := by
        intro k
        exact h10 (List.mem_of_mem_take (List.mem_of_getLast? k))
      rw [if_neg hlast, ih (s.drop 0x3ff).length (by rw [List.length_drop]; omega) (s.drop 0x3ff) r rfl (fun k => h10 (List.mem_of_mem_drop k))
        (fun k => h0 (List.mem_of_mem_drop k))]
      rw [List.take_append_drop]

/-- **C79, reading a dump.**  The lines of a file, however long, are read back as they were printed. -/
theorem C79_read_back : ∀ (L : List DumpLine) (k : Nat), (∀ s ∈ L, 10 ∉ s ∧ 0 ∉ s) → L.length < k → queueLines k (L.flatMap (· ++ [10])) = L
  | [], k, _, hk => by
    obtain ⟨m, rfl⟩ : ∃ m, k = m + 1 := ⟨k - 1, by omega⟩
    simp [queueLines]
  | s :: L, k, h, hk => by
    obtain ⟨m, rfl⟩ : ∃ m, k = m + 1 := ⟨k - 1, by omega⟩
    obtain ⟨a1, a2⟩ := h s (by simp)
    have e : (s :: L).flatMap (· ++ [10]) = s ++ 10 :: L.flatMap (· ++ [10]) := by simp
    rw [e, queueLines, if_neg (by simp), queueGet_line _ s _ rfl a1 a2]
    rw [C79_read_back L m (fun x hx => h x (by simp [hx])) (by simp at hk; omega)]

/-! ### Build, then check -/

theorem dumpedLine_id {F : Nat → Nat → List (List Byte)} {id : Nat} {t : DumpLine} (h : dumpedLine F id = some t) : ∃ u, t = hexText 1 id ++ 9 :: u := by
  rw [dumpedLine] at h
  split at h
  · simp at h
  · rw [lexLine, Option.map_eq_some_iff] at h
    obtain ⟨u, _, e⟩ := h
    exact ⟨u, by rw [← e]; simp⟩

/-- One line is before the other when its number is less. -/
def LineLess (x y : DumpLine) : Prop := ∃ a b u v, a < b ∧ b < 2 ^ 32 ∧ x = hexText 1 a ++ 9 :: u ∧ y = hexText 1 b ++ 9 :: v

theorem lineLess_order : (∀ x, ¬ LineLess x x) ∧ ∀ x y z, LineLess x y → LineLess y z → LineLess x z := by
  have key : ∀ {a b : Nat} {u v : List Nat}, a < 2 ^ 32 → b < 2 ^ 32 → hexText 1 a ++ 9 :: u = hexText 1 b ++ 9 :: v → a = b := by
    intro a b u v ha hb h
    exact hexText_inj (by omega) ha hb (sep_split (hexText_no (by omega) ha (by decide)) (hexText_no (by omega) hb (by decide)) h).1
  constructor
  · rintro x ⟨a, b, u, v, h1, h2, e1, e2⟩
    have := key (by omega) h2 (e1.symm.trans e2)
    omega
  · rintro x y z ⟨a, b, u, v, h1, h2, e1, e2⟩ ⟨a', b', u', v', h1', h2', e1', e2'⟩
    have := key h2 (by omega) (e2.symm.trans e1')
    exact ⟨a, b', u, v', by omega, h2', e1, e2'⟩

theorem dumpLines_ordered (F : Nat → Nat → List (List Byte)) : ((List.range dumpLimit).filterMap (dumpedLine F)).Pairwise LineLess := by
  rw [List.pairwise_filterMap]
  refine List.Pairwise.imp_of_mem (R := (· < ·)) ?_ List.pairwise_lt_range
  intro a b ha hb hab x hx y hy
  obtain ⟨u, rfl⟩ := dumpedLine_id hx
  obtain ⟨v, rfl⟩ := dumpedLine_id hy
  refine ⟨a, b, u, v, hab, ?_, rfl, rfl⟩
  have := List.mem_range.1 hb
  unfold dumpLimit at this
  omega

theorem dumpLines_nonempty (F : Nat → Nat → List (List Byte)) : ∀ s ∈ (List.range dumpLimit).filterMap (dumpedLine F), s ≠ [] := by
  intro s hs
  obtain ⟨id, _, h⟩ := List.mem_filterMap.1 hs
  obtain ⟨u, rfl⟩ := dumpedLine_id h
  simp

/-- **C79, check.**  Comparing the dumps of two dictionaries always ends, and nothing is printed if and only if all lexemes have the same lines. -/
theorem C79_check {A B : DumpApi} {F G : Nat → Nat → List (List Byte)} (hA : DumpOk A F) (hB : DumpOk B G) :
    ∃ L R, dumpLines A = some L ∧ dumpLines B = some R ∧ (∃ n out, dumpDiff n L R [] = some out) ∧
      ((∃ n, dumpDiff n L R [] = some []) ↔ ∀ id < dumpLimit, dumpedLine F id = dumpedLine G id) := by
  refine ⟨_, _, C79_dump hA, C79_dump hB, C79_ends_ordered lineLess_order.1 lineLess_order.2 (dumpLines_nonempty F) (dumpLines_nonempty G)
    (dumpLines_ordered F) (dumpLines_ordered G), ?_⟩
  rw [C79_same (dumpLines_nonempty F) (dumpLines_nonempty G)]
  constructor
  · intro h id hid
    have hmem : ∀ t, (t ∈ (List.range dumpLimit).filterMap (dumpedLine F) ↔ t ∈ (List.range dumpLimit).filterMap (dumpedLine G)) := by
      intro t; rw [h]
    have hlim : ∀ j < dumpLimit, j < 2 ^ 32 := by unfold dumpLimit; intro j hj; omega
    have key : ∀ (F' G' : Nat → Nat → List (List Byte)), (∀ t, t ∈ (List.range dumpLimit).filterMap (dumpedLine F') → t ∈ (List.range dumpLimit).filterMap (dumpedLine G')) →
        ∀ t, dumpedLine F' id = some t → dumpedLine G' id = some t := by
      intro F' G' hsub t ht
      obtain ⟨j, hj, hj'⟩ := List.mem_filterMap.1 (hsub t (List.mem_filterMap.2 ⟨id, List.mem_range.2 hid, ht⟩))
      have hj := List.mem_range.1 hj
      obtain ⟨u, e⟩ := dumpedLine_id ht
      obtain ⟨v, e'⟩ := dumpedLine_id hj'
      rw [e] at e'
      have := hexText_inj (by omega) (hlim _ hid) (hlim _ hj) (sep_split (hexText_no (by omega) (hlim _ hid) (by decide)) (hexText_no (by omega) (hlim _ hj) (by decide)) e').1
      rw [this]; exact hj'
    apply Option.ext
    intro t
    exact ⟨key F G (fun t h => (hmem t).1 h) t, key G F (fun t h => (hmem t).2 h) t⟩
  · intro h
    apply List.filterMap_congr
    intro id hid
    exact h id (List.mem_range.1 hid)

theorem lexItems_chars {c : Nat} (hc : isWordChar c = false) (hbar : c ≠ 124) (hsl : c ≠ 47) : ∀ {m : List (Nat × List Byte)} {div t : List Byte}, c ∉ div →
    (∀ p ∈ m, p.1 < 256 ∧ c ∉ p.2) → lexItems div m = some t → c ∉ t
  | [], div, t, _, _, h => by
    rw [lexItems] at h; simp at h; simp [h]
  | (k, s) :: m, div, t, hd, hm, h => by
    obtain ⟨u, e, hu⟩ := lexItems_cons h
    have ih := lexItems_chars hc hbar hsl (by rw [show cText "/" = [47] by decide]; simpa using hsl) (fun p hp => hm p (by simp [hp])) hu
    obtain ⟨a1, a2⟩ := hm (k, s) (by simp)
    simp only at a1 a2
    have := hexText_no (w := 2) (v := k) (c := c) (by omega) (by omega) hc
    rw [e]
    simp [hd, a2, hbar, this, ih]

theorem dumpedLine_chars {F : Nat → Nat → List (List Byte)} {id c : Nat} {t : DumpLine} (hid : id < dumpLimit) (hc : c = 10 ∨ c = 0)
    (hF : ∀ f < 256, ∀ s ∈ F id f, c ∉ s) (h : dumpedLine F id = some t) : c ∉ t := by
  have h1 : isWordChar c = false ∧ c ≠ 124 ∧ c ≠ 47 ∧ c ≠ 9 := by rcases hc with rfl | rfl <;> decide
  have hlim : id < 2 ^ 32 := by unfold dumpLimit at hid; omega
  rw [dumpedLine] at h
  split at h
  · simp at h
  · rw [lexLine, Option.map_eq_some_iff] at h
    obtain ⟨u, hu, e⟩ := h
    have := lexItems_chars h1.1 h1.2.1 h1.2.2.1 (by simp) (fun p hp => by
      obtain ⟨q, hq, e1, e2⟩ := cutMap_mem hp
      obtain ⟨k1, k2⟩ := firstForms_mem hq
      exact ⟨by omega, fun k => hF _ k1 _ k2 (e2.subset k)⟩) hu
    rw [← e]
    have h2 := hexText_no (w := 1) (v := id) (c := c) (by omega) hlim h1.1
    simp [h2, h1.2.2.2, this]

/-- **C79, build and check.**  The text printed, read back as a file and compared with the dictionary it was printed from: nothing is printed. -/
theorem C79_build_check {A : DumpApi} {F : Nat → Nat → List (List Byte)} (h : DumpOk A F) (hF : ∀ id < dumpLimit, ∀ f < 256, ∀ s ∈ F id f, 10 ∉ s ∧ 0 ∉ s) :
    ∃ text L, dumpDict A = some text ∧ dumpLines A = some L ∧ ∃ k n, dumpDiff n (queueLines k text) L [] = some [] := by
  refine ⟨_, _, by rw [dumpDict, C79_dump h]; rfl, C79_dump h, ((List.range dumpLimit).filterMap (dumpedLine F)).length + 1,
    ((List.range dumpLimit).filterMap (dumpedLine F)).length + 1, ?_⟩
  · rw [C79_read_back _ _ ?_ (Nat.lt_succ_self _)]
    · exact dumpDiff_same _ _ [] (dumpLines_nonempty F) (Nat.lt_succ_self _)
    · intro s hs
      obtain ⟨id, hid, ht⟩ := List.mem_filterMap.1 hs
      have hid := List.mem_range.1 hid
      exact ⟨dumpedLine_chars hid (Or.inl rfl) (fun f hf s hs => (hF id hid f hf s hs).1) ht,
        dumpedLine_chars hid (Or.inr rfl) (fun f hf s hs => (hF id hid f hf s hs).2) ht⟩

theorem dumpDiff_ne {n : Nat} {a b r1 r2 : List DumpLine} {s1 s2 : DumpLine} {out : List DiffOut} (h1 : srcGet a = (s1, r1)) (h2 : srcGet b = (s2, r2))
    (h : ¬ (s1 = [] ∧ s2 = [])) (hne : s1 ≠ s2) :
    dumpDiff (n + 1) a b out = match diffLoop n ⟨(loadList [s1] 0x400 r1).1, (loadList [s2] 0x400 r2).1, (loadList [s1] 0x400 r1).2, (loadList [s2] 0x400 r2).2, out⟩ with
      | none => none
      | some d => if d.v1 = [] ∧ d.v2 = [] then dumpDiff n d.src1 d.src2 d.out else some (d.out ++ [.tooBig]) := by
  rw [dumpDiff, h1, h2]
  simp only [if_neg h, if_neg hne]
  rfl

/-- **C79, a false report.**  Of the right list only 1024 lines are looked at: a line both lists have is reported as missing from the right one, and then from the left
one, when 1024 other lines stand before it. -/
theorem C79_far {s : DumpLine} {E : List DumpLine} (hs : s ≠ []) (hE : E.length = 0x400) (hne : ∀ x ∈ E, x ≠ [] ∧ x ≠ s) :
    ∃ n, dumpDiff n [s] (E ++ [s]) [] = some (.left s :: E.map .right ++ [.left [], .right s]) := by
  obtain ⟨x, E', rfl⟩ : ∃ x E', E = x :: E' := by
    cases E with
    | nil => simp at hE
    | cons x E' => exact ⟨x, E', rfl⟩
  have hx := hne x (by simp)
  have hload : ∀ (l : List DumpLine) (v : List DumpLine), (∀ y ∈ l, y ≠ []) → v.length + l.length = 0x400 → loadList v 0x400 (l ++ [s]) = (v ++ l, [s]) := by
    intro l
    induction l with
    | nil =>
      intro v _ hv
      rw [List.nil_append, loadList, if_neg (by simp at hv; omega)]
      simp
    | cons y l ih =>
      intro v hl hv
      rw [List.cons_append, loadList, if_pos (by simp at hv; omega), if_neg (hl y (by simp)), ih (v ++ [y]) (fun z hz => hl z (by simp [hz])) (by simp at hv ⊢; omega)]
      simp
  have hpop : ∀ l : List DumpLine, popDiff [] l = (l, []) := by
    intro l
    induction l with
    | nil => rfl
    | cons y l ih => simp [popDiff, ih]
  have hround : (⟨[s], x :: E', [], [s], []⟩ : DiffState).round = ⟨[], [], [], [s], .left s :: (x :: E').map .right⟩ := by
    have hsx : s ≠ x := fun k => hx.2 k.symm
    have hsE : s ∉ x :: E' := fun k => (hne s k).2 rfl
    rw [DiffState.round]
    simp only [skipSame, if_neg hsx, popDiff, if_neg hsE]
    simp only [List.not_mem_nil, if_false, hpop, loadList]
    simp
  have hround2 : ∀ o, (⟨[[]], [s], [], [], o⟩ : DiffState).round = ⟨[], [], [], [], o ++ [.left [], .right s]⟩ := by
    intro o
    have hsx : ([] : DumpLine) ≠ s := fun k => hs k.symm
    simp [DiffState.round, skipSame, popDiff, loadList, hsx]
  have hl := hload E' [x] (fun y hy => (hne y (by simp [hy])).1) (by simp at hE ⊢; omega)
  refine ⟨5, ?_⟩
  rw [dumpDiff_ne (s1 := s) (r1 := []) (s2 := x) (r2 := E' ++ [s]) rfl rfl (fun k => hs k.1) (fun k => hx.2 k.symm), hl]
  simp only [loadList]
  rw [diffLoop, if_neg (by simp)]
  simp only [List.singleton_append]
  rw [hround, diffLoop, if_pos (Or.inl rfl)]
  simp only [and_self, if_true]
  rw [dumpDiff_ne (s1 := []) (r1 := []) (s2 := s) (r2 := []) rfl rfl (fun k => hs k.2) (fun k => hs k.symm)]
  simp only [loadList]
  rw [diffLoop, if_neg (by simp), hround2, diffLoop, if_pos (Or.inl rfl)]
  simp only [and_self, if_true]
  rw [dumpDiff]
  simp [srcGet]

/-! ### The Russian dictionary -/

theorem foundForms_shape {D : RusDict} {a : RusArticle} {i : Nat} {fs : List (List Byte)} (hf : D.FoundForms a i fs) : ∀ f ∈ fs, ∃ x e, f = a.stem ++ x ++ e ++ a.post ∧
    (x = [] ∨ a.mtoffs ≠ 0 ∧ ∃ k, (x, k) ∈ D.alts a.mtoffs) ∧ (e = [] ∨ a.Inflected ∧ ∃ g fl, Ending D.ftab a.tfoffs e g fl) := by
  intro f hm
  rw [RusDict.FoundForms] at hf
  split at hf
  · rename_i hinf
    split at hf
    · subst hf; simp at hm
    · rcases hf with ⟨x, es, hx, he, rfl⟩ | ⟨_, rfl⟩
      · obtain ⟨e, h1, rfl⟩ := List.mem_map.1 hm
        obtain ⟨fl, h2, _⟩ := (he.mem e).1 h1
        refine ⟨x, e, rfl, ?_, Or.inr ⟨hinf, _, fl, h2⟩⟩
        rw [RusDict.AltFor] at hx
        split at hx
        · exact Or.inl hx
        · rename_i h0
          refine Or.inr ⟨h0, ?_⟩
          rcases hx.1 with k | k
          · exact ⟨_, k⟩
          · exact ⟨_, k.1⟩
      · simp at hm
  · subst hf
    split at hm
    · simp at hm
      exact ⟨[], [], by simp [hm], Or.inl rfl, Or.inl rfl⟩
    · simp at hm

theorem builtForms_shape {D : RusDict} {a : RusArticle} {i : Nat} {fs : List (List Byte)} (hf : D.BuiltForms a i fs) : ∀ f ∈ fs, ∃ x e, f = a.stem ++ x ++ e ++ a.post ∧
    (x = [] ∨ a.mtoffs ≠ 0 ∧ ∃ k, (x, k) ∈ D.alts a.mtoffs) ∧ (e = [] ∨ a.Inflected ∧ ∃ g fl, Ending D.ftab a.tfoffs e g fl) := by
  rw [RusDict.BuiltForms] at hf
  split at hf
  · subst hf
    intro f hm
    split at hm
    · simp at hm
    · simp at hm
      exact ⟨[], [], by simp [hm], Or.inl rfl, Or.inl rfl⟩
  · exact foundForms_shape hf

theorem rusPrinted_same (d : Nat) (hd : d ≤ 2) (w : List Byte) (hw : Text w) (h10 : 10 ∉ w) : (rusPrinted d w).length = w.length ∧ 10 ∉ rusPrinted d w := by
  have h1 := (capSet_rusPrinted w [] d hd hw).1
  obtain ⟨w2, h4, h5⟩ := C16_only_case rusTab rusTab_ok rusTab_upOk w [] d hw
  have he : w2 = rusPrinted d w := by
    rw [h1] at h4
    simpa using h4.symm
  rw [← he]
  clear h1 h4 he
  have hup : ∀ a < 256, a ≠ 10 → rusTab.upper a ≠ 10 := by decide +kernel
  induction h5 with
  | nil => simp
  | @cons a b l1 l2 hab _ ih =>
    have ha := hw a (by simp)
    simp only [List.mem_cons, not_or] at h10
    obtain ⟨i1, i2⟩ := ih (fun x hx => hw x (by simp [hx])) h10.2
    have ha10 : a ≠ 10 := fun k => h10.1 k.symm
    refine ⟨by simp [i1], ?_⟩
    simp only [List.mem_cons, not_or]
    refine ⟨?_, i2⟩
    rcases hab with rfl | ⟨_, rfl⟩
    · exact h10.1
    · exact fun k => hup a ha.2 ha10 k.symm

/-- Suffixes of at most 124 letters (endings have 64 at most, alternants 15, stems 48), and no line breaks in the words. -/
structure RusPrintable (D : RusDict) : Prop where
  posts : ∀ a ∈ D.arts, a.post.length ≤ 124
  words : ∀ a ∈ D.arts, 10 ∉ a.stem ∧ 10 ∉ a.post
  alts : ∀ a ∈ D.arts, a.mtoffs ≠ 0 → ∀ p ∈ D.alts a.mtoffs, 10 ∉ p.1
  endings : ∀ a ∈ D.arts, a.Inflected → ∀ e g fl, Ending D.ftab a.tfoffs e g fl → 10 ∉ e

theorem builtForms_short {Al : List Byte} {D : RusDict} {st : RusState} (h : RusOk Al D st) (hp : RusPrintable D) : ∀ a ∈ D.arts, ∀ i fs, D.BuiltForms a i fs → ∀ f ∈ fs,
    (rusPrinted a.demand f).length ≤ 251 ∧ 10 ∉ rusPrinted a.demand f := by
  intro a ha i fs hf f hm
  obtain ⟨x, e, e0, hx, he⟩ := builtForms_shape hf f hm
  have h1 : x.length ≤ 15 ∧ 10 ∉ x := by
    rcases hx with rfl | ⟨h0, k, hk⟩
    · simp
    · have := (h.mixes a ha h0).1.short _ hk
      exact ⟨by simp at this; omega, hp.alts a ha h0 _ hk⟩
  have h2 : e.length ≤ 64 ∧ 10 ∉ e := by
    rcases he with rfl | ⟨hinf, g, fl, hg⟩
    · simp
    · exact ⟨h.long a ha hinf e g fl hg, hp.endings a ha hinf e g fl hg⟩
  have h3 := h.short a ha
  have h4 := hp.posts a ha
  have h5 := hp.words a ha
  obtain ⟨k1, k2⟩ := rusPrinted_same a.demand a.demand_le f (builtForms_text h ha hf f hm) (by rw [e0]; simp [h5, h1.2, h2.2])
  refine ⟨?_, k2⟩
  rw [k1, e0]
  simp only [List.length_append]
  omega

/-- **C79, the Russian dictionary.**  The dump of a compiled dictionary: for a number no article has there is no line; for another one, the forms shown for a form
number are those BuildForm gives for an article with that number. -/
theorem C79_russian {Al : List Byte} {D : RusDict} {st : RusState} (h : RusOk Al D st) (hi : RusIdsOk D st) (junk : Nat → List Byte) (buffer : Nat → Nat → List Byte)
    (hj : ∀ id, (lexkey id).length + (junk id).length = 16) (hb : ∀ id f, (buffer id f).length = 256)
    (hp : RusPrintable D) :
    ∃ F, DumpOk (rusDumpApi (st.images D.mtab) junk buffer) F ∧ (∀ id < dumpLimit, ∀ f < 256, ∀ s ∈ F id f, 10 ∉ s ∧ 0 ∉ s) ∧
      (∀ id < dumpLimit, (∀ a ∈ D.arts, a.id ≠ id) → ∀ i < 256, F id i = []) ∧
      ∀ id < dumpLimit, (∃ a ∈ D.arts, a.id = id) → ∀ i < 256, ∃ a ∈ D.arts, a.id = id ∧ ∃ fs, D.BuiltForms a i fs ∧
        F id i = if (packed fs).length ≤ 256 ∧ (packed (fs.map (rusPrinted a.demand))).length + 1 ≤ 256 then fs.map (rusPrinted a.demand) else [] := by
  have hlim : ∀ j < dumpLimit, j < 2 ^ 32 := by unfold dumpLimit; intro j hj; omega
  have hshort := builtForms_short h hp
  refine ⟨fun id f => (rusWrapBuildForm (st.images D.mtab) (junk id) (buffer id f) id f).getD [], ⟨?_, ?_, ?_⟩, ?_, ?_, ?_⟩
  · intro id hid f hf
    by_cases hex : ∃ a ∈ D.arts, a.id = id
    · obtain ⟨a, ha, h1, fs, h2, h3⟩ := C64_build_form h hi (junk id) id f (hj id) hex (buffer id f) (hb id f)
      simp only [rusDumpApi, h3, Option.getD_some]
    · have := (C64_unknown h hi (junk id) id (hlim id hid) (hj id) (fun a ha k => hex ⟨a, ha, k⟩)).1 f (buffer id f) (hb id f)
      simp only [rusDumpApi, this, Option.getD_some]
  · intro id hid
    by_cases hex : ∃ a ∈ D.arts, a.id = id
    · obtain ⟨a, ha, h1, h2⟩ := rusWdInfo_eq h hi (junk id) id (hj id) hex
      refine ⟨false, by simp only [rusDumpApi, h2]; rfl, by simp⟩
    · have hno : ∀ a ∈ D.arts, a.id ≠ id := fun a ha k => hex ⟨a, ha, k⟩
      refine ⟨true, ?_, fun _ f hf => ?_⟩
      · simp [rusDumpApi, rusWdInfo, rus_lid_absent h hi (junk id) id (hlim id hid) (hj id) hno]
      · have := (C64_unknown h hi (junk id) id (hlim id hid) (hj id) hno).1 f (buffer id f) (hb id f)
        simp only [this, Option.getD_some]
  · intro id hid f hf s hs
    by_cases hex : ∃ a ∈ D.arts, a.id = id
    · obtain ⟨a, ha, h1, fs, h2, h3⟩ := C64_build_form h hi (junk id) id f (hj id) hex (buffer id f) (hb id f)
      simp only [h3, Option.getD_some] at hs
      split at hs
      · obtain ⟨g, hg, rfl⟩ := List.mem_map.1 hs
        exact (hshort a ha f fs h2 g hg).1
      · simp at hs
    · have := (C64_unknown h hi (junk id) id (hlim id hid) (hj id) (fun a ha k => hex ⟨a, ha, k⟩)).1 f (buffer id f) (hb id f)
      simp [this] at hs
  · intro id hid f hf s hs
    by_cases hex : ∃ a ∈ D.arts, a.id = id
    · obtain ⟨a, ha, h1, fs, h2, h3⟩ := C64_build_form h hi (junk id) id f (hj id) hex (buffer id f) (hb id f)
      simp only [h3, Option.getD_some] at hs
      split at hs
      · obtain ⟨g, hg, rfl⟩ := List.mem_map.1 hs
        refine ⟨(hshort a ha f fs h2 g hg).2, fun k => ?_⟩
        exact (rusPrinted_text _ a.demand_le _ (builtForms_text h ha h2 g hg) 0 k).1 rfl
      · simp at hs
    · have := (C64_unknown h hi (junk id) id (hlim id hid) (hj id) (fun a ha k => hex ⟨a, ha, k⟩)).1 f (buffer id f) (hb id f)
      simp [this] at hs
  · intro id hid hno f hf
    have := (C64_unknown h hi (junk id) id (hlim id hid) (hj id) hno).1 f (buffer id f) (hb id f)
    simp only [this, Option.getD_some]
  · intro id hid hex f hf
    obtain ⟨a, ha, h1, fs, h2, h3⟩ := C64_build_form h hi (junk id) id f (hj id) hex (buffer id f) (hb id f)
    exact ⟨a, ha, h1, fs, h2, by simp only [h3, Option.getD_some]⟩

end Libmorph
