import Verif.Spec.RusTables
import Verif.Lemmas.ScanTree
import Verif.Lemmas.Dict
import Mathlib.Data.List.Perm.Subperm
namespace Libmorph
open Spec

/-! ### Bytes of a compact table -/

theorem getword16_lt {p q : List Byte} {w : Nat} (hb : ∀ b ∈ p, b < 256) (h : getword16 p = some (w, q)) :
    w < 65536 ∧ ∀ b ∈ q, b < 256 := by
  match p, h with
  | lo :: hi :: p, h =>
    simp only [getword16, Option.some.injEq, Prod.mk.injEq] at h
    obtain ⟨rfl, rfl⟩ := h
    refine ⟨?_, fun b hb' => hb b (by simp [hb'])⟩
    have h1 := hb lo (by simp)
    have h2 := hb hi (by simp)
    apply Nat.or_lt_two_pow (n := 16)
    · omega
    · rw [Nat.shiftLeft_eq]; omega

theorem getbyte_lt {p q : List Byte} {c : Nat} (hb : ∀ b ∈ p, b < 256) (h : getbyte p = some (c, q)) :
    c < 256 ∧ ∀ b ∈ q, b < 256 := by
  match p, h with
  | x :: p, h =>
    simp only [getbyte, Option.some.injEq, Prod.mk.injEq] at h
    obtain ⟨rfl, rfl⟩ := h
    exact ⟨hb _ (by simp), fun b hb' => hb b (by simp [hb'])⟩

/-- The fields of an element fit their types. -/
structure CItem.Ok (i : CItem) : Prop where
  flags : i.flags < 256
  gr : i.gr < 65536
  flex : ∀ b ∈ i.flex, b < 256
  next : i.next < 65536

theorem readCItem_ok {p q : List Byte} {i : CItem} (hb : ∀ b ∈ p, b < 256) (h : readCItem p = some (i, q)) :
    i.Ok ∧ ∀ b ∈ q, b < 256 := by
  simp only [readCItem, bind, Option.bind_eq_some_iff, Prod.exists] at h
  obtain ⟨fl, p1, h1, gr, p2, h2, n, p3, h3, h4⟩ := h
  have k1 := getbyte_lt hb h1
  have k2 := getword16_lt k1.2 h2
  have k3 := getbyte_lt k2.2 h3
  have htake : ∀ b ∈ p3.take n, b < 256 := fun b hb' => k3.2 b (List.mem_of_mem_take hb')
  have hdrop : ∀ b ∈ p3.drop n, b < 256 := fun b hb' => k3.2 b (List.mem_of_mem_drop hb')
  split at h4
  · simp at h4
  · split at h4
    · simp only [Option.bind_eq_some_iff, Prod.exists, pure, Option.some.injEq, Prod.mk.injEq] at h4
      obtain ⟨nx, q', h5, rfl, rfl⟩ := h4
      have k5 := getword16_lt hdrop h5
      exact ⟨⟨k1.1, k2.1, htake, k5.1⟩, k5.2⟩
    · simp only [pure, Option.some.injEq, Prod.mk.injEq] at h4
      obtain ⟨rfl, rfl⟩ := h4
      exact ⟨⟨k1.1, k2.1, htake, by simp⟩, hdrop⟩

theorem readCItems_ok {n : Nat} {p : List Byte} {l : List CItem} (hb : ∀ b ∈ p, b < 256) (h : readCItems n p = some l) :
    ∀ i ∈ l, i.Ok := by
  induction n generalizing p l with
  | zero => simp only [readCItems, Option.some.injEq] at h; subst h; simp
  | succ n ih =>
    simp only [readCItems, bind, Option.bind_eq_some_iff, Prod.exists, pure, Option.some.injEq] at h
    obtain ⟨i, q, h1, l', h2, rfl⟩ := h
    have k := readCItem_ok hb h1
    intro j hj
    rcases List.mem_cons.1 hj with rfl | hj
    · exact k.1
    · exact ih k.2 h2 j hj

theorem compactTable_ok {ftab : List Byte} {tf : Nat} {l : List CItem} (hb : ∀ b ∈ ftab, b < 256)
    (h : compactTable ftab tf = some l) : ∀ i ∈ l, i.Ok := by
  simp only [compactTable, bind, Option.bind_eq_some_iff, Prod.exists] at h
  obtain ⟨n, p, h1, h2⟩ := h
  exact readCItems_ok (getbyte_lt (fun b hb' => hb b (List.mem_of_mem_drop hb')) h1).2 h2

theorem InTable.ok {ftab : List Byte} {tf : Nat} {i : CItem} (hb : ∀ b ∈ ftab, b < 256) (h : InTable ftab tf i) : i.Ok := by
  obtain ⟨l, h1, h2⟩ := h
  exact compactTable_ok hb h1 i h2

theorem Spec.Ending.ok {ftab : List Byte} {tf : Nat} {w : List Byte} {g fl : Nat} (hb : ∀ b ∈ ftab, b < 256)
    (h : Ending ftab tf w g fl) : g < 65536 ∧ fl < 256 := by
  induction h with
  | here h1 _ => exact ⟨(InTable.ok hb h1).gr, (InTable.ok hb h1).flags⟩
  | next h1 _ _ ih =>
    refine ⟨?_, ?_⟩
    · exact Nat.or_lt_two_pow (n := 16) (InTable.ok hb h1).gr ih.1
    · exact Nat.lt_of_le_of_lt Nat.and_le_left (InTable.ok hb h1).flags

/-! ### The expansion -/

/-- One insertion of the expansion. -/
def putEnding (t : Tree (List FlexInfo)) (p : List Byte × FlexInfo) : Tree (List FlexInfo) :=
  t.insert (fun o => addGram p.2 (o.getD [])) p.1

theorem createTree_hist (ftab : List Byte) : ∀ (d tf gr fl : Nat) (pre : List Byte) (t t' : Tree (List FlexInfo)),
    createTree ftab d tf gr fl pre t = some t' →
    ∃ h : List (List Byte × FlexInfo), t' = h.foldl putEnding t ∧
      ∀ w d, (w, d) ∈ h ↔ ∃ w' g f, Ending ftab tf w' g f ∧ w = pre ++ w' ∧ d = ⟨gr ||| g, fl &&& f⟩ := by
  intro d
  induction d with
  | zero => intro tf gr fl pre t t' h; simp [createTree] at h
  | succ d ih =>
    intro tf gr fl pre t t' h
    simp only [createTree, bind, Option.bind_eq_some_iff] at h
    obtain ⟨items, hi, h⟩ := h
    suffices H : ∀ (l : List CItem) (t t' : Tree (List FlexInfo)), (∀ i ∈ l, i ∈ items) →
        l.foldlM (createItem (createTree ftab d) gr fl pre) t = some t' →
        ∃ h : List (List Byte × FlexInfo), t' = h.foldl putEnding t ∧
          ∀ w d, (w, d) ∈ h ↔ ∃ i ∈ l, (i.flags &&& 0x80 = 0 ∧ w = pre ++ i.flex ∧ d = ⟨gr ||| i.gr, fl &&& i.flags⟩) ∨
            (i.next ≠ 0 ∧ ∃ w' g f, Ending ftab i.next w' g f ∧ w = pre ++ (i.flex ++ w') ∧ d = ⟨gr ||| (i.gr ||| g), fl &&& (i.flags &&& f)⟩) by
      obtain ⟨hh, h1, h2⟩ := H items t t' (fun i hi => hi) h
      refine ⟨hh, h1, fun w d => ?_⟩
      rw [h2]
      constructor
      · rintro ⟨i, hil, (⟨ha, rfl, rfl⟩ | ⟨ha, w', g, f, he, rfl, rfl⟩)⟩
        · exact ⟨_, _, _, Ending.here ⟨items, hi, hil⟩ ha, rfl, rfl⟩
        · exact ⟨_, _, _, Ending.next ⟨items, hi, hil⟩ ha he, rfl, rfl⟩
      · rintro ⟨w', g, f, he, rfl, rfl⟩
        cases he with
        | here hin ha =>
          obtain ⟨l, hl1, hl2⟩ := hin
          rw [hi] at hl1; cases hl1
          exact ⟨_, hl2, Or.inl ⟨ha, rfl, rfl⟩⟩
        | next hin ha he =>
          obtain ⟨l, hl1, hl2⟩ := hin
          rw [hi] at hl1; cases hl1
          exact ⟨_, hl2, Or.inr ⟨ha, _, _, _, he, rfl, rfl⟩⟩
    intro l
    induction l with
    | nil =>
      intro t t' _ h
      simp only [List.foldlM_nil, pure, Option.some.injEq] at h
      exact ⟨[], by simp [h], by simp⟩
    | cons i l ihl =>
      intro t t' hsub h
      simp only [List.foldlM_cons, bind, Option.bind_eq_some_iff] at h
      obtain ⟨t1, h1, h2⟩ := h
      obtain ⟨hh2, e2, m2⟩ := ihl t1 t' (fun j hj => hsub j (by simp [hj])) h2
      simp only [createItem] at h1
      split at h1
      · simp at h1
      · -- the element itself
        have base : ∃ h0 : List (List Byte × FlexInfo),
            (if i.flags &&& 128 = 0 then t.insert (fun o => addGram ⟨gr ||| i.gr, fl &&& i.flags⟩ (o.getD [])) (pre ++ i.flex) else t)
              = h0.foldl putEnding t ∧
            ∀ w d, (w, d) ∈ h0 ↔ (i.flags &&& 0x80 = 0 ∧ w = pre ++ i.flex ∧ d = ⟨gr ||| i.gr, fl &&& i.flags⟩) := by
          by_cases hf : i.flags &&& 128 = 0
          · refine ⟨[(pre ++ i.flex, ⟨gr ||| i.gr, fl &&& i.flags⟩)], by simp [hf, putEnding], ?_⟩
            intro w d; simp [hf]
          · exact ⟨[], by simp [hf], by intro w d; simp [hf]⟩
        obtain ⟨h0, e0, m0⟩ := base
        by_cases hn : i.next ≠ 0
        · rw [if_pos hn] at h1
          obtain ⟨hh1, e1, m1⟩ := ih _ _ _ _ _ _ h1
          refine ⟨h0 ++ hh1 ++ hh2, by rw [List.foldl_append, List.foldl_append, ← e0, ← e1, ← e2], ?_⟩
          intro w d
          rw [List.mem_append, List.mem_append, m0, m1, m2]
          constructor
          · rintro ((ha | ⟨w', g, f, he, rfl, rfl⟩) | ⟨j, hj, ha⟩)
            · exact ⟨i, by simp, Or.inl ha⟩
            · exact ⟨i, by simp, Or.inr ⟨hn, w', g, f, he, by simp, by simp [Nat.or_assoc, Nat.and_assoc]⟩⟩
            · exact ⟨j, by simp [hj], ha⟩
          · rintro ⟨j, hj, ha⟩
            rcases List.mem_cons.1 hj with rfl | hj
            · rcases ha with ha | ⟨_, w', g, f, he, rfl, rfl⟩
              · exact Or.inl (Or.inl ha)
              · exact Or.inl (Or.inr ⟨w', g, f, he, by simp, by simp [Nat.or_assoc, Nat.and_assoc]⟩)
            · exact Or.inr ⟨j, hj, ha⟩
        · rw [if_neg hn, Option.some.injEq] at h1
          refine ⟨h0 ++ hh2, by rw [List.foldl_append, ← e0, h1, ← e2], ?_⟩
          intro w d
          rw [List.mem_append, m0, m2]
          constructor
          · rintro (ha | ⟨j, hj, ha⟩)
            · exact ⟨i, by simp, Or.inl ha⟩
            · exact ⟨j, by simp [hj], ha⟩
          · rintro ⟨j, hj, ha⟩
            rcases List.mem_cons.1 hj with rfl | hj
            · rcases ha with ha | ⟨hc, _⟩
              · exact Or.inl ha
              · exact absurd hc hn
            · exact Or.inr ⟨j, hj, ha⟩

/-! ### An executable list of the endings, for concrete tables -/

/-- All the endings of a table, by enumeration. -/
def allEndings (ftab : List Byte) : Nat → Nat → Option (List (List Byte × FlexInfo))
  | 0, _ => none
  | d + 1, tf => do
    let items ← compactTable ftab tf
    let ls ← items.mapM fun i => do
      let l ← (if i.next ≠ 0 then allEndings ftab d i.next else some [] : Option _)
      return (if i.flags &&& 0x80 = 0 then [(i.flex, ⟨i.gr, i.flags⟩)] else [])
        ++ l.map fun p => (i.flex ++ p.1, ⟨i.gr ||| p.2.gramm, i.flags &&& p.2.flags⟩)
    return ls.flatten

theorem mem_allEndings {ftab : List Byte} {tf : Nat} {w : List Byte} {g fl : Nat} (he : Ending ftab tf w g fl) :
    ∀ {d : Nat} {l : List (List Byte × FlexInfo)}, allEndings ftab d tf = some l → (w, ⟨g, fl⟩) ∈ l := by
  have hmap : ∀ {α β : Type} (f : α → Option β) (xs : List α) (ys : List β), xs.mapM f = some ys →
      ∀ x ∈ xs, ∃ y ∈ ys, f x = some y := by
    intro α β f xs
    induction xs with
    | nil => intro ys _ x hx; simp at hx
    | cons x xs ih =>
      intro ys h y hy
      simp only [List.mapM_cons, bind, Option.bind_eq_some_iff, pure, Option.some.injEq] at h
      obtain ⟨z, h1, zs, h2, rfl⟩ := h
      rcases List.mem_cons.1 hy with rfl | hy
      · exact ⟨z, by simp, h1⟩
      · obtain ⟨v, hv, hv2⟩ := ih zs h2 y hy
        exact ⟨v, by simp [hv], hv2⟩
  induction he with
  | @here tf i hin h0 =>
    intro d l h
    cases d with
    | zero => simp [allEndings] at h
    | succ d =>
      simp only [allEndings, bind, Option.bind_eq_some_iff, pure, Option.some.injEq] at h
      obtain ⟨items, hi, ls, hls, rfl⟩ := h
      obtain ⟨items', hi', hmem⟩ := hin
      rw [hi] at hi'; cases hi'
      obtain ⟨y, hy, hy2⟩ := hmap _ _ _ hls i hmem
      obtain ⟨l', _, e⟩ := Option.bind_eq_some_iff.1 hy2
      simp only [Option.some.injEq] at e
      subst e
      exact List.mem_flatten.2 ⟨_, hy, by simp [h0]⟩
  | @next tf i w g fl hin h0 _ ih =>
    intro d l h
    cases d with
    | zero => simp [allEndings] at h
    | succ d =>
      simp only [allEndings, bind, Option.bind_eq_some_iff, pure, Option.some.injEq] at h
      obtain ⟨items, hi, ls, hls, rfl⟩ := h
      obtain ⟨items', hi', hmem⟩ := hin
      rw [hi] at hi'; cases hi'
      obtain ⟨y, hy, hy2⟩ := hmap _ _ _ hls i hmem
      obtain ⟨l', hl', e⟩ := Option.bind_eq_some_iff.1 hy2
      simp only [Option.some.injEq] at e
      subst e
      rw [if_pos h0] at hl'
      have := ih hl'
      refine List.mem_flatten.2 ⟨_, hy, ?_⟩
      rw [List.mem_append]
      exact Or.inr (List.mem_map.2 ⟨_, this, rfl⟩)

/-- `FlexOk` of a concrete table, by computation. -/
theorem flexOk_of {ftab A : List Byte} {tf d : Nat} {l : List (List Byte × FlexInfo)} (h : allEndings ftab d tf = some l)
    (hb : ∀ b ∈ ftab, b < 256) (ha : A.length < 128) (hA : ∀ b ∈ A, 0 < b ∧ b < 256)
    (hl : ∀ p ∈ l, ∀ b ∈ p.1, b ∈ A) (hlen : l.length ≤ 64) : FlexOk ftab A tf := by
  refine ⟨hb, ha, hA, fun w g fl he b hb' => hl _ (mem_allEndings he h) b hb', ?_⟩
  intro w x hx hd
  have hsub : x.map (fun e => (w, e)) ⊆ l := by
    intro p hp
    obtain ⟨e, he, rfl⟩ := List.mem_map.1 hp
    exact mem_allEndings (hd e he) h
  have hnd : (x.map (fun e => (w, e))).Nodup := by
    exact List.pairwise_map.2 (hx.imp (by intro a b hab h; exact hab (by simpa using h)))
  have := (List.subperm_of_subset hnd hsub).length_le
  simp at this
  omega

/-! ### What the expanded tree holds -/

theorem foldl_addGram (l : List FlexInfo) : ∀ o : Option (List FlexInfo), (∀ x, o = some x → x.Nodup) →
    (∀ x, l.foldl (fun o d => some (addGram d (o.getD []))) o = some x →
      x.Nodup ∧ ∀ d, d ∈ x ↔ d ∈ l ∨ ∃ y, o = some y ∧ d ∈ y) ∧
    (l.foldl (fun o d => some (addGram d (o.getD []))) o = none ↔ l = [] ∧ o = none) := by
  induction l with
  | nil =>
    intro o ho
    refine ⟨?_, by simp⟩
    intro x hx
    simp only [List.foldl_nil] at hx
    subst hx
    exact ⟨ho x rfl, by simp⟩
  | cons d l ih =>
    intro o ho
    have ho' : ∀ x, some (addGram d (o.getD [])) = some x → x.Nodup := by
      intro x hx
      simp only [Option.some.injEq] at hx
      subst hx
      have hn : (o.getD []).Nodup := by
        cases o with
        | none => simp
        | some y => exact ho y rfl
      simp only [addGram]
      split
      · exact hn
      · rename_i hm
        exact List.nodup_append.2 ⟨hn, by simp, by
          intro a ha b hb hab
          simp only [List.mem_singleton] at hb
          subst hb; subst hab; exact hm ha⟩
    obtain ⟨h1, h2⟩ := ih (some (addGram d (o.getD []))) ho'
    refine ⟨?_, ?_⟩
    · intro x hx
      simp only [List.foldl_cons] at hx
      obtain ⟨k1, k2⟩ := h1 x hx
      refine ⟨k1, fun e => ?_⟩
      rw [k2]
      have hm : (∃ y, some (addGram d (o.getD [])) = some y ∧ e ∈ y) ↔ e = d ∨ ∃ y, o = some y ∧ e ∈ y := by
        have : e ∈ addGram d (o.getD []) ↔ e = d ∨ e ∈ o.getD [] := by
          simp only [addGram]
          split
          · constructor
            · exact Or.inr
            · rintro (rfl | h)
              · assumption
              · exact h
          · simp only [List.mem_append, List.mem_singleton]
            exact or_comm
        have h3 : e ∈ o.getD [] ↔ ∃ y, o = some y ∧ e ∈ y := by
          cases o with
          | none => simp
          | some y => simp
        simp only [Option.some.injEq]
        constructor
        · rintro ⟨y, rfl, hy⟩
          rcases this.1 hy with h | h
          · exact Or.inl h
          · exact Or.inr (h3.1 h)
        · intro h
          refine ⟨_, rfl, this.2 ?_⟩
          rcases h with h | h
          · exact Or.inl h
          · exact Or.inr (h3.2 h)
      rw [hm, List.mem_cons]
      constructor
      · rintro (h | h | h)
        · exact Or.inl (Or.inr h)
        · exact Or.inl (Or.inl h)
        · exact Or.inr h
      · rintro ((h | h) | h)
        · exact Or.inr (Or.inl h)
        · exact Or.inl h
        · exact Or.inr (Or.inr h)
    · simp only [List.foldl_cons, h2]
      simp

/-- The history of an expansion as a history of a word tree. -/
def endingHist (h : List (List Byte × FlexInfo)) : List (List Byte × (Option (List FlexInfo) → List FlexInfo)) :=
  h.map fun p => (p.1, fun o => addGram p.2 (o.getD []))

theorem foldl_putEnding (h : List (List Byte × FlexInfo)) : h.foldl putEnding Tree.empty = runHist (endingHist h) := by
  simp only [runHist, endingHist, List.foldl_map]
  rfl

theorem endingHist_find (h : List (List Byte × FlexInfo)) (k : List Byte) :
    (∀ x, histFind (endingHist h) k = some x → x.Nodup ∧ ∀ d, d ∈ x ↔ (k, d) ∈ h) ∧
    (histFind (endingHist h) k = none ↔ ∀ d, (k, d) ∉ h) := by
  have e : histFind (endingHist h) k
      = ((h.filter fun p => p.1 = k).map Prod.snd).foldl (fun o d => some (addGram d (o.getD []))) none := by
    simp only [histFind, endingHist, List.filter_map, List.foldl_map]
    rfl
  have hm : ∀ d, d ∈ (h.filter fun p => p.1 = k).map Prod.snd ↔ (k, d) ∈ h := by
    intro d
    simp only [List.mem_map, List.mem_filter, decide_eq_true_eq, Prod.exists]
    constructor
    · rintro ⟨a, b, ⟨h1, rfl⟩, rfl⟩; exact h1
    · intro h1; exact ⟨k, d, ⟨h1, rfl⟩, rfl⟩
  obtain ⟨h1, h2⟩ := foldl_addGram ((h.filter fun p => p.1 = k).map Prod.snd) none (by simp)
  refine ⟨?_, ?_⟩
  · intro x hx
    rw [e] at hx
    obtain ⟨k1, k2⟩ := h1 x hx
    refine ⟨k1, fun d => ?_⟩
    rw [k2, hm]; simp
  · rw [e, h2]
    simp only [and_true]
    constructor
    · intro hl d hd
      have := (hm d).2 hd
      rw [hl] at this
      exact absurd this (by simp)
    · intro hd
      rw [List.eq_nil_iff_forall_not_mem]
      intro d hd'
      exact hd d ((hm d).1 hd')

/-- The expanded tree: under every string exactly the descriptions of that ending, each once. -/
theorem createTree_find {ftab : List Byte} (hb : ∀ b ∈ ftab, b < 256) {d tf : Nat} {t : Tree (List FlexInfo)}
    (h : createTree ftab d tf 0 0xff [] Tree.empty = some t) :
    t.kids.Desc ∧
    (∀ k x, t.find k = some x → x.Nodup ∧ x ≠ [] ∧ ∀ e : FlexInfo, e ∈ x ↔ Ending ftab tf k e.gramm e.flags) ∧
    (∀ k, t.find k = none ↔ ∀ g f, ¬ Ending ftab tf k g f) ∧
    (∀ Q : Byte → Prop, (∀ w g f, Ending ftab tf w g f → ∀ b ∈ w, Q b) → t.kids.AllCh Q) := by
  obtain ⟨hh, e1, m⟩ := createTree_hist ftab d tf 0 0xff [] Tree.empty t h
  have hm : ∀ (w : List Byte) (e : FlexInfo), (w, e) ∈ hh ↔ Ending ftab tf w e.gramm e.flags := by
    intro w e
    rw [m]
    constructor
    · rintro ⟨w', g, f, he, rfl, rfl⟩
      have hf := (Spec.Ending.ok hb he).2
      have : 255 &&& f = f := by
        rw [Nat.and_comm]
        have := Nat.and_two_pow_sub_one_eq_mod f 8
        rw [show (2:Nat)^8 - 1 = 255 from rfl] at this
        rw [this]; exact Nat.mod_eq_of_lt hf
      simpa [this] using he
    · intro he
      have hf := (Spec.Ending.ok hb he).2
      have : 255 &&& e.flags = e.flags := by
        rw [Nat.and_comm]
        have := Nat.and_two_pow_sub_one_eq_mod e.flags 8
        rw [show (2:Nat)^8 - 1 = 255 from rfl] at this
        rw [this]; exact Nat.mod_eq_of_lt hf
      exact ⟨w, e.gramm, e.flags, he, by simp, by simp [this]⟩
  rw [foldl_putEnding] at e1
  subst e1
  obtain ⟨k1, k2⟩ := runHist_desc_find (endingHist hh)
  refine ⟨k1, ?_, ?_, ?_⟩
  · intro k x hx
    rw [k2] at hx
    obtain ⟨n1, n2⟩ := (endingHist_find hh k).1 x hx
    refine ⟨n1, ?_, fun e => by rw [n2, hm]⟩
    rintro rfl
    have : histFind (endingHist hh) k = none := by
      rw [(endingHist_find hh k).2]
      intro d hd
      exact absurd ((n2 d).2 hd) (by simp)
    rw [this] at hx
    exact absurd hx (by simp)
  · intro k
    rw [k2, (endingHist_find hh k).2]
    constructor
    · intro h' g f he; exact h' ⟨g, f⟩ ((hm k ⟨g, f⟩).2 he)
    · intro h' e he; exact h' _ _ ((hm k e).1 he)
  · intro Q hQ
    refine (runHist_inv (endingHist hh) Q (((endingHist hh).map fun p => p.1.length).foldl max 0) (fun _ => True) ?_ ?_ ?_).1
    · intro p hp b hb'
      obtain ⟨q, hq, rfl⟩ := List.mem_map.1 hp
      exact hQ q.1 _ _ ((hm q.1 q.2).1 hq) b hb'
    · intro p hp
      have : ∀ (l : List Nat) (a x : Nat), (x ∈ l ∨ x ≤ a) → x ≤ l.foldl max a := by
        intro l
        induction l with
        | nil => intro a x hx; rcases hx with hx | hx
                 · simp at hx
                 · exact hx
        | cons y l ih =>
          intro a x hx
          simp only [List.foldl_cons]
          apply ih
          rcases hx with hx | hx
          · rcases List.mem_cons.1 hx with rfl | hx
            · exact Or.inr (Nat.le_max_right _ _)
            · exact Or.inl hx
          · exact Or.inr (Nat.le_trans hx (Nat.le_max_left _ _))
      exact this _ _ _ (Or.inl (List.mem_map.2 ⟨p, hp, rfl⟩))
    · intros; trivial

/-! ### Looking an ending up in the image -/

/-- Lists of descriptions that fit the image format. -/
def GramsOk (l : List FlexInfo) : Prop := l.length ≤ 64 ∧ ∀ g ∈ l, g.gramm < 65536 ∧ g.flags < 256

theorem gramsSer_length (l : List FlexInfo) (_ : GramsOk l) : (gramsSer l).length = gramsLen l := by
  simp only [gramsSer, gramsLen, List.length_append, putserial_len]
  congr 1
  clear * -
  induction l with
  | nil => rfl
  | cons g l ih =>
    simp only [List.map_cons, List.flatten_cons, List.length_append, ih, gramSer, putword16, List.length_cons, List.length_nil]
    omega

theorem listLoop_ser (filter : FlexInfo → Bool) (l : List FlexInfo) (h : ∀ g ∈ l, g.gramm < 65536 ∧ g.flags < 256)
    (tl : List Byte) : ∀ acc : List FlexInfo,
    listLoop filter l.length ((l.map gramSer).flatten ++ tl) acc
      = if l.filter filter = [] ∨ acc.length + (l.filter filter).length ≤ 64 then some (acc ++ l.filter filter) else none := by
  induction l with
  | nil => intro acc; simp [listLoop]
  | cons g l ih =>
    intro acc
    obtain ⟨h1, h2⟩ := h g (by simp)
    simp only [List.length_cons, List.map_cons, List.flatten_cons, List.append_assoc, listLoop, gramSer,
      bind, Option.bind, getword16_putword16 h1, List.cons_append, List.nil_append, getbyte,
      Nat.mod_eq_of_lt h2]
    by_cases hf : filter g = true
    · rw [if_pos hf]
      by_cases ha : acc.length ≥ 64
      · rw [if_pos ha, if_neg]
        simp [hf]; omega
      · rw [if_neg ha, ih (fun x hx => h x (by simp [hx])) _]
        simp only [List.length_append, List.length_cons, List.length_nil, List.filter_cons, hf, if_true, List.append_assoc,
          List.cons_append, List.nil_append, Nat.zero_add]
        by_cases he : l.filter filter = []
        · simp only [he, List.length_nil, true_or, if_true, reduceCtorEq, false_or]
          rw [if_pos (by omega)]
        · simp only [he, false_or, reduceCtorEq]
          rw [Nat.add_assoc, Nat.add_comm 1]
    · rw [if_neg hf, ih (fun x hx => h x (by simp [hx])) _]
      simp [hf]

/-- The number returned after a visit. -/
def countResult (acc : List FlexInfo) : Option Nat × List FlexInfo :=
  (if acc.length = 0 then none else some acc.length, acc)

/-- The effect of `gramList` on a list of descriptions. -/
def gramListA (filter : FlexInfo → Bool) (l : List FlexInfo) (f : Frag) (acc : List FlexInfo) :
    Option (Option Nat × List FlexInfo) :=
  if f.len = 0 then
    if l.filter filter = [] ∨ acc.length + (l.filter filter).length ≤ 64 then some (countResult (acc ++ l.filter filter)) else none
  else some (countResult acc)

theorem gramList_ser (filter : FlexInfo → Bool) (l : List FlexInfo) (h : GramsOk l) (tl : List Byte) (f : Frag)
    (acc : List FlexInfo) : gramList filter (gramsSer l ++ tl) f acc = gramListA filter l f acc := by
  simp only [gramList, gramListA, gramsSer, List.append_assoc]
  split
  · rw [putserial_short (by have := h.1; omega)]
    simp only [List.cons_append, List.nil_append, getbyte, bind, Option.bind, listLoop_ser filter l h.2 tl acc]
    split
    · rename_i heq
      split at heq
      · simp at heq
      · rename_i hc; rw [if_neg hc]
    · rename_i a heq
      split at heq
      · rename_i hc
        simp only [Option.some.injEq] at heq
        subst heq
        rw [if_pos hc]; rfl
      · simp at heq
  · rfl

/-- Visiting the stored prefixes of an ending: only the whole ending counts. -/
theorem runHits_gramList (filter : FlexInfo → Bool) (find : List Byte → Option (List FlexInfo)) (w junk : List Byte)
    (hs : ∀ x, find w = some x → x.length ≤ 64) :
    ((runHits (fun v k => gramListA filter v (restFrag junk k)) (prefixHits find w) []).map
      fun r => r.2.take (r.1.getD 0)) = some (((find w).getD []).filter filter) := by
  -- the other prefixes do nothing
  have rest : ∀ l : List Nat, (∀ k ∈ l, k < w.length) →
      runHits (fun v k => gramListA filter v (restFrag junk k))
        (l.filterMap fun k => (find (w.take k)).map fun v => (v, w.drop k)) [] = some (none, []) := by
    intro l
    induction l with
    | nil => intro _; rfl
    | cons k l ih =>
      intro hl
      have hk := hl k (by simp)
      simp only [List.filterMap_cons]
      cases find (w.take k) with
      | none => exact ih (fun x hx => hl x (by simp [hx]))
      | some v =>
        simp only [Option.map_some, runHits, gramListA, restFrag]
        rw [if_neg (by rw [List.length_drop]; omega)]
        simp only [countResult, List.length_nil, if_true]
        exact ih (fun x hx => hl x (by simp [hx]))
  have hr : (List.range (w.length + 1)).reverse = w.length :: (List.range w.length).reverse := by
    rw [List.range_succ]; simp
  simp only [prefixHits, hr, List.filterMap_cons, List.take_length]
  have hrest := rest (List.range w.length).reverse (by intro k hk; simpa using hk)
  have hrest' := hrest
  simp only [restFrag] at hrest'
  cases hf : find w with
  | none =>
    simp only [Option.map_none, hrest, Option.map_some, Option.getD_none, List.filter_nil, List.take_nil]
  | some x =>
    simp only [Option.map_some, runHits, gramListA, restFrag, List.drop_length, List.length_nil, if_true, List.nil_append]
    have hx := hs x hf
    have h64 : (x.filter filter).length ≤ 64 := Nat.le_trans (List.length_filter_le _ _) hx
    rw [if_pos (Or.inr (by omega))]
    simp only [countResult, Option.getD_some]
    by_cases h0 : (x.filter filter).length = 0
    · have he : x.filter filter = [] := List.length_eq_zero_iff.1 h0
      simp only [he, List.length_nil, if_true]
      rw [hrest']; simp
    · rw [if_neg h0]
      simp

/-- The lookup of an ending in an expanded table. -/
theorem scanFlex_tree {ftab : List Byte} {A : List Byte} {d tf : Nat} (hok : FlexOk ftab A tf)
    {t : Tree (List FlexInfo)} (h : createTree ftab d tf 0 0xff [] Tree.empty = some t)
    (hsz : (t.ser .u8 gramsSer gramsLen).length < 2 ^ 32)
    (filter : FlexInfo → Bool) (w junk tl : List Byte) (hw : w.length < 64) :
    scanFlex filter (t.ser .u8 gramsSer gramsLen ++ tl) ⟨w ++ junk, w.length⟩
      = some (((t.find w).getD []).filter filter) := by
  obtain ⟨hd, hf, hn, hch⟩ := createTree_find hok.bytes h
  have hgrams : ∀ k x, t.find k = some x → GramsOk x := by
    intro k x hx
    obtain ⟨h1, _, h3⟩ := hf k x hx
    refine ⟨hok.few k x h1 (fun e he => (h3 e).1 he), fun g hg => ?_⟩
    exact Spec.Ending.ok hok.bytes ((h3 g).1 hg)
  have hall : t.All GramsOk := Tree.all_of_find hd hgrams
  have hlen := Tree.ser_length .u8 gramsSer gramsLen t GramsOk gramsSer_length hall
  have hgood : t.Good .u8 gramsLen :=
    Tree.good_of (A := A) hd (hch _ hok.endings) (by exact hok.alpha) (fun x hx => (hok.letters x hx).2) (by omega)
  have hnz : t.kids.AllCh (fun x => x ≠ 0) := hch _ (fun w g f he b hb => by
    have := (hok.letters b (hok.endings w g f he b hb)).1; omega)
  have := scanNode_ser .u8 gramsSer gramsLen GramsOk (gramList filter) (gramListA filter)
    (fun x hx tl f s => gramList_ser filter x hx tl f s) gramsSer_length junk w maxLevels t tl []
    (by unfold sizeMod; omega) (by exact hw) hall hgood hnz
  rw [hits_eq_prefixHits] at this
  have h2 := runHits_gramList filter (fun k => t.find k) w junk (fun x hx => (hgrams w x hx).1)
  rw [← this] at h2
  simp only [scanFlex, scanTree]
  rw [show (⟨w ++ junk, w.length⟩ : Frag) = restFrag junk w from rfl]
  cases hs : scanNode Counter.u8 (gramList filter) maxLevels (t.ser .u8 gramsSer gramsLen ++ tl) (restFrag junk w) [] with
  | none => rw [hs] at h2; simp at h2
  | some r =>
    rw [hs] at h2
    simp only [bind, Option.bind, pure]
    simpa using h2

end Libmorph
