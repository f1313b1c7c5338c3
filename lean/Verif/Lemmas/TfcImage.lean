import Verif.Lemmas.Tfc
import Verif.Lemmas.RusTables
/-
The image the compiler of ending tables makes.
-/
namespace Libmorph
open Spec

theorem FxItem.ser_length (x : FxItem) (o : Nat) : (x.ser o).length = x.bufLen := by
  simp only [FxItem.ser, FxItem.bufLen, List.length_append, List.length_cons, putserial_len, putword16]
  split <;> simp <;> omega

theorem ftSer_length (t : List (FxItem × Nat)) : (ftSer t).length = ftSize (t.map (·.1)) := by
  have h : ((t.map fun p => p.1.ser p.2).flatten).length = (t.map fun p => p.1.bufLen).sum := by
    rw [List.length_flatten, List.map_map]
    congr 1
    exact List.map_congr_left fun p _ => FxItem.ser_length _ _
  rw [ftSer, ftSize]
  simp only [List.length_append, List.length_cons, h, List.map_map, Function.comp_def]
  generalize (t.map fun p => p.1.bufLen).sum = s
  split <;> simp <;> omega

theorem ftSize_even (t : List FxItem) : ftSize t % 2 = 0 := by unfold ftSize; omega

theorem ftSize_pos (t : List FxItem) : 2 ≤ ftSize t := by unfold ftSize; omega

theorem ftOffsets_spec : ∀ (ts : List (List FxItem)) (o : Nat) (offs : List Nat), ftOffsets o ts = some offs → o % 2 = 0 →
    offs.length = ts.length ∧ ∀ n (h : n < ts.length), ∃ r, offs[n]? = some r ∧ r <<< 1 = o + ((ts.take n).map ftSize).sum ∧ r < 65536
  | [], o, offs, h, _ => by
    simp only [ftOffsets, Option.some.injEq] at h
    subst h; simp
  | t :: ts, o, offs, h, ho => by
    rw [ftOffsets] at h
    split at h
    · simp at h
    rename_i hlt
    rw [Option.map_eq_some_iff] at h
    obtain ⟨l, h1, rfl⟩ := h
    obtain ⟨i1, i2⟩ := ftOffsets_spec ts _ l h1 (by have := ftSize_even t; omega)
    refine ⟨by simp [i1], fun n hn => ?_⟩
    cases n with
    | zero =>
      refine ⟨o >>> 1, by simp, ?_, ?_⟩
      · simp only [List.take_zero, List.map_nil, List.sum_nil, Nat.shiftRight_eq_div_pow, Nat.shiftLeft_eq]; omega
      · simp only [Nat.shiftRight_eq_div_pow]; omega
    | succ n =>
      obtain ⟨r, r1, r2, r3⟩ := i2 n (by simpa using hn)
      exact ⟨r, by simpa using r1, by rw [r2]; simp; omega, r3⟩

theorem drop_flatten {α : Type} (f : α → List Byte) : ∀ (l : List α) (n : Nat) (a : α), l[n]? = some a →
    ∃ rest, ((l.map f).flatten).drop (((l.take n).map fun x => (f x).length).sum) = f a ++ rest
  | [], n, a, h => by simp at h
  | x :: l, 0, a, h => by
    simp only [List.getElem?_cons_zero, Option.some.injEq] at h
    subst h
    exact ⟨(l.map f).flatten, by simp⟩
  | x :: l, n + 1, a, h => by
    obtain ⟨rest, hr⟩ := drop_flatten f l n a (by simpa using h)
    refine ⟨rest, ?_⟩
    rw [← hr]
    simp only [List.map_cons, List.flatten_cons, List.take_succ_cons, List.sum_cons]
    rw [List.drop_append, List.drop_eq_nil_of_le (by omega)]
    simp

/-- The element of the image that stands for a line. -/
def FxItem.citem (x : FxItem) (o : Nat) : CItem := ⟨x.flags, x.gr, x.tail, if x.flags &&& 0xc0 ≠ 0 then o else 0⟩

theorem readCItem_ser (x : FxItem) (o : Nat) (h1 : x.tail.length < 128) (h2 : x.gr < 65536) (h3 : x.flags < 256) (h4 : o < 65536) (tl : List Byte) :
    readCItem (x.ser o ++ tl) = some (x.citem o, tl) := by
  rw [FxItem.ser, readCItem, putserial_short h1, Nat.mod_eq_of_lt h3]
  simp only [List.cons_append, List.append_assoc, getbyte, bind, Option.bind_some]
  rw [getword16_putword16 (by simpa using h2)]
  simp only [Option.bind_some, List.singleton_append]
  by_cases hc : x.flags &&& 0xc0 = 0
  · simp [hc, FxItem.citem]
  · simp only [ne_eq, hc, not_false_eq_true, if_true, FxItem.citem, List.length_append, List.nil_append, List.drop_left]
    rw [getword16_putword16 (by simpa using h4)]
    rw [if_neg (by omega)]
    simp

theorem readCItems_ser : ∀ (t : List (FxItem × Nat)) (tl : List Byte),
    (∀ p ∈ t, p.1.tail.length < 128 ∧ p.1.gr < 65536 ∧ p.1.flags < 256 ∧ p.2 < 65536) →
    readCItems t.length ((t.map fun p => p.1.ser p.2).flatten ++ tl) = some (t.map fun p => p.1.citem p.2)
  | [], tl, _ => rfl
  | p :: t, tl, h => by
    obtain ⟨h1, h2, h3, h4⟩ := h p (by simp)
    rw [List.length_cons, readCItems]
    simp only [List.map_cons, List.flatten_cons, List.append_assoc]
    rw [readCItem_ser _ _ h1 h2 h3 h4]
    simp only [bind, Option.bind_some]
    rw [readCItems_ser t tl fun q hq => h q (by simp [hq])]
    rfl

theorem compactTable_ser (img : List Byte) (r : Nat) (t : List (FxItem × Nat)) (rest : List Byte) (h : img.drop (r <<< 1) = ftSer t ++ rest)
    (hl : t.length < 256) (hp : ∀ p ∈ t, p.1.tail.length < 128 ∧ p.1.gr < 65536 ∧ p.1.flags < 256 ∧ p.2 < 65536) :
    compactTable img r = some (t.map fun p => p.1.citem p.2) := by
  rw [compactTable, h, ftSer, Nat.mod_eq_of_lt hl]
  simp only [List.cons_append, List.append_assoc, getbyte, bind, Option.bind_some]
  exact readCItems_ser t _ hp

/-! ### Names are listed once -/

theorem mapEmplace_nodup {α β : Type} [DecidableEq α] (m : List (α × β)) (k : α) (v : β) (h : (m.map (·.1)).Nodup) :
    ((mapEmplace m k v).map (·.1)).Nodup := by
  rw [mapEmplace]
  split
  · exact h
  · rename_i hn
    rw [List.map_append, List.nodup_append]
    refine ⟨h, by simp, ?_⟩
    intro a ha b hb e
    subst e
    simp only [List.map_cons, List.map_nil, List.mem_singleton] at hb
    subst hb
    obtain ⟨p, hp, rfl⟩ := List.mem_map.1 ha
    exact hn (List.any_eq_true.2 ⟨p, hp, by simp⟩)

theorem mapFind_mem {α β : Type} [DecidableEq α] (k : α) (v : β) : ∀ m : List (α × β), (m.map (·.1)).Nodup → ((k, v) ∈ m ↔ mapFind m k = some v)
  | [], _ => by simp [mapFind]
  | (a, b) :: m, h => by
    simp only [List.map_cons, List.nodup_cons] at h
    have ih := mapFind_mem k v m h.2
    rw [mapFind, List.find?_cons]
    by_cases hk : a = k
    · subst hk
      simp only [List.mem_cons, Prod.mk.injEq, true_and, decide_true, Option.map_some, Option.some.injEq]
      constructor
      · rintro (rfl | hm)
        · rfl
        · exact absurd (List.mem_map_of_mem (f := (·.1)) hm) h.1
      · rintro rfl; exact Or.inl rfl
    · simp only [List.mem_cons, Prod.mk.injEq, hk, decide_false, Ne.symm hk, false_and, false_or]
      exact ih

theorem foldl_emplace_nodup {α β : Type} [DecidableEq α] (v : β) : ∀ (names : List α) (m : List (α × β)), (m.map (·.1)).Nodup →
    ((names.foldl (fun m k => mapEmplace m k v) m).map (·.1)).Nodup
  | [], _, h => h
  | k :: names, m, h => foldl_emplace_nodup v names _ (mapEmplace_nodup m k v h)

theorem insert_nodup (f : FxList) (ft : List FxItem) (ix : List Byte) (h : (f.tabmap.map (·.1)).Nodup) : ((f.insert ft ix).tabmap.map (·.1)).Nodup := by
  rw [FxList.insert]
  cases f.tables.findIdx? (fun x => decide (x = ft)) with
  | some n => exact foldl_emplace_nodup n _ _ h
  | none => exact foldl_emplace_nodup _ _ _ h

theorem fxAll_nodup (src : List (List Byte × List FxItem)) : ((fxAll src).tabmap.map (·.1)).Nodup := by
  induction src using List.reverseRecOn with
  | nil => simp [fxAll]
  | append_singleton src p ih => rw [fxAll_concat]; exact insert_nodup _ _ _ ih

/-! ### The image -/

/-- What a successful compilation made. -/
structure TfcImage (src : List (List Byte × List FxItem)) (img : List Byte) (idx : List (List Byte × Nat)) (offs : List Nat)
    (tabs : List (List (FxItem × Nat))) : Prop where
  hoffs : ftOffsets 6 (fxAll src).tables = some offs
  htabs : List.Forall₂ (fun t t' => List.Forall₂ (fun x p => ((fxAll src).ofNext offs x).map (x, ·) = some p) t t') (fxAll src).tables tabs
  hrefs : List.Forall₂ (fun p q => offs[p.2]?.map (p.1, ·) = some q) (fxAll src).tabmap idx
  himg : img = [105, 110, 102, 108, 101, 120] ++ (tabs.map ftSer).flatten

theorem tfcCompile_some (src : List (List Byte × List FxItem)) (img : List Byte) (idx : List (List Byte × Nat)) :
    tfcCompile src = some (img, idx) ↔ ∃ offs tabs, TfcImage src img idx offs tabs := by
  rw [tfcCompile_eq, FxList.store]
  simp only [bind, Option.bind_eq_some_iff, pure, Option.some.injEq, Prod.mk.injEq, mapM_forall₂]
  constructor
  · rintro ⟨offs, h1, tabs, h2, refs, h3, rfl, rfl⟩
    exact ⟨offs, tabs, h1, h2, h3, rfl⟩
  · rintro ⟨offs, tabs, h1, h2, h3, rfl⟩
    exact ⟨offs, h1, tabs, h2, idx, h3, rfl, rfl⟩

theorem forall₂_getElem? {α β : Type} {R : α → β → Prop} : ∀ {l : List α} {r : List β}, List.Forall₂ R l r → ∀ {n : Nat} {a : α}, l[n]? = some a → ∃ b, r[n]? = some b ∧ R a b
  | _, _, .nil, n, a, h => by simp at h
  | _, _, .cons (b := b) h1 h2, 0, a, h => by simp at h; subst h; exact ⟨b, by simp, h1⟩
  | _, _, .cons h1 h2, n + 1, a, h => by simpa using forall₂_getElem? h2 (by simpa using h)

theorem forall₂_mem_left {α β : Type} {R : α → β → Prop} {l : List α} {r : List β} (h : List.Forall₂ R l r) {a : α} (ha : a ∈ l) : ∃ b ∈ r, R a b := by
  induction h with
  | nil => simp at ha
  | cons h1 _ ih =>
    rcases List.mem_cons.1 ha with rfl | ha
    · exact ⟨_, by simp, h1⟩
    · obtain ⟨b, hb, hr⟩ := ih ha
      exact ⟨b, by simp [hb], hr⟩

theorem forall₂_mem_right {α β : Type} {R : α → β → Prop} {l : List α} {r : List β} (h : List.Forall₂ R l r) {b : β} (hb : b ∈ r) : ∃ a ∈ l, R a b := by
  induction h with
  | nil => simp at hb
  | cons h1 _ ih =>
    rcases List.mem_cons.1 hb with rfl | hb
    · exact ⟨_, by simp, h1⟩
    · obtain ⟨a, ha, hr⟩ := ih hb
      exact ⟨a, by simp [ha], hr⟩

theorem TfcImage.map_fst {src : List (List Byte × List FxItem)} {img : List Byte} {idx : List (List Byte × Nat)} {offs : List Nat}
    {tabs : List (List (FxItem × Nat))} (h : TfcImage src img idx offs tabs) : tabs.map (fun t => t.map (·.1)) = (fxAll src).tables := by
  have := h.htabs
  clear h
  generalize (fxAll src).tables = ts at this ⊢
  revert this
  generalize fxAll src = f
  intro this
  induction this with
  | nil => rfl
  | cons h1 _ ih =>
    rw [List.map_cons, ih]
    congr 1
    induction h1 with
    | nil => rfl
    | cons h2 _ ih2 =>
      rw [List.map_cons, ih2]
      congr 1
      rw [Option.map_eq_some_iff] at h2
      obtain ⟨_, _, rfl⟩ := h2
      rfl

/-- What stands at a reference. -/
theorem TfcImage.at {src : List (List Byte × List FxItem)} {img : List Byte} {idx : List (List Byte × Nat)} {offs : List Nat}
    {tabs : List (List (FxItem × Nat))} (h : TfcImage src img idx offs tabs) {n : Nat} {lines : List FxItem}
    (hn : (fxAll src).tables[n]? = some lines) : ∃ r t rest, offs[n]? = some r ∧ r < 65536 ∧ r ≠ 0 ∧ tabs[n]? = some t ∧
      List.Forall₂ (fun x p => ((fxAll src).ofNext offs x).map (x, ·) = some p) lines t ∧ img.drop (r <<< 1) = ftSer t ++ rest := by
  obtain ⟨hl, _⟩ := List.getElem?_eq_some_iff.1 hn
  obtain ⟨r, r1, r2, r3⟩ := (ftOffsets_spec _ _ _ h.hoffs rfl).2 n hl
  obtain ⟨t, t1, t2⟩ := forall₂_getElem? h.htabs hn
  obtain ⟨rest, hr⟩ := drop_flatten ftSer tabs n t t1
  refine ⟨r, t, rest, r1, r3, ?_, t1, t2, ?_⟩
  · rintro rfl; simp at r2; omega
  · rw [h.himg, r2, List.drop_append, List.drop_eq_nil_of_le (by simp), List.nil_append, ← hr]
    congr 1
    simp only [List.length_cons, List.length_nil, Nat.zero_add, Nat.add_sub_cancel_left, Nat.reduceAdd]
    rw [← h.map_fst, ← List.map_take, List.map_map]
    congr 1
    exact List.map_congr_left fun x _ => (ftSer_length x).symm

theorem TfcImage.offs_lt {src : List (List Byte × List FxItem)} {img : List Byte} {idx : List (List Byte × Nat)} {offs : List Nat}
    {tabs : List (List (FxItem × Nat))} (h : TfcImage src img idx offs tabs) {n r : Nat} (hn : offs[n]? = some r) : r < 65536 ∧ r ≠ 0 := by
  obtain ⟨s1, s2⟩ := ftOffsets_spec _ _ _ h.hoffs rfl
  obtain ⟨hl, _⟩ := List.getElem?_eq_some_iff.1 hn
  obtain ⟨r', h1, h2, h3⟩ := s2 n (by omega)
  rw [hn] at h1
  simp only [Option.some.injEq] at h1
  subst h1
  exact ⟨h3, by rintro rfl; simp at h2; omega⟩

/-- A reference that was resolved. -/
theorem TfcImage.next {src : List (List Byte × List FxItem)} {img : List Byte} {idx : List (List Byte × Nat)} {offs : List Nat}
    {tabs : List (List (FxItem × Nat))} (h : TfcImage src img idx offs tabs) {x : FxItem} {p : FxItem × Nat}
    (hp : ((fxAll src).ofNext offs x).map (x, ·) = some p) : p.1 = x ∧ p.2 < 65536 ∧ (Continues x → p.2 ≠ 0 ∧ ∃ m, mapFind (fxAll src).tabmap x.next = some m ∧ offs[m]? = some p.2) ∧
      (¬ Continues x → (x.citem p.2).next = 0) := by
  rw [Option.map_eq_some_iff] at hp
  obtain ⟨o, ho, rfl⟩ := hp
  rw [FxList.ofNext] at ho
  by_cases hc : Continues x
  · rw [if_pos (show x.flags &&& 0xc0 ≠ 0 from hc)] at ho
    rw [Option.bind_eq_some_iff] at ho
    obtain ⟨m, hm, hr⟩ := ho
    obtain ⟨k1, k2⟩ := h.offs_lt hr
    exact ⟨rfl, k1, fun _ => ⟨k2, m, hm, hr⟩, fun hn => (hn hc).elim⟩
  · rw [if_neg (show ¬ x.flags &&& 0xc0 ≠ 0 from hc), Option.some.injEq] at ho
    subst ho
    exact ⟨rfl, by simp, fun hn => (hc hn).elim, fun _ => by simp [FxItem.citem]⟩

/-- The elements at the reference of a name are the lines of the table. -/
theorem TfcImage.inTable {src : List (List Byte × List FxItem)} {img : List Byte} {idx : List (List Byte × Nat)} {offs : List Nat}
    {tabs : List (List (FxItem × Nat))} (h : TfcImage src img idx offs tabs) (hok : TfcOk src) {name : List Byte} {n r : Nat}
    (hn : mapFind (fxAll src).tabmap name = some n) (hr : offs[n]? = some r) :
    ∃ lines, Defined src name lines ∧ ∀ i, InTable img r i ↔ ∃ l ∈ lines, ∃ p, ((fxAll src).ofNext offs l).map (l, ·) = some p ∧ i = l.citem p.2 := by
  obtain ⟨lines, d1, d2⟩ := (fxAll_spec src).2.1 name n hn
  obtain ⟨r', t, rest, e1, e2, e3, e4, e5, e6⟩ := h.at d2
  rw [hr, Option.some.injEq] at e1
  subst e1
  have d1' := d1
  obtain ⟨pre, hd, post, e, _, _⟩ := d1'
  have hmem : (hd, lines) ∈ src := by rw [e]; simp
  have hlen : t.length < 256 := by
    rw [← e5.length_eq]
    exact Nat.lt_of_le_of_lt (length_ftSorted lines) (hok.lines _ hmem)
  have hall : ∀ p ∈ t, p.1.tail.length < 128 ∧ p.1.gr < 65536 ∧ p.1.flags < 256 ∧ p.2 < 65536 := by
    intro p hp
    obtain ⟨x, hx, hxp⟩ := forall₂_mem_right e5 hp
    obtain ⟨q1, q2, _⟩ := h.next hxp
    rw [mem_ftSorted] at hx
    rw [q1]
    exact ⟨hok.tails _ hmem _ hx, (hok.words _ hmem _ hx).1, (hok.words _ hmem _ hx).2, q2⟩
  have hc := compactTable_ser img r t rest e6 hlen hall
  refine ⟨lines, d1, fun i => ?_⟩
  rw [InTable, hc]
  simp only [Option.some.injEq, exists_eq_left', List.mem_map]
  constructor
  · rintro ⟨p, hp, rfl⟩
    obtain ⟨x, hx, hxp⟩ := forall₂_mem_right e5 hp
    obtain ⟨q1, _⟩ := h.next hxp
    exact ⟨x, (mem_ftSorted _ _).1 hx, p, hxp, by rw [q1]⟩
  · rintro ⟨l, hl, p, hp, rfl⟩
    obtain ⟨q, hq, hlq⟩ := forall₂_mem_left e5 ((mem_ftSorted _ _).2 hl)
    rw [hlq, Option.some.injEq] at hp
    subst hp
    obtain ⟨q1, _⟩ := h.next hlq
    exact ⟨q, hq, by rw [q1]⟩

theorem TfcImage.endings {src : List (List Byte × List FxItem)} {img : List Byte} {idx : List (List Byte × Nat)} {offs : List Nat}
    {tabs : List (List (FxItem × Nat))} (h : TfcImage src img idx offs tabs) (hok : TfcOk src) {name : List Byte} {n r : Nat}
    (hn : mapFind (fxAll src).tabmap name = some n) (hr : offs[n]? = some r) (w : List Byte) (g fl : Nat) :
    Ending img r w g fl ↔ SrcEnding src name w g fl := by
  constructor
  · intro he
    induction he generalizing name n with
    | here hi hf =>
      obtain ⟨lines, d, hin⟩ := h.inTable hok hn hr
      obtain ⟨l, hl, p, hp, rfl⟩ := (hin _).1 hi
      exact .here d hl hf
    | next hi hne _ ih =>
      obtain ⟨lines, d, hin⟩ := h.inTable hok hn hr
      obtain ⟨l, hl, p, hp, rfl⟩ := (hin _).1 hi
      obtain ⟨_, _, q3, q4⟩ := h.next hp
      by_cases hc : Continues l
      · obtain ⟨_, m, hm, ho⟩ := q3 hc
        refine .next d hl hc (ih hm ?_)
        rw [FxItem.citem]; simp only; rw [if_pos (show l.flags &&& 0xc0 ≠ 0 from hc)]; exact ho
      · exact (hne (q4 hc)).elim
  · intro he
    induction he generalizing n r with
    | @here nm ls l d hl hf =>
      obtain ⟨lines, d', hin⟩ := h.inTable hok hn hr
      cases defined_unique d d'
      have hall := h.htabs
      obtain ⟨lines', d2, d3⟩ := (fxAll_spec src).2.1 _ n hn
      cases defined_unique d d2
      obtain ⟨_, t, _, _, _, _, _, e5, _⟩ := h.at d3
      obtain ⟨p, _, hp⟩ := forall₂_mem_left e5 ((mem_ftSorted _ _).2 hl)
      exact Ending.here (i := l.citem p.2) ((hin _).2 ⟨l, hl, p, hp, rfl⟩) hf
    | @next nm ls l w' g' fl' d hl hc _ ih =>
      obtain ⟨lines, d', hin⟩ := h.inTable hok hn hr
      cases defined_unique d d'
      obtain ⟨lines', d2, d3⟩ := (fxAll_spec src).2.1 _ n hn
      cases defined_unique d d2
      obtain ⟨_, t, _, _, _, _, _, e5, _⟩ := h.at d3
      obtain ⟨p, _, hp⟩ := forall₂_mem_left e5 ((mem_ftSorted _ _).2 hl)
      obtain ⟨_, _, q3, _⟩ := h.next hp
      obtain ⟨hne, m, hm, ho⟩ := q3 hc
      have hcn : (l.citem p.2).next = p.2 := by rw [FxItem.citem]; simp only; rw [if_pos (show l.flags &&& 0xc0 ≠ 0 from hc)]
      exact Ending.next (i := l.citem p.2) ((hin _).2 ⟨l, hl, p, hp, rfl⟩) (by rw [hcn]; exact hne) (by rw [hcn]; exact ih hm ho)

theorem TfcImage.idx_mem {src : List (List Byte × List FxItem)} {img : List Byte} {idx : List (List Byte × Nat)} {offs : List Nat}
    {tabs : List (List (FxItem × Nat))} (h : TfcImage src img idx offs tabs) (name : List Byte) (r : Nat) :
    (name, r) ∈ idx ↔ ∃ n, mapFind (fxAll src).tabmap name = some n ∧ offs[n]? = some r := by
  constructor
  · intro hm
    obtain ⟨p, hp, e⟩ := forall₂_mem_right h.hrefs hm
    rw [Option.map_eq_some_iff] at e
    obtain ⟨r', e1, e2⟩ := e
    cases e2
    exact ⟨p.2, (mapFind_mem _ _ _ (fxAll_nodup src)).1 hp, e1⟩
  · rintro ⟨n, h1, h2⟩
    obtain ⟨q, hq, e⟩ := forall₂_mem_left h.hrefs ((mapFind_mem _ _ _ (fxAll_nodup src)).2 h1)
    simp only [h2, Option.map_some, Option.some.injEq] at e
    rw [e]; exact hq

end Libmorph
