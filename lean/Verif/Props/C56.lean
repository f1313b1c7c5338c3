import Verif.Lemmas.TfcImage
/-
C56: the compiler of ending tables.
-/
namespace Libmorph
open Spec

/-- C56.  At the reference the index gives for a name, the image has exactly the endings the source gives to the table of
that name - continued by the endings of other tables, found by their names, wherever a line says so. -/
theorem C56_endings {src : List (List Byte × List FxItem)} {img : List Byte} {idx : List (List Byte × Nat)}
    (h : tfcCompile src = some (img, idx)) (hok : TfcOk src) {name : List Byte} {o : Nat} (ho : (name, o) ∈ idx) (w : List Byte) (g fl : Nat) :
    Ending img o w g fl ↔ SrcEnding src name w g fl := by
  obtain ⟨offs, tabs, hi⟩ := (tfcCompile_some src img idx).1 h
  obtain ⟨n, h1, h2⟩ := (hi.idx_mem name o).1 ho
  exact hi.endings hok h1 h2 w g fl

/-- C56.  The index lists every name of the source, once, and no other name. -/
theorem C56_names {src : List (List Byte × List FxItem)} {img : List Byte} {idx : List (List Byte × Nat)}
    (h : tfcCompile src = some (img, idx)) (name : List Byte) :
    ((∃ o, (name, o) ∈ idx) ↔ ∃ p ∈ src, Named p.1 name) ∧ ∀ o o', (name, o) ∈ idx → (name, o') ∈ idx → o = o' := by
  obtain ⟨offs, tabs, hi⟩ := (tfcCompile_some src img idx).1 h
  refine ⟨⟨?_, ?_⟩, ?_⟩
  · rintro ⟨o, ho⟩
    obtain ⟨n, h1, _⟩ := (hi.idx_mem name o).1 ho
    obtain ⟨lines, ⟨pre, hd, post, rfl, hn, _⟩, _⟩ := (fxAll_spec src).2.1 _ _ h1
    exact ⟨(hd, lines), by simp, hn⟩
  · rintro ⟨p, hp, hn⟩
    cases hf : mapFind (fxAll src).tabmap name with
    | none => exact ((fxAll_spec src).2.2 name hf p hp hn).elim
    | some n =>
      obtain ⟨lines, _, h2⟩ := (fxAll_spec src).2.1 _ _ hf
      obtain ⟨r, _, _, hr, _⟩ := hi.at h2
      exact ⟨r, (hi.idx_mem name r).2 ⟨n, hf, hr⟩⟩
  · intro o o' h1 h2
    obtain ⟨n, a1, a2⟩ := (hi.idx_mem name o).1 h1
    obtain ⟨n', b1, b2⟩ := (hi.idx_mem name o').1 h2
    rw [a1, Option.some.injEq] at b1
    subst b1
    rw [a2, Option.some.injEq] at b2
    exact b2

theorem fxAll_tables (src : List (List Byte × List FxItem)) : ∀ p ∈ src, ftSorted p.2 ∈ (fxAll src).tables := by
  induction src using List.reverseRecOn with
  | nil => simp
  | append_singleton src p ih =>
    intro q hq
    rw [fxAll_concat]
    obtain ⟨n, h1, h2, _⟩ := insert_spec (fxAll src) (ftSorted p.2) p.1
    rcases List.mem_append.1 hq with hq | hq
    · exact h2.subset (ih q hq)
    · simp only [List.mem_singleton] at hq
      subst hq
      exact List.mem_of_getElem? h1

/-- C56.  Nothing is compiled as long as a line refers to a name that no table has. -/
theorem C56_references {src : List (List Byte × List FxItem)} {img : List Byte} {idx : List (List Byte × Nat)}
    (h : tfcCompile src = some (img, idx)) : ∀ p ∈ src, ∀ l ∈ p.2, Continues l → ∃ q ∈ src, Named q.1 l.next := by
  obtain ⟨offs, tabs, hi⟩ := (tfcCompile_some src img idx).1 h
  intro p hp l hl hc
  obtain ⟨t, _, ht⟩ := forall₂_mem_left hi.htabs (fxAll_tables src p hp)
  obtain ⟨q, _, hq⟩ := forall₂_mem_left ht ((mem_ftSorted _ _).2 hl)
  obtain ⟨_, _, h3, _⟩ := hi.next hq
  obtain ⟨_, m, hm, _⟩ := h3 hc
  obtain ⟨lines, ⟨pre, hd, post, rfl, hn, _⟩, _⟩ := (fxAll_spec src).2.1 _ _ hm
  exact ⟨(hd, lines), by simp, hn⟩

theorem ftOffsets_fits : ∀ (ts : List (List FxItem)) (o : Nat), o + (ts.map ftSize).sum < 0x1ffff → ∃ offs, ftOffsets o ts = some offs
  | [], o, _ => ⟨[], rfl⟩
  | t :: ts, o, h => by
    simp only [List.map_cons, List.sum_cons] at h
    obtain ⟨offs, hx⟩ := ftOffsets_fits ts (o + ftSize t) (by omega)
    exact ⟨(o >>> 1) :: offs, by rw [ftOffsets, if_neg (by omega), hx]; rfl⟩

theorem sum_ftInsert (x : FxItem) : ∀ t : List FxItem, ((ftInsert x t).map FxItem.bufLen).sum ≤ x.bufLen + (t.map FxItem.bufLen).sum
  | [] => by simp [ftInsert]
  | y :: t => by
    rw [ftInsert]
    have := sum_ftInsert x t
    split
    · simp only [List.map_cons, List.sum_cons]; omega
    · split <;> simp

theorem sum_ftFold : ∀ (lines t : List FxItem), ((lines.foldl (fun t x => ftInsert x t) t).map FxItem.bufLen).sum ≤ (lines.map FxItem.bufLen).sum + (t.map FxItem.bufLen).sum
  | [], t => by simp
  | x :: l, t => by
    rw [List.foldl_cons]
    have := sum_ftFold l (ftInsert x t)
    have := sum_ftInsert x t
    simp only [List.map_cons, List.sum_cons]; omega

theorem bufLen_le (l : FxItem) (h : l.tail.length < 128) : l.bufLen ≤ l.tail.length + 6 := by
  have : serialLen l.tail.length = 1 := by rw [serialLen]; simp [h]
  rw [FxItem.bufLen, this]
  split <;> omega

theorem ftSize_sorted (lines : List FxItem) (h : ∀ l ∈ lines, l.tail.length < 128) : ftSize (ftSorted lines) ≤ 2 + (lines.map fun l => l.tail.length + 6).sum := by
  have h1 := sum_ftFold lines []
  have h2 : (lines.map FxItem.bufLen).sum ≤ (lines.map fun l => l.tail.length + 6).sum := by
    clear h1
    induction lines with
    | nil => simp
    | cons l ls ih =>
      have := ih fun x hx => h x (by simp [hx])
      have := bufLen_le l (h l (by simp))
      simp only [List.map_cons, List.sum_cons]; omega
  rw [ftSize, ftSorted]
  simp only [List.map_nil, List.sum_nil] at h1
  omega

theorem fxAll_space (src : List (List Byte × List FxItem)) (h : ∀ p ∈ src, ∀ l ∈ p.2, l.tail.length < 128) :
    ((fxAll src).tables.map ftSize).sum ≤ tfcSpace src := by
  induction src using List.reverseRecOn with
  | nil => simp [fxAll]
  | append_singleton src p ih =>
    have i := ih fun q hq => h q (by simp [hq])
    have hs := ftSize_sorted p.2 (h p (by simp))
    have e : tfcSpace (src ++ [p]) = tfcSpace src + (2 + (p.2.map fun l => l.tail.length + 6).sum) := by simp [tfcSpace]
    rw [e, fxAll_concat, FxList.insert]
    cases (fxAll src).tables.findIdx? (fun x => decide (x = ftSorted p.2)) with
    | some n => simp only; omega
    | none => simp only [List.map_append, List.sum_append, List.map_cons, List.map_nil, List.sum_cons, List.sum_nil]; omega

theorem mapM_isSome {α β : Type} (f : α → Option β) (l : List α) (h : ∀ a ∈ l, ∃ b, f a = some b) : ∃ r, l.mapM f = some r := by
  induction l with
  | nil => exact ⟨[], rfl⟩
  | cons a l ih =>
    obtain ⟨b, hb⟩ := h a (by simp)
    obtain ⟨r, hr⟩ := ih fun x hx => h x (by simp [hx])
    exact ⟨b :: r, by rw [List.mapM_cons]; simp [bind, hb, hr]⟩

/-- C56.  And once every reference has its table and the tables fit in 128 kilobytes, they are compiled. -/
theorem C56_compiles (src : List (List Byte × List FxItem)) (hr : ∀ p ∈ src, ∀ l ∈ p.2, Continues l → ∃ q ∈ src, Named q.1 l.next)
    (ht : ∀ p ∈ src, ∀ l ∈ p.2, l.tail.length < 128) (hs : tfcSpace src < 131065) : ∃ img idx, tfcCompile src = some (img, idx) := by
  obtain ⟨offs, ho⟩ := ftOffsets_fits (fxAll src).tables 6 (by have := fxAll_space src ht; omega)
  obtain ⟨o1, o2⟩ := ftOffsets_spec _ _ _ ho rfl
  have hidx : ∀ k n, mapFind (fxAll src).tabmap k = some n → ∃ r, offs[n]? = some r := by
    intro k n hk
    obtain ⟨lines, _, d⟩ := (fxAll_spec src).2.1 k n hk
    obtain ⟨r, h1, _⟩ := o2 n (List.getElem?_eq_some_iff.1 d).1
    exact ⟨r, h1⟩
  have htab : ∃ tabs, ((fxAll src).tables.mapM fun t => t.mapM fun x => ((fxAll src).ofNext offs x).map (x, ·)) = some tabs := by
    refine mapM_isSome _ _ fun t htab => mapM_isSome _ _ fun x hx => ?_
    obtain ⟨p, hp, rfl⟩ := (fxAll_spec src).1 t htab
    rw [mem_ftSorted] at hx
    by_cases hc : Continues x
    · obtain ⟨q, hq, hn⟩ := hr p hp x hx hc
      cases hf : mapFind (fxAll src).tabmap x.next with
      | none => exact ((fxAll_spec src).2.2 _ hf q hq hn).elim
      | some n =>
        obtain ⟨r, h1⟩ := hidx _ _ hf
        exact ⟨(x, r), by rw [FxList.ofNext, if_pos (show x.flags &&& 0xc0 ≠ 0 from hc), hf]; simp [h1]⟩
    · exact ⟨(x, 0), by rw [FxList.ofNext, if_neg (show ¬ x.flags &&& 0xc0 ≠ 0 from hc)]; rfl⟩
  obtain ⟨tabs, htab⟩ := htab
  have href : ∃ refs, ((fxAll src).tabmap.mapM fun p => offs[p.2]?.map (p.1, ·)) = some refs := by
    refine mapM_isSome _ _ fun p hp => ?_
    obtain ⟨r, h1⟩ := hidx p.1 p.2 ((mapFind_mem _ _ _ (fxAll_nodup src)).1 hp)
    exact ⟨(p.1, r), by simp [h1]⟩
  obtain ⟨refs, href⟩ := href
  refine ⟨[105, 110, 102, 108, 101, 120] ++ (tabs.map ftSer).flatten, refs, ?_⟩
  rw [tfcCompile_eq, FxList.store]
  simp only [bind, ho, htab, href, Option.bind_some, pure]

theorem ftSer_lt (t : List (FxItem × Nat)) (h : ∀ p ∈ t, ∀ b ∈ p.1.tail, b < 256) : ∀ b ∈ ftSer t, b < 256 := by
  intro b hb
  rw [ftSer] at hb
  rcases List.mem_append.1 hb with hb | hb
  · rcases List.mem_cons.1 hb with rfl | hb
    · exact Nat.mod_lt _ (by decide)
    · obtain ⟨l, hl, hbl⟩ := List.mem_flatten.1 hb
      obtain ⟨p, hp, rfl⟩ := List.mem_map.1 hl
      have hw : ∀ w, ∀ c ∈ putword16 w, c < 256 := by
        intro w c hc
        simp only [putword16, List.mem_cons, List.not_mem_nil, or_false] at hc
        omega
      rw [FxItem.ser] at hbl
      simp only [List.mem_append, List.mem_cons] at hbl
      rcases hbl with (((rfl | hbl) | hbl) | hbl) | hbl
      · exact Nat.mod_lt _ (by decide)
      · exact hw _ _ hbl
      · exact putserial_lt _ _ hbl
      · exact h p hp b hbl
      · split at hbl
        · exact hw _ _ hbl
        · simp at hbl
  · split at hb
    · simp only [List.mem_singleton] at hb; omega
    · simp at hb

/-- C56.  The image consists of bytes. -/
theorem C56_bytes {src : List (List Byte × List FxItem)} {img : List Byte} {idx : List (List Byte × Nat)}
    (h : tfcCompile src = some (img, idx)) (hb : ∀ p ∈ src, ∀ l ∈ p.2, ∀ b ∈ l.tail, b < 256) : ∀ b ∈ img, b < 256 := by
  obtain ⟨offs, tabs, hi⟩ := (tfcCompile_some src img idx).1 h
  rw [hi.himg]
  intro b hb'
  rcases List.mem_append.1 hb' with hb' | hb'
  · simp only [List.mem_cons, List.not_mem_nil, or_false] at hb'; omega
  · obtain ⟨l, hl, hbl⟩ := List.mem_flatten.1 hb'
    obtain ⟨t, ht, rfl⟩ := List.mem_map.1 hl
    refine ftSer_lt t ?_ b hbl
    intro p hp
    obtain ⟨t0, ht0, hf⟩ := forall₂_mem_right hi.htabs ht
    obtain ⟨x, hx, hxp⟩ := forall₂_mem_right hf hp
    obtain ⟨e, _⟩ := hi.next hxp
    obtain ⟨q, hq, rfl⟩ := (fxAll_spec src).1 t0 ht0
    rw [e]
    exact hb q hq x ((mem_ftSorted _ _).1 hx)

theorem length_ftInsert_new (x : FxItem) : ∀ l, x ∉ l → (ftInsert x l).length = l.length + 1
  | [], _ => rfl
  | y :: l, h => by
    rw [ftInsert]
    split
    · simp [length_ftInsert_new x l fun hx => h (by simp [hx])]
    · split
      · rename_i e; subst e; simp at h
      · rfl

theorem length_ftFold_nodup : ∀ (lines t : List FxItem), lines.Nodup → (∀ x ∈ lines, x ∉ t) →
    (lines.foldl (fun t x => ftInsert x t) t).length = lines.length + t.length
  | [], t, _, _ => by simp
  | x :: l, t, h, ht => by
    rw [List.nodup_cons] at h
    rw [List.foldl_cons, length_ftFold_nodup l _ h.2, length_ftInsert_new x t (ht x (by simp))]
    · simp; omega
    · intro y hy hin
      rw [mem_ftInsert] at hin
      rcases hin with rfl | hin
      · exact h.1 hy
      · exact ht y (by simp [hy]) hin

/-- C56, a limit that is not checked: a table with 256 different lines is compiled - into a table without any ending. -/
theorem C56_overflow_counterexample {src : List (List Byte × List FxItem)} {img : List Byte} {idx : List (List Byte × Nat)}
    (h : tfcCompile src = some (img, idx)) {name : List Byte} {o : Nat} (ho : (name, o) ∈ idx) {lines : List FxItem} (hd : Defined src name lines)
    (hn : lines.Nodup) (hl : lines.length = 256) (w : List Byte) (g fl : Nat) : ¬ Ending img o w g fl := by
  obtain ⟨offs, tabs, hi⟩ := (tfcCompile_some src img idx).1 h
  obtain ⟨n, h1, h2⟩ := (hi.idx_mem name o).1 ho
  obtain ⟨lines', d1, d2⟩ := (fxAll_spec src).2.1 _ _ h1
  cases defined_unique hd d1
  obtain ⟨r, t, rest, e1, _, _, _, e5, e6⟩ := hi.at d2
  rw [h2, Option.some.injEq] at e1
  subst e1
  have hlen : t.length = 256 := by
    rw [← e5.length_eq, ftSorted, length_ftFold_nodup lines [] hn (by simp)]
    simp [hl]
  have hc : compactTable img o = some [] := by
    rw [compactTable, e6, ftSer, hlen]
    simp only [List.cons_append, getbyte, bind, Option.bind_some]
    rfl
  intro he
  cases he with
  | here hin _ => obtain ⟨l, hl, hm⟩ := hin; rw [hc] at hl; cases hl; simp at hm
  | next hin _ _ => obtain ⟨l, hl, hm⟩ := hin; rw [hc] at hl; cases hl; simp at hm

/-- C56, another one: when two tables have one name, the later of them gets the former's endings; nothing is reported. -/
theorem C56_duplicate_counterexample : ∃ src img idx o, tfcCompile src = some (img, idx) ∧ TfcOk src ∧ (([65] : List Byte), o) ∈ idx ∧
    (∃ p ∈ src, Named p.1 [65] ∧ (⟨[98], 2, 3, []⟩ : FxItem) ∈ p.2) ∧ ¬ Ending img o [98] 2 3 := by
  let src : List (List Byte × List FxItem) := [([65], [⟨[97], 1, 3, []⟩]), ([65], [⟨[98], 2, 3, []⟩])]
  have hN : Named [65] [65] := (mem_tabNames _ _).1 (by decide)
  have hc : ∀ p ∈ src, ∀ l ∈ p.2, ¬ Continues l := by decide
  obtain ⟨img, idx, h⟩ := C56_compiles src (fun p hp l hl h => (hc p hp l hl h).elim) (by decide) (by decide)
  have hok : TfcOk src := ⟨by decide, by decide, by decide⟩
  obtain ⟨o, ho⟩ := (C56_names h [65]).1.2 ⟨([65], [⟨[97], 1, 3, []⟩]), by simp [src], hN⟩
  refine ⟨src, img, idx, o, h, hok, ho, ⟨([65], [⟨[98], 2, 3, []⟩]), by simp [src], hN, by simp⟩, ?_⟩
  rw [C56_endings h hok ho]
  intro he
  have hd : Defined src [65] [⟨[97], 1, 3, []⟩] := ⟨[], [65], [([65], [⟨[98], 2, 3, []⟩])], rfl, hN, by simp⟩
  generalize hw : ([98] : List Nat) = w at he
  generalize hk : ([65] : List Nat) = k at he
  generalize (2 : Nat) = g at he
  generalize (3 : Nat) = fl at he
  cases he with
  | here d hl hf =>
    subst hk
    cases defined_unique hd d
    simp only [List.mem_singleton] at hl
    subst hl
    simp at hw
  | next d hl hc _ =>
    subst hk
    cases defined_unique hd d
    simp only [List.mem_singleton] at hl
    subst hl
    exact absurd hc (by decide)

/-! ### A case: two tables, one of them under two names; the endings "a" and "bc", the second found through the reference -/

def tfcSample : List (List Byte × List FxItem) :=
  [([65, 44, 32, 66], [⟨[97], 1, 3, []⟩, ⟨[98], 0x10, 0x83, [67]⟩]), ([67], [⟨[99], 2, 3, []⟩])]

example : tfcCompile tfcSample = some
    ([105, 110, 102, 108, 101, 120, 2, 3, 1, 0, 1, 97, 131, 16, 0, 1, 98, 10, 0, 0, 1, 3, 2, 0, 1, 99], [([65], 3), ([66], 3), ([67], 10)]) := by
  have e1 : putserial 1 = [1] := putserial_short (by decide)
  have e2 : serialLen 1 = 1 := by rw [serialLen]; rfl
  simp [tfcCompile, tfcSample, ftInsert, FxItem.less, bytesLt, FxList.insert, tabNames, splitCommas, trimBlanks, mapEmplace, FxList.store, ftOffsets, ftSize,
    FxItem.bufLen, e1, e2, FxList.ofNext, mapFind, ftSer, FxItem.ser, putword16, bind, pure]

example : TfcOk tfcSample ∧ SrcEnding tfcSample [66] [98, 99] 0x12 3 := by
  have n1 : Named [65, 44, 32, 66] [66] := (mem_tabNames _ _).1 (by decide)
  have n2 : Named [67] [67] := (mem_tabNames _ _).1 (by decide)
  have n3 : ¬ Named [65, 44, 32, 66] [67] := by rw [← mem_tabNames]; decide
  refine ⟨⟨by decide, by decide, by decide⟩, ?_⟩
  refine SrcEnding.next (lines := [⟨[97], 1, 3, []⟩, ⟨[98], 0x10, 0x83, [67]⟩]) (l := ⟨[98], 0x10, 0x83, [67]⟩) (w := [99]) (g := 2) (fl := 3)
    ⟨[], _, _, rfl, n1, by simp⟩ (by simp) (by decide) ?_
  exact SrcEnding.here (lines := [⟨[99], 2, 3, []⟩]) (l := ⟨[99], 2, 3, []⟩)
    ⟨[([65, 44, 32, 66], [⟨[97], 1, 3, []⟩, ⟨[98], 0x10, 0x83, [67]⟩])], [67], [], rfl, n2, by simpa using n3⟩ (by simp) (by decide)

end Libmorph
