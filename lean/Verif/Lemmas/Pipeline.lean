import Verif.Spec.Pipeline
import Verif.Props.C57
import Verif.Props.C61
import Verif.Props.C63
/-
The sources of the tables and their images, for C68.
-/
namespace Libmorph
open Spec

/-! ### Ending tables -/

theorem less_before (a b : FxItem) : a.less b = true ↔ LineBefore a b := FxItem.less_iff a b

/-- What stands at the reference of a name. -/
structure TableAt (src : List (List Byte × List FxItem)) (img : List Byte) (idx : List (List Byte × Nat)) (name : List Byte) (r : Nat)
    (lines : List FxItem) (t : List (FxItem × Nat)) : Prop where
  pos : 0 < r
  lt : r < 65536
  defined : Defined src name lines
  mem : ∃ hd, (hd, lines) ∈ src
  table : compactTable img r = some (t.map fun p => p.1.citem p.2)
  count : ∃ q, getbyte (img.drop (r <<< 1)) = some (t.length, q)
  sorted : t.map (·.1) = ftSorted lines
  onward : ∀ p ∈ t, (Continues p.1 → p.2 ≠ 0 ∧ (p.1.citem p.2).next = p.2 ∧ (p.1.next, p.2) ∈ idx) ∧ (¬ Continues p.1 → (p.1.citem p.2).next = 0)

theorem tableAt {src : List (List Byte × List FxItem)} {img : List Byte} {idx : List (List Byte × Nat)} (h : tfcCompile src = some (img, idx))
    (hok : TfcOk src) {name : List Byte} {r : Nat} (hm : (name, r) ∈ idx) : ∃ lines t, TableAt src img idx name r lines t := by
  obtain ⟨offs, tabs, hi⟩ := (tfcCompile_some src img idx).1 h
  obtain ⟨n, hn, hr⟩ := (hi.idx_mem name r).1 hm
  obtain ⟨lines, d1, d2⟩ := (fxAll_spec src).2.1 name n hn
  obtain ⟨r', t, rest, e1, e2, e3, e4, e5, e6⟩ := hi.at d2
  rw [hr, Option.some.injEq] at e1
  subst e1
  have d1' := d1
  obtain ⟨pre, hd, post, e, _, _⟩ := d1'
  have hmem : (hd, lines) ∈ src := by rw [e]; simp
  have hlen : t.length < 256 := by
    rw [← e5.length_eq]
    exact Nat.lt_of_le_of_lt (length_ftSorted lines) (hok.lines _ hmem)
  have hall : ∀ p ∈ t, p.1.tail.length < 128 ∧ p.1.gr < 65536 ∧ p.1.flags < 256 ∧ p.2 < 65536 := by
    intro p hp
    obtain ⟨x, hx, hxp⟩ := forall₂_mem_right e5 hp
    obtain ⟨q1, q2, _⟩ := hi.next hxp
    rw [mem_ftSorted] at hx
    rw [q1]
    exact ⟨hok.tails _ hmem _ hx, (hok.words _ hmem _ hx).1, (hok.words _ hmem _ hx).2, q2⟩
  refine ⟨lines, t, ⟨by omega, e2, d1, ⟨hd, hmem⟩, compactTable_ser img r t rest e6 hlen hall, ?_, ?_, ?_⟩⟩
  · rw [e6, ftSer, Nat.mod_eq_of_lt hlen]
    simp only [List.cons_append, getbyte]
    exact ⟨_, rfl⟩
  · have : ∀ (l : List FxItem) (t : List (FxItem × Nat)), List.Forall₂ (fun x p => ((fxAll src).ofNext offs x).map (x, ·) = some p) l t → t.map (·.1) = l := by
      intro l t h
      induction h with
      | nil => rfl
      | cons h1 _ ih => rw [List.map_cons, ih, (hi.next h1).1]
    exact this _ _ e5
  · intro p hp
    obtain ⟨x, hx, hxp⟩ := forall₂_mem_right e5 hp
    obtain ⟨q1, q2, q3, q4⟩ := hi.next hxp
    rw [q1]
    refine ⟨fun hc => ?_, q4⟩
    obtain ⟨q5, m, q6, q7⟩ := q3 hc
    refine ⟨q5, ?_, (hi.idx_mem _ _).2 ⟨m, q6, q7⟩⟩
    exact if_pos hc

theorem TableAt.mem_lines {src : List (List Byte × List FxItem)} {img : List Byte} {idx : List (List Byte × Nat)} {name : List Byte} {r : Nat}
    {lines : List FxItem} {t : List (FxItem × Nat)} (h : TableAt src img idx name r lines t) (l : FxItem) : l ∈ lines ↔ ∃ p ∈ t, p.1 = l := by
  rw [← mem_ftSorted, ← h.sorted, List.mem_map]

theorem TableAt.inTable {src : List (List Byte × List FxItem)} {img : List Byte} {idx : List (List Byte × Nat)} {name : List Byte} {r : Nat}
    {lines : List FxItem} {t : List (FxItem × Nat)} (h : TableAt src img idx name r lines t) (i : CItem) :
    InTable img r i ↔ ∃ p ∈ t, i = p.1.citem p.2 := by
  rw [InTable, h.table]
  simp only [Option.some.injEq, exists_eq_left', List.mem_map]
  exact ⟨fun ⟨p, hp, e⟩ => ⟨p, hp, e.symm⟩, fun ⟨p, hp, e⟩ => ⟨p, hp, e.symm⟩⟩

theorem TableAt.inTable_of {src : List (List Byte × List FxItem)} {img : List Byte} {idx : List (List Byte × Nat)} {name : List Byte} {r : Nat}
    {lines : List FxItem} {t : List (FxItem × Nat)} (h : TableAt src img idx name r lines t) {i : CItem} (hi : InTable img r i) :
    ∃ p ∈ t, i = p.1.citem p.2 ∧ p.1 ∈ lines := by
  obtain ⟨p, hp, e⟩ := (h.inTable i).1 hi
  exact ⟨p, hp, e, (h.mem_lines _).2 ⟨p, hp, rfl⟩⟩

theorem idx_fun {src : List (List Byte × List FxItem)} {img : List Byte} {idx : List (List Byte × Nat)} (h : tfcCompile src = some (img, idx))
    (name : List Byte) (r : Nat) : (name, r) ∈ idx ↔ mapFind idx name = some r := by
  constructor
  · intro hm
    cases hf : mapFind idx name with
    | none =>
      exfalso
      rw [mapFind, Option.map_eq_none_iff, List.find?_eq_none] at hf
      exact hf _ hm (by simp)
    | some r' =>
      obtain ⟨⟨n, v⟩, hp, e1, e2⟩ := mapFind_some hf
      simp only at e1 e2
      subst e1 e2
      rw [(C56_names h n).2 _ _ hm hp]
  · intro hf
    obtain ⟨⟨n, v⟩, hp, e1, e2⟩ := mapFind_some hf
    simp only at e1 e2
    subst e1 e2
    exact hp

theorem hasTable_iff {src : List (List Byte × List FxItem)} {img : List Byte} {idx : List (List Byte × Nat)} (h : tfcCompile src = some (img, idx))
    (name : List Byte) : HasTable src name ↔ ∃ r, mapFind idx name = some r := by
  rw [HasTable, ← (C56_names h name).1]
  simp only [idx_fun h]

theorem continues_must {l : FxItem} (h : l.flags &&& 0x80 ≠ 0) : Continues l := by
  intro hc
  apply h
  have : l.flags &&& 0x80 = (l.flags &&& 0xc0) &&& 0x80 := by rw [Nat.and_assoc]; rfl
  rw [this, hc]; rfl

/-- A line of the image makes the endings its line of the source makes. -/
theorem lineEnding_iff {src : List (List Byte × List FxItem)} {img : List Byte} {idx : List (List Byte × Nat)} (h : tfcCompile src = some (img, idx))
    (hok : TfcOk src) {name : List Byte} {r : Nat} {lines : List FxItem} {t : List (FxItem × Nat)} (ht : TableAt src img idx name r lines t)
    {p : FxItem × Nat} (hp : p ∈ t) (verb : Prop) (q : Nat) (e : List Byte) :
    (∃ g, LineEnding img verb q (p.1.citem p.2) e g) ↔ SrcLineEnding src verb q p.1 e := by
  have hf : (p.1.citem p.2).flags = p.1.flags := rfl
  have hg : (p.1.citem p.2).gr = p.1.gr := rfl
  have hx : (p.1.citem p.2).flex = p.1.tail := rfl
  constructor
  · rintro ⟨g, h1 | h1 | ⟨h1, h2, h3, s, h4, h5, h6, h7⟩⟩
    · exact Or.inl ⟨h1.1, h1.2.1, h1.2.2.1, h1.2.2.2.1⟩
    · exact Or.inr (Or.inl ⟨h1.1, h1.2.1, h1.2.2.1, h1.2.2.2.1⟩)
    · refine Or.inr (Or.inr ⟨h1, h2, h3, ?_⟩)
      obtain ⟨k1, k2, k3⟩ := (ht.onward p hp).1 (continues_must h3)
      rw [k2] at h4
      obtain ⟨lines', t', ht'⟩ := tableAt h hok k3
      obtain ⟨p', hp', rfl, hl'⟩ := ht'.inTable_of h4
      exact ⟨lines', p'.1, ht'.defined, hl', h5, h6⟩
  · rintro (h1 | h1 | ⟨h1, h2, h3, lines', s, h4, h5, h6, h7⟩)
    · exact ⟨_, Or.inl ⟨h1.1, h1.2.1, h1.2.2.1, h1.2.2.2, rfl⟩⟩
    · exact ⟨_, Or.inr (Or.inl ⟨h1.1, h1.2.1, h1.2.2.1, h1.2.2.2, rfl⟩)⟩
    · obtain ⟨k1, k2, k3⟩ := (ht.onward p hp).1 (continues_must h3)
      obtain ⟨lines'', t', ht'⟩ := tableAt h hok k3
      cases defined_unique h4 ht'.defined
      obtain ⟨p', hp', rfl⟩ := (ht'.mem_lines _).1 h5
      refine ⟨_, Or.inr (Or.inr ⟨h1, h2, h3, p'.1.citem p'.2, ?_, h6, h7, rfl⟩)⟩
      rw [k2]
      exact (ht'.inTable _).2 ⟨p', hp', rfl⟩

/-- The headword is cut as the source says. -/
theorem headEnding_iff {src : List (List Byte × List FxItem)} {img : List Byte} {idx : List (List Byte × Nat)} (h : tfcCompile src = some (img, idx))
    (hok : TfcOk src) {name : List Byte} {r : Nat} (hm : (name, r) ∈ idx) (verb : Prop) (q : Nat) (base bare : List Byte) :
    (∃ g, HeadEnding img r verb q base bare g) ↔ SrcHeadEnding src name verb q base bare := by
  obtain ⟨lines, t, ht⟩ := tableAt h hok hm
  have hsort : (t.map (·.1)).Pairwise fun a b => a.less b = true := by rw [ht.sorted]; exact ftSorted_sorted lines
  constructor
  · rintro ⟨g, l, i, m, e, h1, h2, h3, h4⟩
    rw [ht.table, Option.some.injEq] at h1
    obtain ⟨tl, tr, rfl, h5, h6⟩ := List.map_eq_append_iff.1 h1
    obtain ⟨p, tm, rfl, h7, h8⟩ := List.map_eq_cons_iff.1 h6
    subst h5 h7 h8
    refine ⟨lines, p.1, e, ht.defined, (ht.mem_lines _).2 ⟨p, by simp, rfl⟩, (lineEnding_iff h hok ht (by simp) verb q e).1 ⟨g, h2⟩, h3, ?_⟩
    intro l' hl' hb e' he'
    obtain ⟨p', hp', rfl⟩ := (ht.mem_lines _).1 hl'
    rw [List.map_append, List.map_cons, List.pairwise_append, List.pairwise_cons] at hsort
    rw [← less_before] at hb
    have hin : p' ∈ tl := by
      rcases List.mem_append.1 hp' with hq | hq
      · exact hq
      · exfalso
        rcases List.mem_cons.1 hq with rfl | hq
        · rw [FxItem.less_irrefl] at hb; simp at hb
        · have := hsort.2.1.1 p'.1 (List.mem_map.2 ⟨p', hq, rfl⟩)
          have := FxItem.less_trans hb this
          rw [FxItem.less_irrefl] at this; simp at this
    obtain ⟨g', hg'⟩ := (lineEnding_iff h hok ht hp' verb q e').2 he'
    exact h4 _ (List.mem_map.2 ⟨p', hin, rfl⟩) e' g' hg'
  · rintro ⟨lines', l, e, h1, h2, h3, h4, h5⟩
    cases defined_unique h1 ht.defined
    obtain ⟨p, hp, rfl⟩ := (ht.mem_lines _).1 h2
    obtain ⟨tl, tm, rfl⟩ := List.append_of_mem hp
    obtain ⟨g, hg⟩ := (lineEnding_iff h hok ht hp verb q e).2 h3
    refine ⟨g, tl.map (fun p => p.1.citem p.2), p.1.citem p.2, tm.map (fun p => p.1.citem p.2), e, by rw [ht.table]; simp, hg, h4, ?_⟩
    intro j hj e' g' hg'
    obtain ⟨p', hp', rfl⟩ := List.mem_map.1 hj
    have hp'' : p' ∈ tl ++ p :: tm := by simp [hp']
    rw [List.map_append, List.map_cons, List.pairwise_append] at hsort
    refine h5 p'.1 ((ht.mem_lines _).2 ⟨p', hp'', rfl⟩) ?_ e' ((lineEnding_iff h hok ht hp'' verb q e').1 ⟨g', hg'⟩)
    rw [← less_before]
    exact hsort.2.2 _ (List.mem_map.2 ⟨p', hp', rfl⟩) _ (by simp)

theorem bare_iff {src : List (List Byte × List FxItem)} {img : List Byte} {idx : List (List Byte × Nat)} (h : tfcCompile src = some (img, idx))
    (hok : TfcOk src) {name : List Byte} {r : Nat} (hm : (name, r) ∈ idx) (pos : Nat) (plural : Bool) (ind base bare : List Byte) :
    Bare img r pos plural ind base bare ↔ SrcBare src name pos plural ind base bare := by
  simp only [Bare, SrcBare, headEnding_iff h hok hm]

/-- Endings of the tables have the letters of their lines. -/
theorem srcEnding_letters {Z : RusSrc} (hz : TablesFit Z) {name e : List Byte} {g fl : Nat} (h : SrcEnding Z.flex name e g fl) :
    ∀ b ∈ e, 0 < b ∧ b < 256 := by
  induction h with
  | here hd hl _ =>
    obtain ⟨pre, hdr, post, e, _⟩ := hd
    exact (hz.tails (hdr, _) (by rw [e]; simp) _ hl).2
  | next hd hl _ _ ih =>
    obtain ⟨pre, hdr, post, e, _⟩ := hd
    intro b hb
    rcases List.mem_append.1 hb with hb | hb
    · exact (hz.tails (hdr, _) (by rw [e]; simp) _ hl).2 b hb
    · exact ih b hb

theorem tablesFit_ok {Z : RusSrc} (hz : TablesFit Z) : TfcOk Z.flex :=
  ⟨fun p hp => by have := hz.lines p hp; omega, fun p hp l hl => (hz.tails p hp l hl).1, hz.words⟩

/-! ### Alternation tables -/

theorem stepServes_iff (steps : List (List Byte)) (x : List Byte) (k : Nat) : Serves steps.zipIdx x k ↔ StepServes steps x k := by
  have hm : ∀ y j, (y, j) ∈ steps.zipIdx ↔ steps[j]? = some y := fun y j => List.mem_zipIdx_iff_getElem?
  rw [Serves, StepServes]
  simp only [hm]
  have h0 : steps.head? = steps[0]? := List.head?_eq_getElem?
  rw [h0]
  have hn : (∀ y, ¬ steps[k]? = some y) ↔ steps[k]? = none := by
    cases steps[k]? with
    | none => simp
    | some y => simp
  rw [hn]
  constructor
  · rintro (h | ⟨h1, h2, h3⟩)
    · exact Or.inl h
    · exact Or.inr ⟨h3, h2, h1⟩
  · rintro (h | ⟨h1, h2, h3⟩)
    · exact Or.inl h
    · exact Or.inr ⟨h3, h2, h1⟩

theorem mixOk_steps {Z : RusSrc} (hz : TablesFit Z) {l : IchLine} (hl : l ∈ Z.mix) : MixOk l.steps.zipIdx := by
  obtain ⟨h1, h2, h3⟩ := hz.steps l hl
  refine ⟨by simp; omega, fun p hp => ?_, fun p hp => ?_⟩
  · obtain ⟨x, k⟩ := p
    rw [List.mem_zipIdx_iff_getElem?] at hp
    exact (h3 x (List.mem_of_getElem? hp)).1
  · obtain ⟨x, k⟩ := p
    rw [List.mem_zipIdx_iff_getElem?] at hp
    obtain ⟨hk, _⟩ := List.getElem?_eq_some_iff.1 hp
    simp only at hk ⊢; omega

theorem heads_unique : ∀ (l1 l2 : List (Nat × List Byte)) (r1 r2 : List Byte), l1.length = l2.length → (∀ p ∈ l1, p.1 &&& 0x0f = p.2.length) →
    (∀ p ∈ l2, p.1 &&& 0x0f = p.2.length) → (l1.map fun p => p.1 :: p.2).flatten ++ r1 = (l2.map fun p => p.1 :: p.2).flatten ++ r2 → l1 = l2
  | [], [], _, _, _, _, _, _ => rfl
  | [], _ :: _, _, _, h, _, _, _ => by simp at h
  | _ :: _, [], _, _, h, _, _, _ => by simp at h
  | (a, x) :: l1, (b, y) :: l2, r1, r2, h, h1, h2, e => by
    simp only [List.map_cons, List.flatten_cons, List.cons_append, List.append_assoc, List.cons.injEq] at e
    obtain ⟨rfl, e⟩ := e
    have k1 := h1 (a, x) (by simp)
    have k2 := h2 (a, y) (by simp)
    simp only at k1 k2
    obtain ⟨rfl, e'⟩ := List.append_inj e (by omega)
    rw [heads_unique l1 l2 r1 r2 (by simpa using h) (fun p hp => h1 p (by simp [hp])) (fun p hp => h2 p (by simp [hp])) e']

/-- An image of an alternation table tells which alternant serves which level. -/
theorem serves_of_ser {h1 h2 : List (List Byte × Nat)} (k1 : MixOk h1) (k2 : MixOk h2) {r1 r2 : List Byte}
    (e : mixSer (mixOf h1) ++ r1 = mixSer (mixOf h2) ++ r2) (x : List Byte) (k : Nat) : Serves h1 x k → Serves h2 x k := by
  obtain ⟨_, i2, i3, i4, _, i6⟩ := mixOf_inv h1 k1.levels
  obtain ⟨_, j2, j3, j4, _, j6⟩ := mixOf_inv h2 k2.levels
  have c1 := k1.count
  have c2 := k2.count
  have rewr : ∀ h : List (List Byte × Nat), (mixOf h).length < 256 → mixSer (mixOf h) = (mixOf h).length ::
      (((mixOf h).map fun m => (mixHead (spareBits (mixOf h)) m, m.str)).map fun p => p.1 :: p.2).flatten := by
    intro h hl
    rw [mixSer, Nat.mod_eq_of_lt hl, List.map_map]; rfl
  rw [rewr h1 (by omega), rewr h2 (by omega)] at e
  simp only [List.cons_append, List.cons.injEq] at e
  obtain ⟨e1, e2⟩ := e
  have key := heads_unique _ _ r1 r2 (by simpa using e1) ?_ ?_ e2
  · intro hs
    have hm : ∃ m ∈ mixOf h1, m.str = x := by
      rcases hs with h | h
      · exact i4 _ h
      · exact i4 _ h.1
    obtain ⟨m, hm, rfl⟩ := hm
    have hin : (mixHead (spareBits (mixOf h1)) m, m.str) ∈ (mixOf h2).map fun m => (mixHead (spareBits (mixOf h2)) m, m.str) := by
      rw [← key]; exact List.mem_map.2 ⟨m, hm, rfl⟩
    obtain ⟨m', hm', e3⟩ := List.mem_map.1 hin
    simp only [Prod.mk.injEq] at e3
    rw [← mixHead_serves h1 k1 hm, ← e3.1, mixHead_serves h2 k2 hm', e3.2] at hs
    exact hs
  · intro p hp
    obtain ⟨m, hm, rfl⟩ := List.mem_map.1 hp
    obtain ⟨k, hk⟩ := i3 m hm
    exact (mixHead_spec _ m (k1.short _ hk) (i2 m hm)).2.1
  · intro p hp
    obtain ⟨m, hm, rfl⟩ := List.mem_map.1 hp
    obtain ⟨k, hk⟩ := j3 m hm
    exact (mixHead_spec _ m (k2.short _ hk) (j2 m hm)).2.1

/-- Two lines that stand at one place say the same. -/
theorem stands_same {Z : RusSrc} (hz : TablesFit Z) {img : List Byte} {o : Nat} {l l' : IchLine} (hl : l ∈ Z.mix) (hl' : l' ∈ Z.mix)
    (h : StandsAt img o l) (h' : StandsAt img o l') (x : List Byte) (k : Nat) : StepServes l.steps x k ↔ StepServes l'.steps x k := by
  obtain ⟨r, e⟩ := h
  obtain ⟨r', e'⟩ := h'
  rw [e] at e'
  rw [← stepServes_iff, ← stepServes_iff]
  exact ⟨serves_of_ser (mixOk_steps hz hl) (mixOk_steps hz hl') e' x k, serves_of_ser (mixOk_steps hz hl') (mixOk_steps hz hl) e'.symm x k⟩

theorem stepServes_zero (steps : List (List Byte)) (x : List Byte) : StepServes steps x 0 ↔ steps.head? = some x := by
  rw [StepServes, List.head?_eq_getElem?]
  constructor
  · rintro (h | ⟨_, _, h⟩) <;> exact h
  · exact Or.inl

theorem stands_head {Z : RusSrc} (hz : TablesFit Z) {img : List Byte} {o : Nat} {l l' : IchLine} (hl : l ∈ Z.mix) (hl' : l' ∈ Z.mix)
    (h : StandsAt img o l) (h' : StandsAt img o l') : l.steps.head? = l'.steps.head? := by
  ext x
  rw [← stepServes_zero, ← stepServes_zero]
  exact stands_same hz hl hl' h h' x 0

/-- Two lines that stand at one place have the same alternants. -/
theorem stands_mem {Z : RusSrc} (hz : TablesFit Z) {img : List Byte} {o : Nat} {l l' : IchLine} (hl : l ∈ Z.mix) (hl' : l' ∈ Z.mix)
    (h : StandsAt img o l) (h' : StandsAt img o l') (x : List Byte) (hx : x ∈ l.steps) : x ∈ l'.steps := by
  obtain ⟨k, hk⟩ := List.mem_iff_getElem?.1 hx
  rcases (stands_same hz hl hl' h h' x k).1 (Or.inl hk) with h | ⟨_, _, h⟩
  · exact List.mem_of_getElem? h
  · exact List.mem_of_mem_head? h

theorem ichOffsets_lt : ∀ (ms : List (List Mix)) (o : Nat), o < 65536 → ∀ x ∈ ichOffsets o ms, x < 65536
  | [], _, _, x, h => by simp [ichOffsets] at h
  | m :: ms, o, ho, x, h => by
    rw [ichOffsets, List.mem_cons] at h
    rcases h with rfl | h
    · exact ho
    · exact ichOffsets_lt ms _ (Nat.mod_lt _ (by decide)) x h

theorem ich_ref {src : List IchLine} {img : List Byte} {idx : List (List Byte × List (List Byte × Nat))} (h : ichCompile src = some (img, idx))
    {name : List Byte} {es : List (List Byte × Nat)} (he : (name, es) ∈ idx) {cond : List Byte} {o : Nat} (ho : (cond, o) ∈ es) : o < 65536 := by
  obtain ⟨s, tabs, hi⟩ := ichCompile_some h
  obtain ⟨g, c, _, _, h3⟩ := hi.entry he
  obtain ⟨p, _, hpq⟩ := forall₂_mem_right h3 ho
  rw [Option.map_eq_some_iff] at hpq
  obtain ⟨a, ha, e⟩ := hpq
  simp only [Prod.mk.injEq] at e
  rw [← e.2]
  exact ichOffsets_lt _ _ (by decide) _ (List.mem_of_getElem? ha)

theorem stands_pos {Z : RusSrc} (hz : TablesFit Z) {img : List Byte} {idx : List (List Byte × List (List Byte × Nat))} (h : ichCompile Z.mix = some (img, idx))
    {l : IchLine} (hl : l ∈ Z.mix) {o : Nat} (hs : StandsAt img o l) : o ≠ 0 := by
  rintro rfl
  obtain ⟨s, tabs, hi⟩ := ichCompile_some h
  obtain ⟨r, e⟩ := hs
  rw [List.drop_zero, hi.himg, mixSer] at e
  simp only [List.cons_append, List.cons.injEq] at e
  have := (mixOf_inv _ (mixOk_steps hz hl).levels).2.2.2.2.2
  have h4 := (hz.steps l hl).2.1
  rw [List.length_zipIdx] at this
  omega

/-! ### The tables of the compiler -/

/-- The tables were compiled from the sources. -/
structure Compiled (Z : RusSrc) (T : RusTabs) : Prop where
  flex : tfcCompile Z.flex = some (T.ftab, T.findex)
  mix : ichCompile Z.mix = some (T.mtab, T.mindex)

open Classical in
/-- The alternants that stand at a place. -/
noncomputable def pipeAlts (Z : RusSrc) (mtab : List Byte) (o : Nat) : List (List Byte × Nat) :=
  if h : ∃ l ∈ Z.mix, StandsAt mtab o l then (Classical.choose h).steps.zipIdx else []

/-- The source in the terms of references. -/
noncomputable def pipeSource (Z : RusSrc) (T : RusTabs) : RusSource where
  ftab := T.ftab
  endings := mapFind T.findex
  alts := pipeAlts Z T.mtab
  mixes := fun name => (mapFind T.mindex name).getD []

theorem pipeAlts_spec {Z : RusSrc} {mtab : List Byte} {o : Nat} {l : IchLine} (hl : l ∈ Z.mix) (hs : StandsAt mtab o l) :
    ∃ l' ∈ Z.mix, StandsAt mtab o l' ∧ pipeAlts Z mtab o = l'.steps.zipIdx := by
  have h : ∃ l ∈ Z.mix, StandsAt mtab o l := ⟨l, hl, hs⟩
  have hc := Classical.choose_spec h
  refine ⟨Classical.choose h, hc.1, hc.2, ?_⟩
  rw [pipeAlts, dif_pos h]

theorem pipeAlts_serves {Z : RusSrc} (hz : TablesFit Z) {mtab : List Byte} {o : Nat} {l : IchLine} (hl : l ∈ Z.mix) (hs : StandsAt mtab o l)
    (x : List Byte) (k : Nat) : Serves (pipeAlts Z mtab o) x k ↔ StepServes l.steps x k := by
  obtain ⟨l', hl', hs', e⟩ := pipeAlts_spec hl hs
  rw [e, stepServes_iff]
  exact stands_same hz hl' hl hs' hs x k

theorem pipeAlts_basic {Z : RusSrc} (hz : TablesFit Z) {mtab : List Byte} {o : Nat} {l : IchLine} (hl : l ∈ Z.mix) (hs : StandsAt mtab o l)
    (x : List Byte) : (x, 0) ∈ pipeAlts Z mtab o ↔ l.steps.head? = some x := by
  obtain ⟨l', hl', hs', e⟩ := pipeAlts_spec hl hs
  rw [e, stands_head hz hl hl' hs hs', List.mem_zipIdx_iff_getElem?, List.head?_eq_getElem?]

/-- The lines of an alternation table, with their references. -/
theorem mixes_lines {Z : RusSrc} {T : RusTabs} (hz : TablesFit Z) (hc : Compiled Z T) (name : List Byte) :
    List.Forall₂ (fun e l => e.1 = l.cond ∧ StandsAt T.mtab e.2 l) ((pipeSource Z T).mixes name) (linesOf Z.mix name) := by
  show List.Forall₂ _ ((mapFind T.mindex name).getD []) _
  cases hf : mapFind T.mindex name with
  | none =>
    have hne : ¬ ∃ l ∈ Z.mix, Named l.header name := by
      rw [← (C57_names hc.mix name).1]
      rintro ⟨es, hm⟩
      rw [mapFind, Option.map_eq_none_iff, List.find?_eq_none] at hf
      exact hf _ hm (by simp)
    have : linesOf Z.mix name = [] := by
      rw [linesOf, List.filter_eq_nil_iff]
      intro l hl
      simp only [decide_eq_true_eq]
      exact fun hn => hne ⟨l, hl, hn⟩
    rw [this]
    exact .nil
  | some es =>
    obtain ⟨⟨n, v⟩, hp, e1, e2⟩ := mapFind_some hf
    simp only at e1 e2
    subst e1 e2
    exact C57_exact hc.mix hz.space hz.same hp

theorem mem_linesOf {src : List IchLine} {name : List Byte} {l : IchLine} (h : l ∈ linesOf src name) : l ∈ src := (List.mem_filter.1 h).1

theorem mixes_ref {Z : RusSrc} {T : RusTabs} (hc : Compiled Z T) {name : List Byte} {cond : List Byte} {o : Nat}
    (h : (cond, o) ∈ (pipeSource Z T).mixes name) : o < 65536 := by
  have h' : (cond, o) ∈ (mapFind T.mindex name).getD [] := h
  cases hf : mapFind T.mindex name with
  | none => rw [hf] at h'; simp at h'
  | some es =>
    rw [hf] at h'
    obtain ⟨⟨n, v⟩, hp, e1, e2⟩ := mapFind_some hf
    simp only at e1 e2
    subst e1 e2
    exact ich_ref hc.mix hp h'

theorem altFit_of {Z : RusSrc} {T : RusTabs} (hz : TablesFit Z) (hc : Compiled Z T) {o : Nat} {l : IchLine} (hl : l ∈ Z.mix) (hs : StandsAt T.mtab o l) :
    AltFit T.mtab (pipeAlts Z T.mtab o) o := by
  obtain ⟨l', hl', hs', e⟩ := pipeAlts_spec hl hs
  obtain ⟨h1, h2, h3⟩ := hz.steps l' hl'
  refine ⟨stands_pos hz hc.mix hl hs, by rw [e]; exact mixOk_steps hz hl', by rw [e]; simp; omega, ?_, by rw [e]; exact hs'⟩
  cases hh : l'.steps.head? with
  | none => rw [List.head?_eq_none_iff] at hh; rw [hh] at h1; simp at h1
  | some x =>
    refine ⟨x, (pipeAlts_basic hz hl' hs' x).2 hh, fun y hy => ?_⟩
    rw [pipeAlts_basic hz hl' hs', hh] at hy
    cases hy; rfl

theorem putserial_bytes' (n : Nat) : ∀ b ∈ putserial n, b < 256 := by
  induction n using Nat.strongRecOn with
  | ind n ih =>
    rw [putserial]
    split
    · intro b hb; simp at hb; omega
    · intro b hb
      rcases List.mem_cons.1 hb with rfl | hb
      · omega
      · exact ih (n / 128) (by omega) b hb

theorem image_bytes {Z : RusSrc} {T : RusTabs} (hz : TablesFit Z) (hc : Compiled Z T) : ∀ b ∈ T.ftab, b < 256 := by
  obtain ⟨offs, tabs, hi⟩ := (tfcCompile_some _ _ _).1 hc.flex
  intro b hb
  rw [hi.himg, List.mem_append] at hb
  rcases hb with hb | hb
  · revert b; decide
  · obtain ⟨s, hs, hb⟩ := List.mem_flatten.1 hb
    obtain ⟨t, ht, rfl⟩ := List.mem_map.1 hs
    obtain ⟨n, hn⟩ := List.mem_iff_getElem?.1 ht
    have hlet : ∀ p ∈ t, ∀ b ∈ p.1.tail, b < 256 := by
      intro p hp b hb
      obtain ⟨lines, hlines, hf⟩ := forall₂_mem_right hi.htabs ht
      obtain ⟨x, hx, hxp⟩ := forall₂_mem_right hf hp
      obtain ⟨q1, _⟩ := hi.next hxp
      obtain ⟨q, hq, rfl⟩ := (fxAll_spec Z.flex).1 _ hlines
      rw [q1] at hb
      exact ((hz.tails q hq x ((mem_ftSorted _ _).1 hx)).2 b hb).2
    rw [ftSer] at hb
    simp only [List.cons_append, List.mem_cons, List.mem_append] at hb
    rcases hb with rfl | hb | hb
    · exact Nat.mod_lt _ (by decide)
    · obtain ⟨s, hs, hb⟩ := List.mem_flatten.1 hb
      obtain ⟨p, hp, rfl⟩ := List.mem_map.1 hs
      rw [FxItem.ser] at hb
      simp only [List.cons_append, List.mem_cons, List.mem_append] at hb
      have h16 : ∀ n, ∀ b ∈ putword16 n, b < 256 := by
        intro n b hb
        simp only [putword16, List.mem_cons, List.not_mem_nil, or_false] at hb
        omega
      rcases hb with rfl | ((hb | hb) | hb) | hb
      · exact Nat.mod_lt _ (by decide)
      · exact h16 _ _ hb
      · exact putserial_bytes' _ _ hb
      · exact hlet p hp b hb
      · split at hb
        · exact h16 _ _ hb
        · simp at hb
    · split at hb
      · simp at hb; omega
      · simp at hb

theorem TableAt.small {Z : RusSrc} (hz : TablesFit Z) {img : List Byte} {idx : List (List Byte × Nat)} {name : List Byte} {r : Nat}
    {lines : List FxItem} {t : List (FxItem × Nat)} (h : TableAt Z.flex img idx name r lines t) : t.length < 128 := by
  obtain ⟨hd, hm⟩ := h.mem
  have h1 : t.length = (ftSorted lines).length := by rw [← h.sorted, List.length_map]
  have h2 := length_ftSorted lines
  have h3 := hz.lines _ hm
  simp only at h3
  omega

theorem nounShape_src {Z : RusSrc} {T : RusTabs} (hz : TablesFit Z) (hc : Compiled Z T) {name : List Byte} {r : Nat} {lines : List FxItem}
    {t : List (FxItem × Nat)} (ht : TableAt Z.flex T.ftab T.findex name r lines t) {q : Nat} (h : SrcNounShape Z.flex lines q) : NounShape T.ftab r q := by
  refine ⟨⟨_, ht.table, by rw [List.length_map]; exact ht.small hz⟩, fun i hi hq => ?_, fun i hi hq hf => ?_⟩
  · obtain ⟨p, hp, rfl, hl⟩ := ht.inTable_of hi
    exact h.short p.1 hl hq
  · obtain ⟨p, hp, rfl, hl⟩ := ht.inTable_of hi
    obtain ⟨k1, k2, k3⟩ := (ht.onward p hp).1 (continues_must hf)
    obtain ⟨lines', t', ht'⟩ := tableAt hc.flex (tablesFit_ok hz) k3
    rw [k2]
    refine ⟨⟨_, ht'.table, by rw [List.length_map]; exact ht'.small hz⟩, fun j hj => ?_⟩
    obtain ⟨p', hp', rfl, hl'⟩ := ht'.inTable_of hj
    exact h.onward p.1 hl hq hf lines' ht'.defined p'.1 hl'

theorem verbShape_src {Z : RusSrc} {T : RusTabs} (hz : TablesFit Z) (hc : Compiled Z T) {name : List Byte} {r : Nat} {lines : List FxItem}
    {t : List (FxItem × Nat)} (ht : TableAt Z.flex T.ftab T.findex name r lines t) (h : SrcVerbShape Z.flex lines) : VerbShape T.ftab r := by
  refine ⟨⟨_, ht.table, by rw [List.length_map]; exact ht.small hz⟩, fun i hi => ?_, fun i hi hq => ?_, fun i hi hq hf => ?_⟩
  · obtain ⟨p, hp, rfl, hl⟩ := ht.inTable_of hi
    exact h.active p.1 hl
  · obtain ⟨p, hp, rfl, hl⟩ := ht.inTable_of hi
    exact h.short p.1 hl hq
  · obtain ⟨p, hp, rfl, hl⟩ := ht.inTable_of hi
    obtain ⟨k1, k2, k3⟩ := (ht.onward p hp).1 (continues_must hf)
    obtain ⟨lines', t', ht'⟩ := tableAt hc.flex (tablesFit_ok hz) k3
    obtain ⟨m1, m2⟩ := h.onward p.1 hl hq hf
    obtain ⟨m3, m4⟩ := m2 lines' ht'.defined
    rw [k2]
    refine ⟨k1, ⟨_, ht'.table, by rw [List.length_map]; exact ht'.small hz⟩, ?_, ?_, ?_⟩
    · intro s hs
      obtain ⟨p', hp', rfl, hl'⟩ := ht'.inTable_of hs
      exact m3 p'.1 hl'
    · intro s s' hs hs'
      obtain ⟨p', hp', rfl, hl'⟩ := ht'.inTable_of hs
      obtain ⟨p'', hp'', rfl, hl''⟩ := ht'.inTable_of hs'
      exact m4 p'.1 hl' p''.1 hl''
    · obtain ⟨tl, tr, rfl⟩ := List.append_of_mem hp
      refine ⟨tl.map fun p => p.1.citem p.2, tr.map fun p => p.1.citem p.2, by rw [ht.table]; simp, ?_⟩
      have hsort : ((tl ++ p :: tr).map (·.1)).Pairwise fun a b => a.less b = true := by rw [ht.sorted]; exact ftSorted_sorted lines
      rw [List.map_append, List.map_cons, List.pairwise_append, List.pairwise_cons] at hsort
      intro j hj hj1
      rw [← List.map_append] at hj
      obtain ⟨p', hp', rfl⟩ := List.mem_map.1 hj
      have he := m1 p'.1 ((ht.mem_lines _).2 ⟨p', by simp at hp' ⊢; rcases hp' with h | h <;> simp [h], rfl⟩) hj1
      rcases List.mem_append.1 hp' with hp' | hp'
      · have := hsort.2.2 p'.1 (List.mem_map.2 ⟨p', hp', rfl⟩) p.1 (by simp)
        rw [he, FxItem.less_irrefl] at this; simp at this
      · have := hsort.2.1.1 p'.1 (List.mem_map.2 ⟨p', hp', rfl⟩)
        rw [he, FxItem.less_irrefl] at this; simp at this

theorem pipe_fit {Z : RusSrc} {T : RusTabs} (hz : TablesFit Z) (hc : Compiled Z T) : RusFit T (pipeSource Z T) where
  ftab := rfl
  bytes := image_bytes hz hc
  endings := fun _ => rfl
  refs := by
    intro name t h
    obtain ⟨lines, t', ht⟩ := tableAt hc.flex (tablesFit_ok hz) ((idx_fun hc.flex name t).2 h)
    exact ⟨ht.pos, ht.lt⟩
  mixes := fun _ => rfl
  alts := by
    intro name cond o h
    obtain ⟨l, hl, _, hs⟩ := forall₂_mem_left (mixes_lines hz hc name) h
    exact altFit_of hz hc (mem_linesOf hl) hs
  shapes := by
    intro dies type ind pos plural base t hT hp h
    obtain ⟨lines, t', ht⟩ := tableAt hc.flex (tablesFit_ok hz) ((idx_fun hc.flex _ t).2 h)
    have := hz.heads dies type ind pos plural base lines hT hp ht.defined
    rw [HeadShape]
    by_cases hv : IsVerb pos
    · rw [if_pos hv] at this ⊢
      exact verbShape_src hz hc ht this
    · rw [if_neg hv] at this ⊢
      exact nounShape_src hz hc ht this
  colons := by
    intro dies type ind pos plural t hT hv h
    exact hz.colons dies type ind pos plural hT hv ((hasTable_iff hc.flex _).2 ⟨t, h⟩)

/-! ### Articles -/

/-- The article of the source is compiled to the article with references. -/
structure Realizes (Z : RusSrc) (T : RusTabs) (A : SrcArticle) (a : RusArticle) : Prop where
  stem : a.stem = A.stem
  info : a.wdinfo = A.info
  post : a.post = A.post
  id : a.id = A.id
  table : (A.table = none ∧ a.tfoffs = A.scale ∧ ¬ a.Inflected ∧ A.alt = none) ∨
    ∃ name, A.table = some name ∧ mapFind T.findex name = some a.tfoffs ∧ a.Inflected ∧ a.pos < 48
  alt : (A.alt = none ∧ a.mtoffs = 0) ∨ ∃ l ∈ Z.mix, A.alt = some l ∧ a.mtoffs ≠ 0 ∧ a.mtoffs < 65536 ∧ StandsAt T.mtab a.mtoffs l
  small : a.wdinfo < 0x2000 ∧ a.tfoffs < 65536

theorem info_pos {pos : Nat} {plural : Bool} (h : pos < 63) (comm : List Byte) (k : Nat) :
    (typeBits pos plural + usageBits comm + 2048 * k) % 64 = pos := by
  obtain ⟨b1, b2, b3⟩ := word_bits h comm (plural := plural) rfl
  rw [show (0x3f : Nat) = 2 ^ 6 - 1 from rfl, Nat.and_two_pow_sub_one_eq_mod] at b1
  omega

theorem info_pos' {pos : Nat} {plural : Bool} (h : pos < 63) (comm : List Byte) : (typeBits pos plural + usageBits comm) % 64 = pos := by
  have := info_pos (plural := plural) h comm 0
  simpa using this

theorem info_lt {pos : Nat} {plural : Bool} (h : pos < 63) (comm : List Byte) {k : Nat} (hk : k ≤ 2) :
    typeBits pos plural + usageBits comm + 2048 * k < 0x2000 := by
  obtain ⟨b1, b2, b3⟩ := word_bits h comm (plural := plural) rfl
  omega

theorem suits_iff {Z : RusSrc} {T : RusTabs} (hz : TablesFit Z) {o : Nat} {l : IchLine} (hl : l ∈ Z.mix) (hs : StandsAt T.mtab o l) (pos : Nat)
    (bare remark cond : List Byte) (hcond : cond = l.cond) :
    Suits ((pipeSource Z T).alts o) pos bare remark cond ↔ SrcSuits l pos bare remark := by
  subst hcond
  have : (pipeSource Z T).alts o = pipeAlts Z T.mtab o := rfl
  simp only [Suits, SrcSuits, this, pipeAlts_basic hz hl hs]

theorem forall₂_append_cons {α β : Type} {R : α → β → Prop} {l : List α} {a : α} {m : List α} {r : List β} (h : List.Forall₂ R (l ++ a :: m) r) :
    ∃ l' b m', r = l' ++ b :: m' ∧ List.Forall₂ R l l' ∧ R a b ∧ List.Forall₂ R m m' := by
  induction l generalizing r with
  | nil =>
    cases h with
    | cons h1 h2 => exact ⟨[], _, _, rfl, .nil, h1, h2⟩
  | cons x l ih =>
    cases h with
    | cons h1 h2 =>
      obtain ⟨l', b, m', rfl, h3, h4, h5⟩ := ih h2
      exact ⟨_ :: l', b, m', rfl, .cons h1 h3, h4, h5⟩

theorem mixed_to {Z : RusSrc} {T : RusTabs} (hz : TablesFit Z) (hc : Compiled Z T) {name ind comm bare : List Byte} {pos t : Nat} {plural : Bool}
    {post : List Byte} (hp : pos < 48) (hp0 : pos < 63) (ht : mapFind T.findex name = some t) {a : RusArticle}
    (h : MixedArticle (pipeSource Z T) name ind comm bare pos (typeBits pos plural + usageBits comm) t post a) :
    ∃ A, SrcMixed Z.mix name ind comm bare pos (typeBits pos plural + usageBits comm) post A ∧ Realizes Z T A a := by
  have hL := mixes_lines hz hc name
  have ht0 : t ≠ 0 ∧ t < 65536 := by have := (pipe_fit hz hc).refs name t ht; omega
  have key : ∀ {e : List Byte × Nat} {l : IchLine}, l ∈ linesOf Z.mix name → e.1 = l.cond ∧ StandsAt T.mtab e.2 l → ∀ remark,
      (Suits ((pipeSource Z T).alts e.2) pos bare remark e.1 ↔ SrcSuits l pos bare remark) :=
    fun hl hr remark => suits_iff hz (mem_linesOf hl) hr.2 pos bare remark _ hr.1
  obtain ⟨remark, hr, h⟩ := h
  rcases h with ⟨rfl, hno⟩ | ⟨l, cond, o, m, x, stem, h1, h2, h3, h4, h5, rfl⟩
  · refine ⟨_, ⟨remark, hr, Or.inl ⟨rfl, fun l hl => ?_⟩⟩, ⟨rfl, rfl, rfl, rfl, Or.inr ⟨name, rfl, ht, ⟨ht0.1, ?_⟩, ?_⟩, Or.inl ⟨rfl, rfl⟩, ⟨info_lt (k := 0) hp0 comm (by decide), ht0.2⟩⟩⟩
    · obtain ⟨e, he, hel⟩ := forall₂_mem_right hL hl
      rw [← key hl hel]
      exact hno e he
    · rw [RusArticle.pos, info_pos' hp0]; omega
    · rw [RusArticle.pos, info_pos' hp0]; exact hp
  · rw [h1] at hL
    obtain ⟨before, L, after, e1, f1, ⟨f2, f3⟩, f4⟩ := forall₂_append_cons hL
    simp only at f2 f3
    have hLm : L ∈ Z.mix := mem_linesOf (name := name) (by rw [e1]; simp)
    have ho : o < 65536 := mixes_ref hc (name := name) (cond := cond) (by rw [h1]; simp)
    have h4' : L.steps.head? = some x := (pipeAlts_basic hz hLm f3 x).1 h4
    refine ⟨⟨stem, typeBits pos plural + usageBits comm + 2048 * kindOf pos ind, some name, 0, some L, post, 0⟩,
      ⟨remark, hr, Or.inr ⟨before, L, after, x, stem, e1, fun l' hl' => ?_, ?_, h4', h5, rfl⟩⟩,
      ⟨rfl, rfl, rfl, rfl, Or.inr ⟨name, rfl, ht, ⟨ht0.1, ?_⟩, ?_⟩, Or.inr ⟨L, hLm, rfl, stands_pos hz hc.mix hLm f3, ho, f3⟩, ⟨info_lt hp0 comm (kindOf_le _ _), ht0.2⟩⟩⟩
    · obtain ⟨e, he, hel⟩ := forall₂_mem_right f1 hl'
      have hl'' : l' ∈ linesOf Z.mix name := by rw [e1]; simp [hl']
      rw [← key hl'' hel]
      exact h2 e he
    · rw [← suits_iff hz hLm f3 pos bare remark cond f2]; exact h3
    · rw [RusArticle.pos, info_pos hp0]; omega
    · rw [RusArticle.pos, info_pos hp0]; exact hp

theorem forall₂_append_cons' {α β : Type} {R : α → β → Prop} {l : List β} {b : β} {m : List β} {r : List α} (h : List.Forall₂ R r (l ++ b :: m)) :
    ∃ l' a m', r = l' ++ a :: m' ∧ List.Forall₂ R l' l ∧ R a b ∧ List.Forall₂ R m' m := by
  induction l generalizing r with
  | nil =>
    cases h with
    | cons h1 h2 => exact ⟨[], _, _, rfl, .nil, h1, h2⟩
  | cons x l ih =>
    cases h with
    | cons h1 h2 =>
      obtain ⟨l', b, m', rfl, h3, h4, h5⟩ := ih h2
      exact ⟨_ :: l', b, m', rfl, .cons h1 h3, h4, h5⟩

theorem mixed_of {Z : RusSrc} {T : RusTabs} (hz : TablesFit Z) (hc : Compiled Z T) {name ind comm bare : List Byte} {pos t : Nat} {plural : Bool}
    {post : List Byte} (hp : pos < 48) (hp0 : pos < 63) (ht : mapFind T.findex name = some t) {A : SrcArticle}
    (h : SrcMixed Z.mix name ind comm bare pos (typeBits pos plural + usageBits comm) post A) :
    ∃ a, MixedArticle (pipeSource Z T) name ind comm bare pos (typeBits pos plural + usageBits comm) t post a ∧ Realizes Z T A a := by
  have hL := mixes_lines hz hc name
  have ht0 : t ≠ 0 ∧ t < 65536 := by have := (pipe_fit hz hc).refs name t ht; omega
  have key : ∀ {e : List Byte × Nat} {l : IchLine}, l ∈ linesOf Z.mix name → e.1 = l.cond ∧ StandsAt T.mtab e.2 l → ∀ remark,
      (Suits ((pipeSource Z T).alts e.2) pos bare remark e.1 ↔ SrcSuits l pos bare remark) :=
    fun hl hr remark => suits_iff hz (mem_linesOf hl) hr.2 pos bare remark _ hr.1
  obtain ⟨remark, hr, h⟩ := h
  rcases h with ⟨rfl, hno⟩ | ⟨before, L, after, x, stem, h1, h2, h3, h4, h5, rfl⟩
  · refine ⟨_, ⟨remark, hr, Or.inl ⟨rfl, fun e he => ?_⟩⟩, ⟨rfl, rfl, rfl, rfl, Or.inr ⟨name, rfl, ht, ⟨ht0.1, ?_⟩, ?_⟩, Or.inl ⟨rfl, rfl⟩, ⟨info_lt (k := 0) hp0 comm (by decide), ht0.2⟩⟩⟩
    · obtain ⟨l, hl, hel⟩ := forall₂_mem_left hL he
      rw [key hl hel]
      exact hno l hl
    · rw [RusArticle.pos, info_pos' hp0]; omega
    · rw [RusArticle.pos, info_pos' hp0]; exact hp
  · have hL' := hL
    rw [h1] at hL'
    obtain ⟨l, ⟨cond, o⟩, m, e1, f1, ⟨f2, f3⟩, f4⟩ := forall₂_append_cons' hL'
    simp only at f2 f3
    have hLm : L ∈ Z.mix := mem_linesOf (name := name) (by rw [h1]; simp)
    have ho : o < 65536 := mixes_ref hc (name := name) (cond := cond) (by rw [e1]; simp)
    refine ⟨⟨stem, typeBits pos plural + usageBits comm + 2048 * kindOf pos ind, t, o, post, 0⟩,
      ⟨remark, hr, Or.inr ⟨l, cond, o, m, x, stem, e1, fun e he => ?_, ?_, (pipeAlts_basic hz hLm f3 x).2 h4, h5, rfl⟩⟩,
      ⟨rfl, rfl, rfl, rfl, Or.inr ⟨name, rfl, ht, ⟨ht0.1, ?_⟩, ?_⟩, Or.inr ⟨L, hLm, rfl, stands_pos hz hc.mix hLm f3, ho, f3⟩, ⟨info_lt hp0 comm (kindOf_le _ _), ht0.2⟩⟩⟩
    · obtain ⟨l', hl', hel⟩ := forall₂_mem_left f1 he
      have hl'' : l' ∈ linesOf Z.mix name := by rw [h1]; simp [hl']
      rw [key hl'' hel]
      exact h2 l' hl'
    · rw [suits_iff hz hLm f3 pos bare remark cond f2]; exact h3
    · rw [RusArticle.pos, info_pos hp0]; omega
    · rw [RusArticle.pos, info_pos hp0]; exact hp

theorem scale_lt {pos u : Nat} {ind : List Byte} (h : if pos = 51 then ScaleText ind u else u = 0) : u < 65536 := by
  split at h
  · rcases h with ⟨rfl, _⟩ | ⟨_, _, _, _, _, _, h, _⟩ <;> omega
  · omega

/-- The articles of the words of a line, in the source and with references. -/
theorem article_to {Z : RusSrc} {T : RusTabs} (hz : TablesFit Z) (hc : Compiled Z T) {norm dies type ind comm : List Byte} {a : RusArticle}
    (h : ArticleIs (pipeSource Z T) norm dies type ind comm a) : ∃ A, SrcArticleIs Z norm dies type ind comm A ∧ Realizes Z T A a := by
  obtain ⟨pos, plural, post, base, cut, h1, h2, h3, h4, h⟩ := h
  obtain ⟨_, h63, _⟩ := TypeIs_pos h1
  rcases h with ⟨u, k1, k2, rfl⟩ | ⟨t, bare, k1, k2, k3, k4⟩
  · have hu := scale_lt k2
    refine ⟨_, ⟨pos, plural, post, base, cut, h1, h2, h3, h4, Or.inl ⟨u, ?_, k2, rfl⟩⟩, ⟨rfl, rfl, rfl, rfl, Or.inl ⟨rfl, rfl, ?_, rfl⟩, Or.inl ⟨rfl, rfl⟩, ⟨info_lt (k := 0) h63 comm (by decide), hu⟩⟩⟩
    · refine k1.imp_right fun ⟨j1, j2⟩ => ⟨?_, j2⟩
      rw [hasTable_iff hc.flex]
      rintro ⟨r, hr⟩
      rw [show (pipeSource Z T).endings (tableName type ind) = mapFind T.findex (tableName type ind) from rfl, hr] at j1
      simp at j1
    · rintro ⟨j1, j2⟩
      rw [RusArticle.pos, info_pos' h63] at j2
      rw [if_neg j2] at k2
      exact j1 k2
  · obtain ⟨A, hA, hr⟩ := mixed_to hz hc k1 h63 k2 k4
    exact ⟨A, ⟨pos, plural, post, base, cut, h1, h2, h3, h4, Or.inr ⟨bare, k1, (hasTable_iff hc.flex _).2 ⟨t, k2⟩,
      (bare_iff hc.flex (tablesFit_ok hz) ((idx_fun hc.flex _ _).2 k2) _ _ _ _ _).1 k3, hA⟩⟩, hr⟩

theorem article_of {Z : RusSrc} {T : RusTabs} (hz : TablesFit Z) (hc : Compiled Z T) {norm dies type ind comm : List Byte} {A : SrcArticle}
    (h : SrcArticleIs Z norm dies type ind comm A) : ∃ a, ArticleIs (pipeSource Z T) norm dies type ind comm a ∧ Realizes Z T A a := by
  obtain ⟨pos, plural, post, base, cut, h1, h2, h3, h4, h⟩ := h
  obtain ⟨_, h63, _⟩ := TypeIs_pos h1
  rcases h with ⟨u, k1, k2, rfl⟩ | ⟨bare, k1, k2, k3, k4⟩
  · have hu := scale_lt k2
    refine ⟨_, ⟨pos, plural, post, base, cut, h1, h2, h3, h4, Or.inl ⟨u, ?_, k2, rfl⟩⟩, ⟨rfl, rfl, rfl, rfl, Or.inl ⟨rfl, rfl, ?_, rfl⟩, Or.inl ⟨rfl, rfl⟩, ⟨info_lt (k := 0) h63 comm (by decide), hu⟩⟩⟩
    · refine k1.imp_right fun ⟨j1, j2⟩ => ⟨?_, j2⟩
      rw [hasTable_iff hc.flex] at j1
      show mapFind T.findex (tableName type ind) = none
      cases hf : mapFind T.findex (tableName type ind) with
      | none => rfl
      | some r => exact absurd ⟨r, hf⟩ j1
    · rintro ⟨j1, j2⟩
      rw [RusArticle.pos, info_pos' h63] at j2
      rw [if_neg j2] at k2
      exact j1 k2
  · obtain ⟨t, ht⟩ := (hasTable_iff hc.flex _).1 k2
    obtain ⟨a, ha, hr⟩ := mixed_of hz hc k1 h63 ht k4
    exact ⟨a, ⟨pos, plural, post, base, cut, h1, h2, h3, h4, Or.inr ⟨t, bare, k1, ht,
      (bare_iff hc.flex (tablesFit_ok hz) ((idx_fun hc.flex _ _).2 ht) _ _ _ _ _).2 k3, ha⟩⟩, hr⟩

theorem no_article_iff {Z : RusSrc} {T : RusTabs} (hz : TablesFit Z) (hc : Compiled Z T) (norm dies type ind comm : List Byte) :
    (∃ a, ArticleIs (pipeSource Z T) norm dies type ind comm a) ↔ ∃ A, SrcArticleIs Z norm dies type ind comm A := by
  constructor
  · rintro ⟨a, ha⟩
    obtain ⟨A, hA, _⟩ := article_to hz hc ha
    exact ⟨A, hA⟩
  · rintro ⟨A, hA⟩
    obtain ⟨a, ha, _⟩ := article_of hz hc hA
    exact ⟨a, ha⟩

theorem text_to {Z : RusSrc} {T : RusTabs} (hz : TablesFit Z) (hc : Compiled Z T) {s : List Byte} {l : List RusArticle}
    (h : TextIs (pipeSource Z T) s l) : ∃ L, SrcTextIs Z s L ∧ List.Forall₂ (Realizes Z T) L l := by
  obtain ⟨norm, dies, type, ind, comm, hf, h⟩ := h
  have half : ∀ x (l : List RusArticle), ((l = [] ∧ ¬ ∃ a, ArticleIs (pipeSource Z T) norm dies type x comm a) ∨ ∃ a, l = [a] ∧ ArticleIs (pipeSource Z T) norm dies type x comm a) →
      ∃ L, ((L = [] ∧ ¬ ∃ a, SrcArticleIs Z norm dies type x comm a) ∨ ∃ a, L = [a] ∧ SrcArticleIs Z norm dies type x comm a) ∧ List.Forall₂ (Realizes Z T) L l := by
    rintro x l (⟨rfl, h⟩ | ⟨a, rfl, h⟩)
    · rw [no_article_iff hz hc] at h
      exact ⟨[], Or.inl ⟨rfl, h⟩, .nil⟩
    · obtain ⟨A, hA, hr⟩ := article_to hz hc h
      exact ⟨[A], Or.inr ⟨A, rfl, hA⟩, .cons hr .nil⟩
  rcases h with ⟨a, rfl, h⟩ | ⟨hno, h⟩
  · obtain ⟨A, hA, hr⟩ := article_to hz hc h
    exact ⟨[A], ⟨norm, dies, type, ind, comm, hf, Or.inl ⟨A, rfl, hA⟩⟩, .cons hr .nil⟩
  · rw [no_article_iff hz hc] at hno
    rcases h with ⟨rfl, ho⟩ | ⟨x, y, l1, l2, hm, rfl, h1, h2⟩
    · exact ⟨[], ⟨norm, dies, type, ind, comm, hf, Or.inr ⟨hno, Or.inl ⟨rfl, ho⟩⟩⟩, .nil⟩
    · obtain ⟨L1, k1, r1⟩ := half x l1 h1
      obtain ⟨L2, k2, r2⟩ := half y l2 h2
      exact ⟨L1 ++ L2, ⟨norm, dies, type, ind, comm, hf, Or.inr ⟨hno, Or.inr ⟨x, y, L1, L2, hm, rfl, k1, k2⟩⟩⟩, forall₂_append r1 r2⟩

theorem text_of {Z : RusSrc} {T : RusTabs} (hz : TablesFit Z) (hc : Compiled Z T) {s : List Byte} {L : List SrcArticle}
    (h : SrcTextIs Z s L) : ∃ l, TextIs (pipeSource Z T) s l ∧ List.Forall₂ (Realizes Z T) L l := by
  obtain ⟨norm, dies, type, ind, comm, hf, h⟩ := h
  have half : ∀ x (l : List SrcArticle), ((l = [] ∧ ¬ ∃ a, SrcArticleIs Z norm dies type x comm a) ∨ ∃ a, l = [a] ∧ SrcArticleIs Z norm dies type x comm a) →
      ∃ m, ((m = [] ∧ ¬ ∃ a, ArticleIs (pipeSource Z T) norm dies type x comm a) ∨ ∃ a, m = [a] ∧ ArticleIs (pipeSource Z T) norm dies type x comm a) ∧ List.Forall₂ (Realizes Z T) l m := by
    rintro x l (⟨rfl, h⟩ | ⟨a, rfl, h⟩)
    · rw [← no_article_iff hz hc] at h
      exact ⟨[], Or.inl ⟨rfl, h⟩, .nil⟩
    · obtain ⟨A, hA, hr⟩ := article_of hz hc h
      exact ⟨[A], Or.inr ⟨A, rfl, hA⟩, .cons hr .nil⟩
  rcases h with ⟨a, rfl, h⟩ | ⟨hno, h⟩
  · obtain ⟨A, hA, hr⟩ := article_of hz hc h
    exact ⟨[A], ⟨norm, dies, type, ind, comm, hf, Or.inl ⟨A, rfl, hA⟩⟩, .cons hr .nil⟩
  · rw [← no_article_iff hz hc] at hno
    rcases h with ⟨rfl, ho⟩ | ⟨x, y, l1, l2, hm, rfl, h1, h2⟩
    · exact ⟨[], ⟨norm, dies, type, ind, comm, hf, Or.inr ⟨hno, Or.inl ⟨rfl, ho⟩⟩⟩, .nil⟩
    · obtain ⟨L1, k1, r1⟩ := half x l1 h1
      obtain ⟨L2, k2, r2⟩ := half y l2 h2
      exact ⟨L1 ++ L2, ⟨norm, dies, type, ind, comm, hf, Or.inr ⟨hno, Or.inr ⟨x, y, L1, L2, hm, rfl, k1, k2⟩⟩⟩, forall₂_append r1 r2⟩

theorem Realizes.withId {Z : RusSrc} {T : RusTabs} {A : SrcArticle} {a : RusArticle} (h : Realizes Z T A a) (n : Nat) :
    Realizes Z T { A with id := n } { a with id := n } := ⟨h.stem, h.info, h.post, rfl, h.table, h.alt, h.small⟩

theorem forall₂_withId {Z : RusSrc} {T : RusTabs} {L : List SrcArticle} {l : List RusArticle} (h : List.Forall₂ (Realizes Z T) L l) (n : Nat) :
    List.Forall₂ (Realizes Z T) (L.map fun a => { a with id := n }) (l.map fun a => { a with id := n }) := by
  induction h with
  | nil => exact .nil
  | cons h _ ih => exact .cons (h.withId n) ih

theorem forall₂_nil_iff {α β : Type} {R : α → β → Prop} {L : List α} {l : List β} (h : List.Forall₂ R L l) : L = [] ↔ l = [] := by
  cases h <;> simp

/-- What a line says, in the source and with references. -/
theorem says_to {Z : RusSrc} {T : RusTabs} (hz : TablesFit Z) (hc : Compiled Z T) {number : List Byte → Nat} {line : List Byte} {arts : List RusArticle}
    {unk : List (List Byte)} (h : RusLineSays (pipeSource Z T) number line arts unk) :
    ∃ L, SrcLineSays Z number line L unk ∧ List.Forall₂ (Realizes Z T) L arts := by
  obtain ⟨s, hs, h⟩ := h
  rcases h with ⟨h1, rfl, h3⟩ | ⟨h1, h2, rfl, h4⟩ | ⟨h1, t, l, h2, h3, h4, h5⟩
  · exact ⟨[], ⟨s, hs, Or.inl ⟨h1, rfl, h3⟩⟩, .nil⟩
  · exact ⟨[], ⟨s, hs, Or.inr (Or.inl ⟨h1, h2, rfl, h4⟩)⟩, .nil⟩
  · obtain ⟨L, k1, k2⟩ := text_to hz hc h4
    rcases h5 with ⟨e1, rfl, e3⟩ | ⟨e1, rfl, e3⟩
    · exact ⟨[], ⟨s, hs, Or.inr (Or.inr ⟨h1, t, L, h2, h3, k1, Or.inl ⟨(forall₂_nil_iff k2).2 e1, rfl, e3⟩⟩)⟩, .nil⟩
    · exact ⟨L.map fun a => { a with id := number t }, ⟨s, hs, Or.inr (Or.inr ⟨h1, t, L, h2, h3, k1, Or.inr ⟨fun e => e1 ((forall₂_nil_iff k2).1 e), rfl, e3⟩⟩)⟩,
        forall₂_withId k2 _⟩

theorem says_of {Z : RusSrc} {T : RusTabs} (hz : TablesFit Z) (hc : Compiled Z T) {number : List Byte → Nat} {line : List Byte} {L : List SrcArticle}
    {unk : List (List Byte)} (h : SrcLineSays Z number line L unk) :
    ∃ arts, RusLineSays (pipeSource Z T) number line arts unk ∧ List.Forall₂ (Realizes Z T) L arts := by
  obtain ⟨s, hs, h⟩ := h
  rcases h with ⟨h1, rfl, h3⟩ | ⟨h1, h2, rfl, h4⟩ | ⟨h1, t, l, h2, h3, h4, h5⟩
  · exact ⟨[], ⟨s, hs, Or.inl ⟨h1, rfl, h3⟩⟩, .nil⟩
  · exact ⟨[], ⟨s, hs, Or.inr (Or.inl ⟨h1, h2, rfl, h4⟩)⟩, .nil⟩
  · obtain ⟨L, k1, k2⟩ := text_of hz hc h4
    rcases h5 with ⟨e1, rfl, e3⟩ | ⟨e1, rfl, e3⟩
    · exact ⟨[], ⟨s, hs, Or.inr (Or.inr ⟨h1, t, L, h2, h3, k1, Or.inl ⟨(forall₂_nil_iff k2).1 e1, rfl, e3⟩⟩)⟩, .nil⟩
    · exact ⟨L.map fun a => { a with id := number t }, ⟨s, hs, Or.inr (Or.inr ⟨h1, t, L, h2, h3, k1, Or.inr ⟨fun e => e1 ((forall₂_nil_iff k2).2 e), rfl, e3⟩⟩)⟩,
        forall₂_withId k2 _⟩

end Libmorph
