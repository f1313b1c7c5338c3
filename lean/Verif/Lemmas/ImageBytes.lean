import Verif.Model.Dump
import Verif.Model.RusBuild
import Verif.Model.EngBuild
/-
The images are bytes: every value written is below 256.
-/
namespace Libmorph

/-- All values are bytes. -/
def AllBytes (l : List Nat) : Prop := ∀ b ∈ l, b < 256

theorem AllBytes.nil : AllBytes [] := by intro b hb; simp at hb

theorem AllBytes.cons {b : Nat} {l : List Nat} (h : b < 256) (hl : AllBytes l) : AllBytes (b :: l) := by
  intro x hx
  rcases List.mem_cons.1 hx with rfl | hx
  · exact h
  · exact hl x hx

theorem AllBytes.app {a b : List Nat} (ha : AllBytes a) (hb : AllBytes b) : AllBytes (a ++ b) := by
  intro x hx
  rcases List.mem_append.1 hx with h | h
  · exact ha x h
  · exact hb x h

theorem AllBytes.flat {ls : List (List Nat)} (h : ∀ l ∈ ls, AllBytes l) : AllBytes ls.flatten := by
  intro x hx
  obtain ⟨l, hl, hx⟩ := List.mem_flatten.1 hx
  exact h l hl x hx

theorem AllBytes.drop {l : List Nat} (h : AllBytes l) (n : Nat) : AllBytes (l.drop n) := fun x hx => h x (List.mem_of_mem_drop hx)
theorem AllBytes.take {l : List Nat} (h : AllBytes l) (n : Nat) : AllBytes (l.take n) := fun x hx => h x (List.mem_of_mem_take hx)

theorem putserial_bytes (n : Nat) : AllBytes (putserial n) := by
  induction n using Nat.strongRecOn with
  | _ n ih =>
    rw [putserial]
    split
    · exact .cons (by omega) .nil
    · exact .cons (by omega) (ih _ (by omega))

theorem putword16_bytes (w : Nat) : AllBytes (putword16 w) :=
  .cons (Nat.mod_lt _ (by omega)) (.cons (Nat.mod_lt _ (by omega)) .nil)

theorem putcount_bytes (c : Counter) (n : Nat) (h : Bool) : AllBytes (putcount c n h) := by
  cases c
  · exact .cons (Nat.mod_lt _ (by omega)) .nil
  · exact .cons (Nat.mod_lt _ (by omega)) (.cons (Nat.mod_lt _ (by omega)) .nil)

/-! ### Trees -/

theorem optSer_bytes {α : Type} {sv : α → List Byte} {o : Option α} (h : ∀ x, o = some x → AllBytes (sv x)) : AllBytes (optSer sv o) := by
  cases o with
  | none => exact .nil
  | some x => exact h x rfl

/-- A property of all values of a forest. -/
def Forest.Every {α : Type} (P : α → Prop) : Forest α → Prop
  | .nil => True
  | .cons _ v sub rest => (∀ x, v = some x → P x) ∧ sub.Every P ∧ rest.Every P

def Tree.Every {α : Type} (P : α → Prop) (t : Tree α) : Prop := (∀ x, t.val = some x → P x) ∧ t.kids.Every P

theorem kidsSer_bytes {α : Type} {c : Counter} {sv : α → List Byte} {vl : α → Nat} : ∀ {f : Forest α}, f.Every (fun x => AllBytes (sv x)) → AllBytes (f.kidsSer c sv vl)
  | .nil, _ => .nil
  | .cons _ _ _ _, h => by
    rw [Forest.kidsSer]
    exact .app (.app (.app (.cons (Nat.mod_lt _ (by omega)) .nil) (putserial_bytes _))
      (.app (.app (putcount_bytes _ _ _) (kidsSer_bytes h.2.1)) (optSer_bytes h.1))) (kidsSer_bytes h.2.2)

theorem treeSer_bytes {α : Type} {c : Counter} {sv : α → List Byte} {vl : α → Nat} {t : Tree α} (h : t.Every (fun x => AllBytes (sv x))) : AllBytes (t.ser c sv vl) :=
  .app (.app (putcount_bytes _ _ _) (kidsSer_bytes h.2)) (optSer_bytes h.1)

theorem Tree.all_empty {α : Type} (P : α → Prop) : (Tree.empty : Tree α).Every P := ⟨fun x hx => by simp [Tree.empty] at hx, trivial⟩

theorem modify_all {α : Type} {P : α → Prop} {c : Byte} {g : Tree α → Tree α} (hg : ∀ t : Tree α, t.Every P → (g t).Every P) :
    ∀ {f : Forest α}, f.Every P → (f.modify c g).Every P
  | .nil, _ => by
    rw [Forest.modify]
    have := hg Tree.empty (Tree.all_empty P)
    exact ⟨this.1, this.2, trivial⟩
  | .cons c' v sub rest, h => by
    rw [Forest.modify]
    split
    · exact ⟨h.1, h.2.1, modify_all hg h.2.2⟩
    · split
      · have := hg ⟨v, sub⟩ ⟨h.1, h.2.1⟩
        exact ⟨this.1, this.2, h.2.2⟩
      · have := hg Tree.empty (Tree.all_empty P)
        exact ⟨this.1, this.2, h⟩

theorem insert_all {α : Type} {P : α → Prop} {upd : Option α → α} (hn : P (upd none)) (hs : ∀ x, P x → P (upd (some x))) :
    ∀ (k : List Byte) {t : Tree α}, t.Every P → (t.insert upd k).Every P
  | [], t, h => by
    rw [Tree.insert]
    refine ⟨fun x hx => ?_, h.2⟩
    simp only [Option.some.injEq] at hx
    rw [← hx]
    cases hv : t.val with
    | none => exact hn
    | some y => exact hs y (h.1 y hv)
  | c :: cs, t, h => by
    rw [Tree.insert]
    exact ⟨h.1, modify_all (fun t ht => insert_all hn hs cs ht) h.2⟩

/-! ### Stems and numbers -/

/-- An entry of bytes. -/
def Entry.Bytes (e : Entry) : Prop := e.chrmin < 256 ∧ e.chrmax < 256 ∧ AllBytes e.stpost

theorem entrySer_bytes {e : Entry} (h : e.Bytes) : AllBytes e.ser := by
  rw [Entry.ser]
  refine .app (.app (.app (.cons h.1 (.cons h.2.1 .nil)) (putserial_bytes _)) (putword16_bytes _)) ?_
  generalize (e.oclass ||| if e.stpost.isEmpty = true then 0 else 0x8000) &&& 0x8000 = x
  split
  · exact .app (putserial_bytes _) h.2.2
  · exact .nil

theorem entriesSer_bytes {l : List Entry} (h : ∀ e ∈ l, e.Bytes) : AllBytes (entriesSer l) := by
  refine .app (putserial_bytes _) (.flat fun x hx => ?_)
  obtain ⟨e, he, rfl⟩ := List.mem_map.1 hx
  exact entrySer_bytes (h e he)

theorem insEntry_old {e x : Entry} : ∀ {l : List Entry}, x ∈ insEntry e l → x = e ∨ x ∈ l
  | [], h => by
    simp only [insEntry, List.mem_singleton] at h
    exact Or.inl h
  | y :: l, h => by
    rw [insEntry] at h
    split at h
    · rcases List.mem_cons.1 h with h | h
      · exact Or.inr (by simp [h])
      · rcases insEntry_old h with h | h
        · exact Or.inl h
        · exact Or.inr (by simp [h])
    · rcases List.mem_cons.1 h with h | h
      · exact Or.inl h
      · exact Or.inr h

theorem fileAll_all {l : List (List Byte × Entry)} (h : ∀ p ∈ l, p.2.Bytes) : (fileAll l).Every (fun es => ∀ e ∈ es, e.Bytes) := by
  have : ∀ (l : List (List Byte × Entry)) (t : Tree (List Entry)), (∀ p ∈ l, p.2.Bytes) → t.Every (fun es => ∀ e ∈ es, e.Bytes) →
      (l.foldl (fun t p => fileEntry p.1 p.2 t) t).Every (fun es => ∀ e ∈ es, e.Bytes) := by
    intro l
    induction l with
    | nil => intro t _ ht; exact ht
    | cons p l ih =>
      intro t hl ht
      have hp := hl p (by simp)
      refine ih _ (fun q hq => hl q (by simp [hq])) (insert_all ?_ ?_ p.1 ht)
      · intro x hx
        rcases insEntry_old hx with rfl | hx
        · exact hp
        · simp at hx
      · intro es hes x hx
        rcases insEntry_old hx with rfl | hx
        · exact hp
        · exact hes x hx
  exact this l _ h (Tree.all_empty _)

theorem forestAll_mono {α : Type} {P Q : α → Prop} (h : ∀ x, P x → Q x) : ∀ {f : Forest α}, f.Every P → f.Every Q
  | .nil, _ => trivial
  | .cons _ _ _ _, k => ⟨fun x hx => h x (k.1 x hx), forestAll_mono h k.2.1, forestAll_mono h k.2.2⟩

theorem stemImage_bytes {l : List (List Byte × Entry)} (h : ∀ p ∈ l, p.2.Bytes) : AllBytes (stemImage (fileAll l)) := by
  have := fileAll_all h
  exact treeSer_bytes ⟨fun x hx => entriesSer_bytes (this.1 x hx), forestAll_mono (fun x hx => entriesSer_bytes hx) this.2⟩

theorem forestAll_true {α : Type} {P : α → Prop} (h : ∀ x, P x) : ∀ {f : Forest α}, f.Every P
  | .nil => trivial
  | .cons _ _ _ _ => ⟨fun x _ => h x, forestAll_true h, forestAll_true h⟩

theorem lidImage_bytes (t : Tree Nat) : AllBytes (lidImage t) :=
  treeSer_bytes ⟨fun x _ => putserial_bytes x, forestAll_true putserial_bytes⟩

/-! ### Images are not empty -/

theorem treeSer_ne {α : Type} {c : Counter} {sv : α → List Byte} {vl : α → Nat} {t : Tree α} : t.ser c sv vl ≠ [] := by
  rw [Tree.ser]
  cases c <;> simp [putcount]

/-! ### Endings of the Russian tables -/

theorem getbyte_isbyte {p q : List Byte} {b : Byte} (h : AllBytes p) (e : getbyte p = some (b, q)) : b < 256 ∧ AllBytes q := by
  cases p with
  | nil => simp [getbyte] at e
  | cons x p =>
    simp only [getbyte, Option.some.injEq, Prod.mk.injEq] at e
    rw [← e.1, ← e.2]
    exact ⟨h x (by simp), fun y hy => h y (by simp [hy])⟩

theorem getword16_bytes {p q : List Byte} {w : Nat} (h : AllBytes p) (e : getword16 p = some (w, q)) : AllBytes q := by
  rw [getword16.eq_def] at e
  split at e
  · simp only [Option.some.injEq, Prod.mk.injEq] at e
    rw [← e.2]
    exact fun y hy => h y (by simp [hy])
  · simp at e

theorem readCItem_bytes {p q : List Byte} {i : CItem} (h : AllBytes p) (e : readCItem p = some (i, q)) : AllBytes i.flex ∧ AllBytes q := by
  simp only [readCItem, Option.bind_eq_bind, Option.bind_eq_some_iff, Prod.exists] at e
  obtain ⟨fl, p1, e1, gr, p2, e2, n, p3, e3, e⟩ := e
  have b1 := (getbyte_isbyte h e1).2
  have b2 := getword16_bytes b1 e2
  have b3 := (getbyte_isbyte b2 e3).2
  split at e
  · simp at e
  · split at e
    · simp only [Option.bind_eq_some_iff, Prod.exists] at e
      obtain ⟨nx, q', e4, e⟩ := e
      have e := Option.some.inj e
      rw [Prod.mk.injEq] at e
      rw [← e.1, ← e.2]
      exact ⟨b3.take n, getword16_bytes (b3.drop n) e4⟩
    · have e := Option.some.inj e
      rw [Prod.mk.injEq] at e
      rw [← e.1, ← e.2]
      exact ⟨b3.take n, b3.drop n⟩

theorem readCItems_bytes : ∀ {n : Nat} {p : List Byte} {l : List CItem}, AllBytes p → readCItems n p = some l → ∀ i ∈ l, AllBytes i.flex
  | 0, p, l, _, e => by simp [readCItems] at e; subst e; simp
  | n + 1, p, l, h, e => by
    simp only [readCItems, Option.bind_eq_bind, Option.bind_eq_some_iff, Prod.exists] at e
    obtain ⟨i, q, e1, l', e2, e⟩ := e
    obtain ⟨b1, b2⟩ := readCItem_bytes h e1
    have e := Option.some.inj e
    rw [← e]
    intro x hx
    rcases List.mem_cons.1 hx with rfl | hx
    · exact b1
    · exact readCItems_bytes b2 e2 x hx

theorem gramsSer_bytes (l : List FlexInfo) : AllBytes (gramsSer l) := by
  refine .app (putserial_bytes _) (.flat fun x hx => ?_)
  obtain ⟨g, _, rfl⟩ := List.mem_map.1 hx
  exact .app (putword16_bytes _) (.cons (Nat.mod_lt _ (by omega)) .nil)

theorem plainTable_bytes {ftab : List Byte} {o : Nat} {t : List Byte} (h : plainTable ftab o = some t) : AllBytes t := by
  rw [plainTable, Option.map_eq_some_iff] at h
  obtain ⟨u, _, rfl⟩ := h
  exact treeSer_bytes ⟨fun x _ => gramsSer_bytes x, forestAll_true gramsSer_bytes⟩

theorem pad16_bytes {l : List Byte} (h : AllBytes l) : AllBytes (pad16 l) := by
  refine .app h fun x hx => ?_
  rw [List.mem_replicate] at hx
  omega

/-! ### First letters -/

/-- Bounds of bytes. -/
def Bounds.Bytes (b : Bounds) : Prop := (∀ x, b.lo = some x → x < 256) ∧ ∀ x, b.hi = some x → x < 256

theorem Bounds.bytes_add {b : Bounds} {lo hi : Nat} (h : b.Bytes) (h1 : lo < 256) (h2 : hi < 256) : (b.add lo hi).Bytes := by
  constructor
  · intro x hx
    simp only [Bounds.add, Option.some.injEq] at hx
    cases hl : b.lo with
    | none => rw [hl] at hx; simp only at hx; omega
    | some y => rw [hl] at hx; simp only at hx; have := h.1 y hl; omega
  · intro x hx
    simp only [Bounds.add, Option.some.injEq] at hx
    cases hl : b.hi with
    | none => rw [hl] at hx; simp only at hx; omega
    | some y => rw [hl] at hx; simp only at hx; have := h.2 y hl; omega

theorem Bounds.bytes_hi {b : Bounds} (h : b.Bytes) (d : Nat) (hd : d < 256) : b.hi.getD d < 256 := by
  cases hl : b.hi with
  | none => simpa using hd
  | some y => simpa using h.2 y hl

theorem foldlM_keeps {α β : Type} {P : β → Prop} {f : β → α → Option β} : ∀ (l : List α) {b r : β}, P b → (∀ b a r, a ∈ l → P b → f b a = some r → P r) →
    l.foldlM f b = some r → P r
  | [], b, r, hb, _, e => by
    simp only [List.foldlM_nil] at e
    have := Option.some.inj e
    rw [← this]; exact hb
  | a :: l, b, r, hb, hf, e => by
    rw [List.foldlM_cons, Option.bind_eq_bind, Option.bind_eq_some_iff] at e
    obtain ⟨b', e1, e2⟩ := e
    exact foldlM_keeps l (hf b a b' (by simp) hb e1) (fun b x r hx => hf b x r (by simp [hx])) e2

theorem minMaxChar_bytes {ftab : List Byte} (h : AllBytes ftab) : ∀ {d o lo hi : Nat}, minMaxChar ftab d o = some (lo, hi) → lo < 256 ∧ hi < 256
  | 0, _, _, _, e => by simp [minMaxChar] at e
  | d + 1, o, lo, hi, e => by
    simp only [minMaxChar, Option.bind_eq_bind, Option.bind_eq_some_iff] at e
    obtain ⟨items, e1, b, e2, e⟩ := e
    simp only [compactTable7, Option.bind_eq_bind, Option.bind_eq_some_iff, Prod.exists] at e1
    obtain ⟨n, p, e3, e4⟩ := e1
    have hi' := readCItems_bytes (getbyte_isbyte (h.drop _) e3).2 e4
    have hb : b.Bytes := by
      refine foldlM_keeps (P := Bounds.Bytes) items ⟨fun x hx => by simp at hx, fun x hx => by simp at hx⟩ ?_ e2
      intro b i r hin hb hr
      split at hr
      · rename_i c tl hfx
        have hc : c < 256 := hi' i hin c (by rw [hfx]; simp)
        have := Option.some.inj hr
        rw [← this]
        exact b.bytes_add hb hc hc
      · split at hr
        · have := Option.some.inj hr
          rw [← this]
          refine ⟨fun x hx => ?_, fun x hx => ?_⟩
          · simp only [Option.some.injEq] at hx; omega
          · simp only [Option.some.injEq] at hx
            have := Bounds.bytes_hi hb 0 (by omega); omega
        · simp only [Option.bind_eq_some_iff, Prod.exists] at hr
          obtain ⟨cl, cu, e5, hr⟩ := hr
          obtain ⟨k1, k2⟩ := minMaxChar_bytes h e5
          have := Option.some.inj hr
          rw [← this]
          exact b.bytes_add hb k1 k2
    have e := Option.some.inj e
    simp only [Bounds.bytes, Prod.mk.injEq] at e
    rw [← e.1, ← e.2]
    refine ⟨?_, Bounds.bytes_hi hb 255 (by omega)⟩
    cases hl : b.lo with
    | none => simp
    | some y => simpa using hb.1 y hl

theorem mixBoundsLoop_bytes : ∀ {n : Nat} {p : List Byte} {lo lo' : Nat} {hi hi' : Option Nat}, AllBytes p → lo < 256 → (∀ x, hi = some x → x < 256) →
    mixBoundsLoop n p lo hi = some (lo', hi') → lo' < 256 ∧ ∀ x, hi' = some x → x < 256
  | 0, p, lo, lo', hi, hi', _, h1, h2, e => by
    simp only [mixBoundsLoop, Option.some.injEq, Prod.mk.injEq] at e
    rw [← e.1, ← e.2]; exact ⟨h1, h2⟩
  | n + 1, p, lo, lo', hi, hi', hp, h1, h2, e => by
    simp only [mixBoundsLoop, Option.bind_eq_bind, Option.bind_eq_some_iff, Prod.exists] at e
    obtain ⟨head, q, e1, e⟩ := e
    have hq := (getbyte_isbyte hp e1).2
    split at e
    · simp only [Option.bind_eq_some_iff, Prod.exists] at e
      obtain ⟨c, q', e2, e⟩ := e
      have hc := (getbyte_isbyte hq e2).1
      refine mixBoundsLoop_bytes (hq.drop _) (by omega) ?_ e
      intro x hx
      simp only [Option.some.injEq] at hx
      cases hi with
      | none => simp only at hx; omega
      | some y => simp only at hx; have := h2 y rfl; omega
    · exact mixBoundsLoop_bytes hq (by omega) (fun x hx => by simp only [Option.some.injEq] at hx; omega) e

theorem rusBounds_bytes {ftab mtab : List Byte} (hf : AllBytes ftab) (hm : AllBytes mtab) {a : RusArticle} {lo hi : Nat} (h : rusBounds ftab mtab a = some (lo, hi)) :
    lo < 256 ∧ hi < 256 := by
  rw [rusBounds] at h
  split at h
  · simp only [Option.some.injEq, Prod.mk.injEq] at h; omega
  · simp only [Option.bind_eq_bind, Option.bind_eq_some_iff, Prod.exists] at h
    obtain ⟨l, u, e1, h⟩ := h
    obtain ⟨k1, k2⟩ := minMaxChar_bytes hf e1
    split at h
    · have h := Option.some.inj h
      rw [Prod.mk.injEq] at h; omega
    · simp only [mixBounds, Option.bind_eq_bind, Option.bind_eq_some_iff, Prod.exists] at h
      obtain ⟨n, p, e2, l', u', e3, h⟩ := h
      obtain ⟨k3, k4⟩ := mixBoundsLoop_bytes (getbyte_isbyte (hm.drop _) e2).2 (by omega) (fun x hx => by simp at hx) e3
      have h := Option.some.inj h
      rw [Prod.mk.injEq] at h
      rw [← h.1, ← h.2]
      constructor
      · split
        · exact k3
        · exact k1
      · cases u' with
        | none => exact k2
        | some y =>
          have := k4 y rfl
          simp only
          split <;> omega

/-! ### The Russian images -/

theorem mapTables_bytes {ftab : List Byte} {st st' : RusState} {c c' : RusStem} (h : AllBytes st.plain) (e : st.mapTables ftab c = some (st', c')) :
    AllBytes st'.plain ∧ st'.entries = st.entries ∧ st.plain <+: st'.plain := by
  rw [RusState.mapTables] at e
  split at e
  · split at e
    · have e := Option.some.inj e
      rw [Prod.mk.injEq] at e
      rw [← e.1]; exact ⟨h, rfl, List.prefix_rfl⟩
    · simp only [Option.bind_eq_bind, Option.bind_eq_some_iff] at e
      obtain ⟨t, e1, e⟩ := e
      have e := Option.some.inj e
      rw [Prod.mk.injEq] at e
      rw [← e.1]
      refine ⟨pad16_bytes (h.app (plainTable_bytes e1)), rfl, ?_⟩
      exact (List.prefix_append st.plain t).trans (List.prefix_append _ _)
  · have e := Option.some.inj e
    rw [Prod.mk.injEq] at e
    rw [← e.1]; exact ⟨h, rfl, List.prefix_rfl⟩

theorem rusBuild_bytes {ftab mtab : List Byte} (hf : AllBytes ftab) (hm : AllBytes mtab) : ∀ (as : List RusArticle) {s st : RusState},
    (∀ a ∈ as, AllBytes a.post) → AllBytes s.plain → (∀ p ∈ s.entries, p.2.Bytes) → as.foldlM (RusState.resolve ftab mtab) s = some st →
    AllBytes st.plain ∧ (∀ p ∈ st.entries, p.2.Bytes) ∧ s.plain <+: st.plain
  | [], s, st, _, h1, h2, e => by
    simp only [List.foldlM_nil] at e
    rw [← Option.some.inj e]; exact ⟨h1, h2, List.prefix_rfl⟩
  | a :: as, s, st, ha, h1, h2, e => by
    rw [List.foldlM_cons, Option.bind_eq_bind, Option.bind_eq_some_iff] at e
    obtain ⟨s', e1, e2⟩ := e
    simp only [RusState.resolve, Option.bind_eq_bind, Option.bind_eq_some_iff, Prod.exists] at e1
    obtain ⟨lo, hi, b1, s1, c, m1, cl, o, _, e1⟩ := e1
    obtain ⟨k1, k2, k3⟩ := mapTables_bytes h1 m1
    obtain ⟨l1, l2⟩ := rusBounds_bytes hf hm b1
    have e1 := Option.some.inj e1
    have hs' : AllBytes s'.plain ∧ (∀ p ∈ s'.entries, p.2.Bytes) ∧ s'.plain = s1.plain := by
      rw [← e1]
      refine ⟨k1, ?_, rfl⟩
      intro p hp
      simp only [k2, List.mem_append, List.mem_singleton] at hp
      rcases hp with hp | hp
      · exact h2 p hp
      · rw [hp]; exact ⟨l1, l2, ha a (by simp)⟩
    obtain ⟨r1, r2, r3⟩ := rusBuild_bytes hf hm as (fun x hx => ha x (by simp [hx])) hs'.1 hs'.2.1 e2
    exact ⟨r1, r2, k3.trans (by rw [← hs'.2.2]; exact r3)⟩

theorem rusStemSer_bytes (c : RusStem) : AllBytes c.ser := by
  rw [RusStem.ser]
  refine .app (.app (putword16_bytes _) ?_) ?_
  · split
    · exact putword16_bytes _
    · exact .nil
  · split
    · exact putword16_bytes _
    · exact .nil

theorem rusImages_bytes {ftab mtab : List Byte} (hf : AllBytes ftab) (hm : AllBytes mtab) {as : List RusArticle} (ha : ∀ a ∈ as, AllBytes a.post) {st : RusState}
    (h : rusBuild ftab mtab as = some st) :
    AllBytes (st.images mtab).stemtree ∧ AllBytes (st.images mtab).flexTree ∧ AllBytes (st.images mtab).classmap ∧ AllBytes (st.images mtab).lidstree ∧
    (st.images mtab).flexTree ≠ [] := by
  obtain ⟨h1, h2, h3⟩ := rusBuild_bytes hf hm as ha (s := { plain := plainMagic }) (by unfold AllBytes; decide) (by simp) h
  refine ⟨stemImage_bytes h2, h1, .flat fun x hx => ?_, lidImage_bytes _, ?_⟩
  · obtain ⟨r, _, rfl⟩ := List.mem_map.1 hx
    exact rusStemSer_bytes _
  · intro k
    have := h3.length_le
    have k : st.plain = [] := k
    rw [k] at this
    simp [plainMagic] at this

/-! ### The English images -/

theorem engLower_lt (b : Byte) : engTab.lower b < 256 := by
  have key : ∀ x ∈ engToLoCaseMatrix, x < 256 := by decide +kernel
  show engToLoCaseMatrix.getD b 0 < 256
  rw [List.getD_eq_getElem?_getD]
  cases h : engToLoCaseMatrix[b]? with
  | none => simp
  | some x => simpa using key x (List.mem_of_getElem? h)

/-- A table of bytes. -/
def FTable.Bytes (t : FTable) : Prop := t.clower < 256 ∧ t.cupper < 256 ∧ ∀ x ∈ t.items, x.idform < 256 ∧ AllBytes x.szflex

theorem insFlex_old {e x : Flex} : ∀ {l : List Flex}, x ∈ insFlex e l → x = e ∨ x ∈ l
  | [], h => by
    simp only [insFlex, List.mem_singleton] at h
    exact Or.inl h
  | y :: l, h => by
    rw [insFlex] at h
    split at h
    · rcases List.mem_cons.1 h with h | h
      · exact Or.inr (by simp [h])
      · rcases insFlex_old h with h | h
        · exact Or.inl h
        · exact Or.inr (by simp [h])
    · rcases List.mem_cons.1 h with h | h
      · exact Or.inl h
      · exact Or.inr h

theorem reg_bytes {t : FTable} {flex : List Byte} {i : Nat} (h : t.Bytes) (hf : AllBytes flex) : (t.reg flex i).Bytes := by
  have hd : flex.headD 0 < 256 := by
    cases flex with
    | nil => simp
    | cons c s => exact hf c (by simp)
  refine ⟨?_, ?_, fun x hx => ?_⟩
  · show min t.clower _ < 256
    have := h.1; omega
  · show max t.cupper _ < 256
    have := h.2.1; omega
  · rcases insFlex_old hx with rfl | hx
    · exact ⟨Nat.mod_lt _ (by omega), hf⟩
    · exact h.2.2 x hx

theorem regAlts_bytes (n : Nat) : ∀ {i : Nat} {s : List Byte} {t : FTable}, s.length = n → AllBytes s → t.Bytes → (regAlts i s t).Bytes := by
  induction n using Nat.strongRecOn with
  | _ n ih =>
    intro i s t hn hs ht
    cases s with
    | nil => rw [regAlts]; exact ht
    | cons c s' =>
      rw [regAlts]
      refine ih _ ?_ rfl ?_ (reg_bytes ht ?_)
      · rw [← hn]; exact drop_dropWhile_lt
      · exact fun x hx => hs x ((List.dropWhile_sublist _).subset (List.mem_of_mem_drop hx))
      · split
        · exact .nil
        · exact fun x hx => hs x (List.takeWhile_sublist _ |>.subset hx)

theorem regFields_bytes (n : Nat) : ∀ {i : Nat} {s : List Byte} {t : FTable}, s.length = n → AllBytes s → t.Bytes → (regFields i s t).Bytes := by
  induction n using Nat.strongRecOn with
  | _ n ih =>
    intro i s t hn hs ht
    cases s with
    | nil => rw [regFields]; exact ht
    | cons c s' =>
      rw [regFields]
      refine ih _ ?_ rfl ?_ ?_
      · rw [← hn]; exact drop_dropWhile_lt
      · exact fun x hx => hs x ((List.dropWhile_sublist _).subset (List.mem_of_mem_drop hx))
      · split
        · exact ht
        · exact regAlts_bytes _ rfl (fun x hx => hs x (List.takeWhile_sublist _ |>.subset hx)) ht

theorem parseTable_isbytes {s : List Byte} (h : AllBytes s) : (parseTable s).Bytes := by
  rw [parseTable]
  refine regFields_bytes _ rfl ?_ ⟨by decide, by decide, by simp⟩
  split
  · exact h.drop 1
  · exact h

theorem boxAdd_bytes {b : FlexBox} {s : List Byte} (h : ∀ p ∈ b.tabs, p.2.Bytes) (hs : AllBytes s) :
    (∀ p ∈ (b.add s).1.tabs, p.2.Bytes) ∧ (b.add s).2.Bytes := by
  rw [FlexBox.add]
  split
  · rename_i p hp
    exact ⟨h, h p (List.mem_of_find?_eq_some hp)⟩
  · have : FTable.Bytes { parseTable s with offset := b.length } := parseTable_isbytes hs
    refine ⟨fun p hp => ?_, this⟩
    rcases List.mem_append.1 hp with hp | hp
    · exact h p hp
    · rw [List.mem_singleton.1 hp]; exact this

theorem engBuild_bytes : ∀ (as : List Article) (st : EngState), (∀ a ∈ as, AllBytes a.post) → (∀ p ∈ st.box.tabs, p.2.Bytes) → (∀ p ∈ st.entries, p.2.Bytes) →
    (∀ p ∈ (as.foldl EngState.resolve st).box.tabs, p.2.Bytes) ∧ ∀ p ∈ (as.foldl EngState.resolve st).entries, p.2.Bytes
  | [], st, _, h1, h2 => ⟨h1, h2⟩
  | a :: as, st, ha, h1, h2 => by
    rw [List.foldl_cons]
    have hl : AllBytes (a.flex.map engTab.lower) := fun x hx => by
      obtain ⟨b, _, rfl⟩ := List.mem_map.1 hx
      exact engLower_lt b
    have hb := boxAdd_bytes h1 hl
    have hr : (∀ p ∈ (if a.flex.map engTab.lower = [] then (st.box, ({ offset := 0, clower := 0, cupper := 0, items := [] } : FTable)) else
        st.box.add (a.flex.map engTab.lower)).1.tabs, p.2.Bytes) ∧ (if a.flex.map engTab.lower = [] then (st.box,
        ({ offset := 0, clower := 0, cupper := 0, items := [] } : FTable)) else st.box.add (a.flex.map engTab.lower)).2.Bytes := by
      split
      · exact ⟨h1, Nat.zero_lt_succ _, Nat.zero_lt_succ _, by simp⟩
      · exact hb
    refine engBuild_bytes as _ (fun x hx => ha x (by simp [hx])) hr.1 ?_
    intro p hp
    rcases List.mem_append.1 hp with hp | hp
    · exact h2 p hp
    · rw [List.mem_singleton.1 hp]
      exact ⟨hr.2.1, hr.2.2.1, ha a (by simp)⟩

theorem ftableSer_bytes {t : FTable} (h : t.Bytes) : AllBytes t.ser := by
  refine .cons (Nat.mod_lt _ (by omega)) (.flat fun x hx => ?_)
  obtain ⟨f, hf, rfl⟩ := List.mem_map.1 hx
  obtain ⟨h1, h2⟩ := h.2.2 f hf
  exact .cons h1 (.cons (Nat.mod_lt _ (by omega)) h2)

theorem engImages_bytes {as : List Article} (ha : ∀ a ∈ as, AllBytes a.post) :
    AllBytes (engBuild as).images.stemtree ∧ AllBytes (engBuild as).images.flexTree ∧ AllBytes (engBuild as).images.classmap ∧ AllBytes (engBuild as).images.lidstree := by
  obtain ⟨h1, h2⟩ := engBuild_bytes as {} ha (by simp) (by simp)
  refine ⟨stemImage_bytes h2, .app (by unfold AllBytes; decide) (.flat fun x hx => ?_), .flat fun x hx => ?_, lidImage_bytes _⟩
  · obtain ⟨p, hp, rfl⟩ := List.mem_map.1 hx
    exact ftableSer_bytes (h1 p hp)
  · obtain ⟨p, _, rfl⟩ := List.mem_map.1 hx
    exact .app (putword16_bytes _) (putword16_bytes _)

/-! ### Class records: at least one -/

theorem addClass_grows {α : Type} [DecidableEq α] {bufLen : α → Nat} {t t' : ClassTable α} {c : α} {o : Nat} (h : t.addClass bufLen c = some (t', o)) :
    t'.clsset ≠ [] := by
  rw [ClassTable.addClass] at h
  split at h
  · rename_i r hr
    simp only [Option.some.injEq, Prod.mk.injEq] at h
    rw [← h.1]
    intro k
    have := List.mem_of_find?_eq_some hr
    rw [k] at this; simp at this
  · split at h
    · simp at h
    · simp only [Option.some.injEq, Prod.mk.injEq] at h
      rw [← h.1]; simp

theorem rusResolve_classes {ftab mtab : List Byte} {s s' : RusState} {a : RusArticle} (e1 : s.resolve ftab mtab a = some s') : s'.classes.clsset ≠ [] := by
  simp only [RusState.resolve, Option.bind_eq_bind, Option.bind_eq_some_iff, Prod.exists] at e1
  obtain ⟨lo, hi, b1, s1, c, m1, cl, o, hc, e1⟩ := e1
  have e1 := Option.some.inj e1
  rw [← e1]
  exact addClass_grows hc

theorem rusBuild_classes {ftab mtab : List Byte} : ∀ (as : List RusArticle) {s st : RusState}, (as ≠ [] ∨ s.classes.clsset ≠ []) →
    as.foldlM (RusState.resolve ftab mtab) s = some st → st.classes.clsset ≠ []
  | [], s, st, h, e => by
    simp only [List.foldlM_nil] at e
    rw [← Option.some.inj e]
    simpa using h
  | a :: as, s, st, _, e => by
    rw [List.foldlM_cons, Option.bind_eq_bind, Option.bind_eq_some_iff] at e
    obtain ⟨s', e1, e2⟩ := e
    exact rusBuild_classes as (Or.inr (rusResolve_classes e1)) e2

theorem rusClassmap_ne {ftab mtab : List Byte} {as : List RusArticle} {st : RusState} (h : rusBuild ftab mtab as = some st) (hne : as ≠ []) :
    (st.images mtab).classmap ≠ [] := by
  have := rusBuild_classes as (Or.inl hne) h
  show (st.classes.clsset.map fun r => r.1.ser).flatten ≠ []
  cases hc : st.classes.clsset with
  | nil => exact absurd hc this
  | cons r l => simp [RusStem.ser, putword16]

theorem engClasses_ne : ∀ (as : List Article) (st : EngState), (as ≠ [] ∨ st.classes.tab ≠ []) → (as.foldl EngState.resolve st).classes.tab ≠ []
  | [], st, h => by simpa using h
  | a :: as, st, _ => by
    rw [List.foldl_cons]
    refine engClasses_ne as _ (Or.inr ?_)
    rw [EngState.resolve]
    simp only
    rw [ClassTab.add]
    split
    · rename_i r hr
      intro k
      have := List.mem_of_find?_eq_some hr
      simp only at k
      rw [k] at this; simp at this
    · simp

theorem engClassmap_ne {as : List Article} (hne : as ≠ []) : (engBuild as).images.classmap ≠ [] := by
  have := engClasses_ne as {} (Or.inl hne)
  show ((engBuild as).classes.tab.map fun p => p.1.ser).flatten ≠ []
  cases hc : (engBuild as).classes.tab with
  | nil => exact absurd hc this
  | cons r l => simp [ClassInfo.ser, putword16]

end Libmorph
