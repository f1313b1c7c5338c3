import Verif.Lemmas.RusTables
import Verif.Lemmas.Mix
import Verif.Spec.RusBounds
/-
First-letter bounds.
-/
namespace Libmorph
open Libmorph.Spec

theorem Reach.trans {ftab : List Byte} {t u v : Nat} (h1 : Reach ftab t u) (h2 : Reach ftab u v) : Reach ftab t v := by
  induction h2 with
  | here => exact h1
  | next _ hi hn ih => exact ih.next hi hn

theorem SaneTable.sub {ftab : List Byte} {t u : Nat} (h : SaneTable ftab t) (hr : Reach ftab t u) : SaneTable ftab u :=
  fun v hv => h v (hr.trans hv)

/-- The bounds so far cover a letter. -/
def Bounds.Covers (b : Bounds) (c : Nat) : Prop := (∃ x, b.lo = some x ∧ x ≤ c) ∧ ∃ x, b.hi = some x ∧ c ≤ x

theorem Bounds.covers_add {b : Bounds} {c lo hi : Nat} (h : b.Covers c) : (b.add lo hi).Covers c := by
  obtain ⟨⟨x, hx, h1⟩, y, hy, h2⟩ := h
  simp only [Bounds.add, hx, hy]
  exact ⟨⟨_, rfl, by omega⟩, _, rfl, by omega⟩

theorem Bounds.covers_new {b : Bounds} {c lo hi : Nat} (h1 : lo ≤ c) (h2 : c ≤ hi) : (b.add lo hi).Covers c := by
  simp only [Bounds.add]
  refine ⟨⟨_, rfl, ?_⟩, _, rfl, ?_⟩
  · cases b.lo <;> simp only <;> omega
  · cases b.hi <;> simp only <;> omega

theorem Bounds.covers_zero {b : Bounds} {c : Nat} (h : b.Covers c) : Bounds.Covers ⟨some 0, some (b.hi.getD 0)⟩ c := by
  obtain ⟨⟨x, hx, h1⟩, y, hy, h2⟩ := h
  exact ⟨⟨0, rfl, by omega⟩, y, by simp [hy], h2⟩

/-- One element of the loop. -/
def boundsItem (ftab : List Byte) (d : Nat) (b : Bounds) (i : CItem) : Option Bounds :=
  match i.flex with
  | c :: _ => some (b.add c c)
  | [] =>
    if i.flags &&& 0x80 = 0 then some ⟨some 0, some (b.hi.getD 0)⟩
    else do
      let (cl, cu) ← minMaxChar ftab d i.next
      return b.add cl cu

theorem boundsItem_mono {ftab : List Byte} {d : Nat} {b b' : Bounds} {i : CItem} (h : boundsItem ftab d b i = some b')
    {c : Nat} (hc : b.Covers c) : b'.Covers c := by
  simp only [boundsItem] at h
  split at h
  · simp only [Option.some.injEq] at h; subst h; exact Bounds.covers_add hc
  · split at h
    · simp only [Option.some.injEq] at h; subst h; exact Bounds.covers_zero hc
    · simp only [bind, Option.bind_eq_some_iff, pure, Option.some.injEq] at h
      obtain ⟨⟨cl, cu⟩, -, rfl⟩ := h
      exact Bounds.covers_add hc

theorem boundsLoop_mono {ftab : List Byte} {d : Nat} (l : List CItem) {b b' : Bounds}
    (h : l.foldlM (boundsItem ftab d) b = some b') {c : Nat} (hc : b.Covers c) : b'.Covers c := by
  induction l generalizing b with
  | nil => simp only [List.foldlM_nil, pure, Option.some.injEq] at h; subst h; exact hc
  | cons i l ih =>
    simp only [List.foldlM_cons, bind, Option.bind_eq_some_iff] at h
    obtain ⟨b1, h1, h2⟩ := h
    exact ih h2 (boundsItem_mono h1 hc)

theorem boundsLoop_mem {ftab : List Byte} {d : Nat} (l : List CItem) {b b' : Bounds}
    (h : l.foldlM (boundsItem ftab d) b = some b') {c : Nat} {i : CItem} (hi : i ∈ l)
    (hc : ∀ b b', boundsItem ftab d b i = some b' → b'.Covers c) : b'.Covers c := by
  induction l generalizing b with
  | nil => simp at hi
  | cons j l ih =>
    simp only [List.foldlM_cons, bind, Option.bind_eq_some_iff] at h
    obtain ⟨b1, h1, h2⟩ := h
    rcases List.mem_cons.1 hi with rfl | hi
    · exact boundsLoop_mono l h2 (hc _ _ h1)
    · exact ih h2 hi

theorem compactTable7_eq {ftab : List Byte} {t : Nat}
    (h : ∀ n p, getbyte (ftab.drop (t <<< 1)) = some (n, p) → n < 128) : compactTable7 ftab t = compactTable ftab t := by
  simp only [compactTable7, compactTable]
  cases hg : getbyte (ftab.drop (t <<< 1)) with
  | none => rfl
  | some q =>
    obtain ⟨n, p⟩ := q
    have := h n p hg
    simp only [bind, Option.bind_some]
    rw [show (0x7f : Nat) = 2 ^ 7 - 1 by rfl, Nat.and_two_pow_sub_one_eq_mod, Nat.mod_eq_of_lt this]

theorem minMaxChar_covers {ftab : List Byte} (d : Nat) : ∀ {t lo hi : Nat}, SaneTable ftab t →
    minMaxChar ftab d t = some (lo, hi) → ∀ {w : List Byte} {g fl : Nat}, Ending ftab t w g fl →
      ∀ c, w.head? = some c → lo ≤ c ∧ c ≤ hi := by
  induction d with
  | zero => intro t lo hi _ h; simp [minMaxChar] at h
  | succ d ih =>
    intro t lo hi hs h w g fl he c hc
    simp only [minMaxChar, bind, Option.bind_eq_some_iff, pure, Option.some.injEq] at h
    obtain ⟨l, hl, b, hb, hbb⟩ := h
    rw [compactTable7_eq (hs t .here).1] at hl
    have hb : l.foldlM (boundsItem ftab d) {} = some b := hb
    suffices hcov : b.Covers c by
      obtain ⟨⟨x, hx, h1⟩, y, hy, h2⟩ := hcov
      simp only [Bounds.bytes, hx, hy, Option.getD_some, Prod.mk.injEq] at hbb
      omega
    cases he with
    | @here _ i hin _ =>
      obtain ⟨l', hl', hi'⟩ := hin
      rw [hl, Option.some.injEq] at hl'; subst hl'
      refine boundsLoop_mem l hb hi' ?_
      intro b0 b1 hb1
      cases hf : i.flex with
      | nil => rw [hf] at hc; simp at hc
      | cons x f =>
        rw [hf] at hc
        simp only [List.head?_cons, Option.some.injEq] at hc
        subst hc
        simp only [boundsItem, hf, Option.some.injEq] at hb1
        subst hb1
        exact Bounds.covers_new (Nat.le_refl _) (Nat.le_refl _)
    | @next _ i w' g' fl' hin hne he' =>
      have hin' := hin
      obtain ⟨l', hl', hi'⟩ := hin
      rw [hl, Option.some.injEq] at hl'; subst hl'
      refine boundsLoop_mem l hb hi' ?_
      intro b0 b1 hb1
      cases hf : i.flex with
      | nil =>
        rw [hf, List.nil_append] at hc
        simp only [boundsItem, hf] at hb1
        by_cases h80 : i.flags &&& 0x80 = 0
        · exact absurd ((hs t .here).2 i hin' hf h80) hne
        · rw [if_neg h80] at hb1
          simp only [bind, Option.bind_eq_some_iff, pure, Option.some.injEq] at hb1
          obtain ⟨⟨cl, cu⟩, hm, rfl⟩ := hb1
          have := ih (hs.sub (Reach.here.next hin' hne)) hm he' c hc
          exact Bounds.covers_new this.1 this.2
      | cons x f =>
        rw [hf, List.cons_append] at hc
        simp only [List.head?_cons, Option.some.injEq] at hc
        subst hc
        simp only [boundsItem, hf, Option.some.injEq] at hb1
        subst hb1
        exact Bounds.covers_new (Nat.le_refl _) (Nat.le_refl _)

/-! ### Alternants -/

theorem mixBoundsLoop_full (head : Mix → Nat) (l : List Mix) (hh : ∀ m ∈ l, head m &&& 0x0f = m.str.length)
    (hb : ∀ m ∈ l, m.str ≠ []) (tl : List Byte) : ∀ (lo : Nat) (hi : Option Nat),
      ∃ lo' hi', mixBoundsLoop l.length ((l.map fun m => head m :: m.str).flatten ++ tl) lo hi = some (lo', hi') ∧
        lo' ≤ lo ∧ (∀ m ∈ l, ∀ c, m.str.head? = some c → lo' ≤ c) ∧
        (lo' = lo ∨ ∃ m ∈ l, m.str.head? = some lo') ∧
        (∀ x, hi = some x → ∃ y, hi' = some y ∧ x ≤ y) ∧
        (∀ m ∈ l, ∀ c, m.str.head? = some c → ∃ y, hi' = some y ∧ c ≤ y) ∧
        (hi' = hi ∨ ∃ m ∈ l, m.str.head? = hi') := by
  induction l with
  | nil => intro lo hi; exact ⟨lo, hi, rfl, by omega, by simp, Or.inl rfl, fun x hx => ⟨x, hx, by omega⟩, by simp, Or.inl rfl⟩
  | cons m l ih =>
    intro lo hi
    have hm := hh m (by simp)
    cases hs : m.str with
    | nil => exact absurd hs (hb m (by simp))
    | cons c f =>
      obtain ⟨lo', hi', h1, h2, h3, h4, h5, h6, h7⟩ := ih (fun m hm => hh m (by simp [hm])) (fun m hm => hb m (by simp [hm]))
        (min lo c) (some (match hi with | none => c | some x => max x c))
      refine ⟨lo', hi', ?_, by omega, ?_, ?_, ?_, ?_, ?_⟩
      · simp only [List.length_cons, List.map_cons, List.flatten_cons, List.cons_append, List.append_assoc, mixBoundsLoop,
          getbyte, bind, Option.bind_some, hm, hs]
        rw [if_pos (by simp)]
        simp only [List.drop_succ_cons, List.drop_left]
        exact h1
      · intro m' hm' c' hc'
        rcases List.mem_cons.1 hm' with rfl | hm'
        · rw [hs] at hc'; simp at hc'; omega
        · exact h3 m' hm' c' hc'
      · rcases h4 with h4 | ⟨m', hm', h4⟩
        · by_cases hle : lo ≤ c
          · left; omega
          · right; exact ⟨m, by simp, by rw [hs]; simp; omega⟩
        · exact Or.inr ⟨m', by simp [hm'], h4⟩
      · rintro x rfl
        obtain ⟨y, hy, hle⟩ := h5 _ rfl
        exact ⟨y, hy, by simp only at hle; omega⟩
      · intro m' hm' c' hc'
        rcases List.mem_cons.1 hm' with rfl | hm'
        · rw [hs] at hc'; simp at hc'
          subst hc'
          obtain ⟨y, hy, hle⟩ := h5 _ rfl
          refine ⟨y, hy, ?_⟩
          cases hi <;> simp only at hle <;> omega
        · exact h6 m' hm' c' hc'
      · rcases h7 with h7 | ⟨m', hm', h7⟩
        · cases hi with
          | none => exact Or.inr ⟨m, by simp, by rw [hs, h7]; rfl⟩
          | some x =>
            simp only at h7
            rcases Nat.le_total x c with hle | hle
            · rw [Nat.max_eq_right hle] at h7
              exact Or.inr ⟨m, by simp, by rw [hs, h7]; rfl⟩
            · rw [Nat.max_eq_left hle] at h7
              exact Or.inl h7
        · exact Or.inr ⟨m', by simp [hm'], h7⟩

theorem mixBoundsLoop_empty (head : Mix → Nat) (l : List Mix) (hh : ∀ m ∈ l, head m &&& 0x0f = m.str.length)
    (hb : ∀ m ∈ l, m.str = []) (tl : List Byte) : ∀ (lo : Nat) (hi : Option Nat),
      mixBoundsLoop l.length ((l.map fun m => head m :: m.str).flatten ++ tl) lo hi
        = some (if l = [] then (lo, hi) else (0, some 0)) := by
  induction l with
  | nil => intro lo hi; rfl
  | cons m l ih =>
    intro lo hi
    have hm := hh m (by simp)
    have hs := hb m (by simp)
    simp only [List.length_cons, List.map_cons, List.flatten_cons, List.cons_append, hs, mixBoundsLoop,
          getbyte, bind, Option.bind_some, hm, List.length_nil]
    rw [if_neg (by simp)]
    simp only [List.nil_append]
    rw [ih (fun m hm => hh m (by simp [hm])) (fun m hm => hb m (by simp [hm]))]
    cases l <;> simp

theorem mixBounds_covers {hist : List (List Byte × Nat)} (hok : MixOk hist) (hs : SaneAlts hist)
    (hb : ∀ p ∈ hist, ∀ b ∈ p.1, 0 < b ∧ b < 256) (rest : List Byte) {lo0 hi0 lo hi : Nat}
    (h : mixBounds (mixSer (mixOf hist) ++ rest) lo0 hi0 = some (lo, hi)) :
    ∀ x, (∃ k, (x, k) ∈ hist) → (x = [] ∧ lo = lo0 ∧ hi = hi0) ∨ ∃ c, x.head? = some c ∧ lo ≤ c ∧ c ≤ hi := by
  obtain ⟨h1, h2, h3, h4, h5, h6⟩ := mixOf_inv hist hok.levels
  have hshort : ∀ m ∈ mixOf hist, m.str.length < 16 := by
    intro m hm
    obtain ⟨k, hk⟩ := h3 m hm
    exact hok.short _ hk
  have hhead : ∀ m ∈ mixOf hist, mixHead (spareBits (mixOf hist)) m &&& 0x0f = m.str.length :=
    fun m hm => (mixHead_spec (mixOf hist) m (hshort m hm) (h2 m hm)).2.1
  simp only [mixBounds, mixSer, List.cons_append, getbyte, bind, Option.bind_some] at h
  rw [Nat.mod_eq_of_lt (by have := hok.count; omega)] at h
  rcases hs with hs | hs
  · have he : ∀ m ∈ mixOf hist, m.str = [] := by
      intro m hm
      obtain ⟨k, hk⟩ := h3 m hm
      exact hs _ hk
    rw [mixBoundsLoop_empty _ _ hhead he] at h
    rintro x ⟨k, hk⟩
    have hx : x = [] := hs _ hk
    left
    refine ⟨hx, ?_⟩
    obtain ⟨m, hm, -⟩ := h4 _ hk
    rw [if_neg (List.ne_nil_of_mem hm)] at h
    simp only [Option.bind_some, ne_eq, not_true_eq_false, if_false, if_true, pure, Option.some.injEq, Prod.mk.injEq] at h
    exact ⟨h.1.symm, h.2.symm⟩
  · have he : ∀ m ∈ mixOf hist, m.str ≠ [] := by
      intro m hm
      obtain ⟨k, hk⟩ := h3 m hm
      exact hs _ hk
    obtain ⟨lo', hi', k1, k2, k3, k4, k5, k6, -⟩ := mixBoundsLoop_full _ _ hhead he rest 0xff none
    rw [k1] at h
    rintro x ⟨k, hk⟩
    right
    obtain ⟨m, hm, hmx⟩ := h4 _ hk
    simp only at hmx
    have hxne := hs _ hk
    have hbx := hb _ hk
    obtain ⟨c, f, rfl⟩ : ∃ c f, x = c :: f := by
      cases x with
      | nil => exact absurd rfl hxne
      | cons c f => exact ⟨c, f, rfl⟩
    refine ⟨c, rfl, ?_⟩
    have hc1 := k3 m hm c (by rw [hmx]; rfl)
    obtain ⟨y, hy, hc2⟩ := k6 m hm c (by rw [hmx]; rfl)
    have hpos := (hbx c (by simp)).1
    have hlo : lo' ≠ 0 := by
      rcases k4 with k4 | ⟨m', hm', k4⟩
      · omega
      · obtain ⟨k', hk'⟩ := h3 m' hm'
        have := (hb _ hk' lo' (List.mem_of_mem_head? k4)).1
        omega
    subst hy
    simp only [Option.bind_some, if_pos hlo, pure, Option.some.injEq, Prod.mk.injEq] at h
    rw [if_neg (by omega)] at h
    omega

/-! ### The exact bounds -/

/-- The letters of one element. -/
def CountedBy (ftab : List Byte) (i : CItem) (c : Nat) : Prop :=
  (∃ s, i.flex = c :: s) ∨ (i.flex = [] ∧ i.flags &&& 0x80 = 0 ∧ c = 0) ∨ (i.flex = [] ∧ i.flags &&& 0x80 ≠ 0 ∧ Counted ftab i.next c)

theorem counted_iff {ftab : List Byte} {t c : Nat} : Counted ftab t c ↔ ∃ i, InTable ftab t i ∧ CountedBy ftab i c := by
  constructor
  · rintro (⟨h1, h2⟩ | ⟨h1, h2, h3⟩ | ⟨h1, h2, h3, h4⟩)
    · exact ⟨_, h1, Or.inl ⟨_, h2⟩⟩
    · exact ⟨_, h1, Or.inr (Or.inl ⟨h2, h3, rfl⟩)⟩
    · exact ⟨_, h1, Or.inr (Or.inr ⟨h2, h3, h4⟩)⟩
  · rintro ⟨i, h1, ⟨s, h2⟩ | ⟨h2, h3, rfl⟩ | ⟨h2, h3, h4⟩⟩
    · exact .letter h1 h2
    · exact .blank h1 h2 h3
    · exact .onward h1 h2 h3 h4

/-- The least and the greatest of the numbers with a property. -/
def Extremes (P : Nat → Prop) (lo hi : Nat) : Prop := P lo ∧ P hi ∧ ∀ c, P c → lo ≤ c ∧ c ≤ hi

theorem boundsItem_exact {ftab : List Byte} {d : Nat} {b b' : Bounds} {i : CItem}
    (ih : ∀ lo hi, i.flex = [] → i.flags &&& 0x80 ≠ 0 → minMaxChar ftab d i.next = some (lo, hi) → Extremes (Counted ftab i.next) lo hi)
    (h : boundsItem ftab d b i = some b') : ∃ lo hi, Extremes (CountedBy ftab i) lo hi ∧ b' = b.add lo hi := by
  simp only [boundsItem] at h
  split at h
  · next c s hf =>
    simp only [Option.some.injEq] at h
    refine ⟨c, c, ⟨Or.inl ⟨s, hf⟩, Or.inl ⟨s, hf⟩, ?_⟩, h.symm⟩
    rintro x (⟨s', e⟩ | ⟨e, -, -⟩ | ⟨e, -, -⟩)
    · rw [hf] at e; cases e; omega
    · rw [hf] at e; cases e
    · rw [hf] at e; cases e
  · next hf =>
    split at h
    · next h80 =>
      simp only [Option.some.injEq] at h
      refine ⟨0, 0, ⟨Or.inr (Or.inl ⟨hf, h80, rfl⟩), Or.inr (Or.inl ⟨hf, h80, rfl⟩), ?_⟩, ?_⟩
      · rintro x (⟨s', e⟩ | ⟨-, -, rfl⟩ | ⟨-, e, -⟩)
        · rw [hf] at e; cases e
        · omega
        · exact absurd h80 e
      · rw [← h, Bounds.add]
        cases b.lo <;> cases b.hi <;> simp
    · next h80 =>
      simp only [bind, Option.bind_eq_some_iff, pure, Option.some.injEq] at h
      obtain ⟨⟨cl, cu⟩, hm, rfl⟩ := h
      obtain ⟨e1, e2, e3⟩ := ih cl cu hf h80 hm
      refine ⟨cl, cu, ⟨Or.inr (Or.inr ⟨hf, h80, e1⟩), Or.inr (Or.inr ⟨hf, h80, e2⟩), ?_⟩, rfl⟩
      rintro x (⟨s', e⟩ | ⟨-, e, -⟩ | ⟨-, -, e⟩)
      · rw [hf] at e; cases e
      · exact absurd e h80
      · exact e3 x e

theorem boundsLoop_exact {ftab : List Byte} {d : Nat} (l : List CItem)
    (ih : ∀ i ∈ l, ∀ lo hi, i.flex = [] → i.flags &&& 0x80 ≠ 0 → minMaxChar ftab d i.next = some (lo, hi) → Extremes (Counted ftab i.next) lo hi)
    {b b' : Bounds} (h : l.foldlM (boundsItem ftab d) b = some b') (P : Nat → Prop) {lo hi : Nat} (hb : b = ⟨some lo, some hi⟩)
    (hP : Extremes P lo hi) : ∃ lo' hi', b' = ⟨some lo', some hi'⟩ ∧ Extremes (fun c => P c ∨ ∃ i ∈ l, CountedBy ftab i c) lo' hi' := by
  induction l generalizing b P lo hi with
  | nil =>
    simp only [List.foldlM_nil, pure, Option.some.injEq] at h
    refine ⟨lo, hi, by rw [← h, hb], Or.inl hP.1, Or.inl hP.2.1, ?_⟩
    rintro c (hc | ⟨i, hi, -⟩)
    · exact hP.2.2 c hc
    · simp at hi
  | cons i l ihl =>
    simp only [List.foldlM_cons, bind, Option.bind_eq_some_iff] at h
    obtain ⟨b1, h1, h2⟩ := h
    obtain ⟨l1, u1, ⟨k1, k2, k3⟩, rfl⟩ := boundsItem_exact (ih i (by simp)) h1
    obtain ⟨p1, p2, p3⟩ := hP
    obtain ⟨lo', hi', e1, e2, e3, e4⟩ := ihl (fun i hi => ih i (by simp [hi])) h2 (P := fun c => P c ∨ CountedBy ftab i c)
      (lo := min l1 lo) (hi := max u1 hi) (by rw [hb]; rfl) (by
        refine ⟨?_, ?_, ?_⟩
        · rcases Nat.le_total l1 lo with hle | hle
          · rw [Nat.min_eq_left hle]; exact Or.inr k1
          · rw [Nat.min_eq_right hle]; exact Or.inl p1
        · rcases Nat.le_total u1 hi with hle | hle
          · rw [Nat.max_eq_right hle]; exact Or.inl p2
          · rw [Nat.max_eq_left hle]; exact Or.inr k2
        · rintro c (hc | hc)
          · have := p3 c hc; omega
          · have := k3 c hc; omega)
    refine ⟨lo', hi', e1, ?_, ?_, ?_⟩
    · rcases e2 with (h | h) | ⟨j, hj, h⟩
      · exact Or.inl h
      · exact Or.inr ⟨i, by simp, h⟩
      · exact Or.inr ⟨j, by simp [hj], h⟩
    · rcases e3 with (h | h) | ⟨j, hj, h⟩
      · exact Or.inl h
      · exact Or.inr ⟨i, by simp, h⟩
      · exact Or.inr ⟨j, by simp [hj], h⟩
    · rintro c (h | ⟨j, hj, h⟩)
      · exact e4 c (Or.inl (Or.inl h))
      · rcases List.mem_cons.1 hj with rfl | hj
        · exact e4 c (Or.inl (Or.inr h))
        · exact e4 c (Or.inr ⟨j, hj, h⟩)

theorem Onward.trans {ftab : List Byte} {t u v : Nat} (h1 : Onward ftab t u) (h2 : Onward ftab u v) : Onward ftab t v := by
  induction h2 with
  | here => exact h1
  | next _ hi hf hm ih => exact ih.next hi hf hm

theorem minMaxChar_exact {ftab : List Byte} (d : Nat) : ∀ {t lo hi : Nat}, FewElements ftab t →
    minMaxChar ftab d t = some (lo, hi) → Extremes (Counted ftab t) lo hi := by
  induction d with
  | zero => intro t lo hi _ h; simp [minMaxChar] at h
  | succ d ih =>
    intro t lo hi hs h
    simp only [minMaxChar, bind, Option.bind_eq_some_iff, pure, Option.some.injEq] at h
    obtain ⟨l, hl, b, hb, hbb⟩ := h
    rw [compactTable7_eq (hs t .here).1] at hl
    have hb : l.foldlM (boundsItem ftab d) {} = some b := hb
    have hin : ∀ i ∈ l, InTable ftab t i := fun i hi => ⟨l, hl, hi⟩
    have ih' : ∀ i ∈ l, ∀ lo hi, i.flex = [] → i.flags &&& 0x80 ≠ 0 → minMaxChar ftab d i.next = some (lo, hi) →
        Extremes (Counted ftab i.next) lo hi := by
      intro i hi lo hi' hf hm hmm
      exact ih (fun v hv => hs v ((Onward.here.next (hin i hi) hf hm).trans hv)) hmm
    cases l with
    | nil =>
      obtain ⟨i, l', hl', hi'⟩ := (hs t .here).2
      rw [hl, Option.some.injEq] at hl'; subst hl'; simp at hi'
    | cons i l =>
      simp only [List.foldlM_cons, bind, Option.bind_eq_some_iff] at hb
      obtain ⟨b1, h1, h2⟩ := hb
      obtain ⟨l1, u1, k, rfl⟩ := boundsItem_exact (ih' i (by simp)) h1
      obtain ⟨lo', hi', rfl, e2, e3, e4⟩ := boundsLoop_exact l (fun j hj => ih' j (by simp [hj])) h2 (CountedBy ftab i) (lo := l1) (hi := u1) rfl k
      simp only [Bounds.bytes, Option.getD_some, Prod.mk.injEq] at hbb
      obtain ⟨rfl, rfl⟩ := hbb
      have key : ∀ c, (CountedBy ftab i c ∨ ∃ j ∈ l, CountedBy ftab j c) ↔ Counted ftab t c := by
        intro c
        rw [counted_iff]
        constructor
        · rintro (h | ⟨j, hj, h⟩)
          · exact ⟨i, hin i (by simp), h⟩
          · exact ⟨j, hin j (by simp [hj]), h⟩
        · rintro ⟨j, ⟨l', hl', hj⟩, h⟩
          rw [hl, Option.some.injEq] at hl'; subst hl'
          rcases List.mem_cons.1 hj with rfl | hj
          · exact Or.inl h
          · exact Or.inr ⟨j, hj, h⟩
      exact ⟨(key _).1 e2, (key _).1 e3, fun c hc => e4 c ((key c).2 hc)⟩

/-- Without looking for attained bounds: tables without elements are allowed. -/
theorem minMaxChar_counted {ftab : List Byte} (d : Nat) : ∀ {t lo hi : Nat},
    (∀ u, Onward ftab t u → ∀ n p, getbyte (ftab.drop (u <<< 1)) = some (n, p) → n < 128) →
    minMaxChar ftab d t = some (lo, hi) → ∀ c, Counted ftab t c → lo ≤ c ∧ c ≤ hi := by
  induction d with
  | zero => intro t lo hi _ h; simp [minMaxChar] at h
  | succ d ih =>
    intro t lo hi hs h c hc
    simp only [minMaxChar, bind, Option.bind_eq_some_iff, pure, Option.some.injEq] at h
    obtain ⟨l, hl, b, hb, hbb⟩ := h
    rw [compactTable7_eq (hs t .here)] at hl
    have hb : l.foldlM (boundsItem ftab d) {} = some b := hb
    suffices hcov : b.Covers c by
      obtain ⟨⟨x, hx, h1⟩, y, hy, h2⟩ := hcov
      simp only [Bounds.bytes, hx, hy, Option.getD_some, Prod.mk.injEq] at hbb
      omega
    obtain ⟨i, hin, hi'⟩ := counted_iff.1 hc
    have hin' := hin
    obtain ⟨l', hl', him⟩ := hin
    rw [hl, Option.some.injEq] at hl'; subst hl'
    refine boundsLoop_mem l hb him ?_
    intro b0 b1 hb1
    simp only [boundsItem] at hb1
    rcases hi' with ⟨s, hf⟩ | ⟨hf, h80, rfl⟩ | ⟨hf, h80, hc'⟩
    · simp only [hf, Option.some.injEq] at hb1
      subst hb1
      exact Bounds.covers_new (Nat.le_refl _) (Nat.le_refl _)
    · simp only [hf, if_pos h80, Option.some.injEq] at hb1
      subst hb1
      exact ⟨⟨0, rfl, Nat.le_refl _⟩, _, rfl, Nat.zero_le _⟩
    · simp only [hf, if_neg h80, bind, Option.bind_eq_some_iff, pure, Option.some.injEq] at hb1
      obtain ⟨⟨cl, cu⟩, hm, rfl⟩ := hb1
      have := ih (fun v hv => hs v ((Onward.here.next hin' hf h80).trans hv)) hm c hc'
      exact Bounds.covers_new this.1 this.2

theorem bytesLt_nil_right (a : List Byte) : bytesLt a [] = false := by cases a <;> rfl

/-- The bounds of an alternation table, exactly: the least first letter of an alternant, or the bound of the endings when one is
empty; the greatest, or the bound of the endings when all are empty. -/
theorem mixBounds_exact {hist : List (List Byte × Nat)} (hok : MixOk hist) (hne : hist ≠ [])
    (hb : ∀ p ∈ hist, ∀ b ∈ p.1, 0 < b ∧ b < 256) (rest : List Byte) {lo0 hi0 lo hi : Nat}
    (h : mixBounds (mixSer (mixOf hist) ++ rest) lo0 hi0 = some (lo, hi)) :
    ((∃ p ∈ hist, p.1 = []) → lo = lo0) ∧
    ((∀ p ∈ hist, p.1 ≠ []) → (∃ p ∈ hist, p.1.head? = some lo) ∧ ∀ p ∈ hist, ∀ c, p.1.head? = some c → lo ≤ c) ∧
    ((∀ p ∈ hist, p.1 = []) → hi = hi0) ∧
    ((∃ p ∈ hist, p.1 ≠ []) → (∃ p ∈ hist, p.1.head? = some hi) ∧ ∀ p ∈ hist, ∀ c, p.1.head? = some c → c ≤ hi) := by
  obtain ⟨h1, h2, h3, h4, h5, h6⟩ := mixOf_inv hist hok.levels
  have hshort : ∀ m ∈ mixOf hist, m.str.length < 16 := by
    intro m hm
    obtain ⟨k, hk⟩ := h3 m hm
    exact hok.short _ hk
  have hhead : ∀ m ∈ mixOf hist, mixHead (spareBits (mixOf hist)) m &&& 0x0f = m.str.length :=
    fun m hm => (mixHead_spec (mixOf hist) m (hshort m hm) (h2 m hm)).2.1
  have hbm : ∀ m ∈ mixOf hist, ∀ b ∈ m.str, 0 < b ∧ b < 256 := by
    intro m hm
    obtain ⟨k, hk⟩ := h3 m hm
    exact hb _ hk
  -- the statement about the elements of the table
  suffices H : ((∃ m ∈ mixOf hist, m.str = []) → lo = lo0) ∧
      ((∀ m ∈ mixOf hist, m.str ≠ []) → (∃ m ∈ mixOf hist, m.str.head? = some lo) ∧ ∀ m ∈ mixOf hist, ∀ c, m.str.head? = some c → lo ≤ c) ∧
      ((∀ m ∈ mixOf hist, m.str = []) → hi = hi0) ∧
      ((∃ m ∈ mixOf hist, m.str ≠ []) → (∃ m ∈ mixOf hist, m.str.head? = some hi) ∧ ∀ m ∈ mixOf hist, ∀ c, m.str.head? = some c → c ≤ hi) by
    have all : ∀ P : List Byte → Prop, (∀ p ∈ hist, P p.1) ↔ ∀ m ∈ mixOf hist, P m.str := by
      intro P
      constructor
      · intro hp m hm
        obtain ⟨k, hk⟩ := h3 m hm
        exact hp _ hk
      · intro hp p hp'
        obtain ⟨m, hm, e⟩ := h4 p hp'
        rw [← e]; exact hp m hm
    have ex : ∀ P : List Byte → Prop, (∃ p ∈ hist, P p.1) ↔ ∃ m ∈ mixOf hist, P m.str := by
      intro P
      constructor
      · rintro ⟨p, hp, h⟩
        obtain ⟨m, hm, e⟩ := h4 p hp
        exact ⟨m, hm, by rw [e]; exact h⟩
      · rintro ⟨m, hm, h⟩
        obtain ⟨k, hk⟩ := h3 m hm
        exact ⟨_, hk, h⟩
    rw [ex (· = []), all (· ≠ []), ex (·.head? = some lo), all (fun x => ∀ c, x.head? = some c → lo ≤ c), all (· = []), ex (· ≠ []),
      ex (·.head? = some hi), all (fun x => ∀ c, x.head? = some c → c ≤ hi)]
    exact H
  have hlen : (mixOf hist).length < 256 := by have := hok.count; omega
  have hmne : mixOf hist ≠ [] := by
    obtain ⟨p, hp⟩ := List.exists_mem_of_ne_nil _ hne
    obtain ⟨m, hm, -⟩ := h4 p hp
    exact List.ne_nil_of_mem hm
  simp only [mixBounds, mixSer, List.cons_append, getbyte, bind, Option.bind_some] at h
  rw [Nat.mod_eq_of_lt hlen] at h
  generalize mixHead (spareBits (mixOf hist)) = head at h hhead
  generalize mixOf hist = ms at *
  by_cases hall : ∀ m ∈ ms, m.str ≠ []
  · obtain ⟨lo', hi', k1, k2, k3, k4, k5, k6, k7⟩ := mixBoundsLoop_full head ms hhead hall rest 0xff none
    rw [k1] at h
    obtain ⟨m0, hm0⟩ := List.exists_mem_of_ne_nil _ hmne
    have hc0 : ∃ c, m0.str.head? = some c := by
      cases hs : m0.str with
      | nil => exact absurd hs (hall _ hm0)
      | cons c f => exact ⟨c, rfl⟩
    obtain ⟨c0, hc0⟩ := hc0
    have hc0b := hbm m0 hm0 c0 (List.mem_of_mem_head? hc0)
    have hlo : ∃ m ∈ ms, m.str.head? = some lo' := by
      rcases k4 with k4 | k4
      · have := k3 m0 hm0 c0 hc0
        exact ⟨m0, hm0, by rw [hc0]; congr 1; omega⟩
      · exact k4
    have hlo0 : lo' ≠ 0 := by
      obtain ⟨m, hm, e⟩ := hlo
      have := (hbm m hm lo' (List.mem_of_mem_head? e)).1
      omega
    obtain ⟨y, rfl, hy⟩ := k6 m0 hm0 c0 hc0
    have hhi : ∃ m ∈ ms, m.str.head? = some y := by
      rcases k7 with k7 | k7
      · cases k7
      · exact k7
    simp only [Option.bind_some, if_pos hlo0, pure, Option.some.injEq, Prod.mk.injEq] at h
    rw [if_neg (by omega)] at h
    obtain ⟨rfl, rfl⟩ := h
    refine ⟨?_, fun _ => ⟨hlo, k3⟩, ?_, fun _ => ⟨hhi, ?_⟩⟩
    · rintro ⟨m, hm, e⟩
      exact absurd e (hall m hm)
    · intro hall'
      exact absurd (hall' m0 hm0) (hall m0 hm0)
    · intro m hm c hc
      obtain ⟨y', e, hle⟩ := k6 m hm c hc
      cases e; exact hle
  · -- the empty alternant comes first, and alone
    cases ms with
    | nil => exact absurd rfl hmne
    | cons m ms =>
      rw [MixSorted, List.pairwise_cons] at h1
      have hrest : ∀ m' ∈ ms, m'.str ≠ [] := by
        intro m' hm' e
        have := h1.1 m' hm'
        rw [e, bytesLt_nil_right] at this
        cases this
      have hm0 : m.str = [] := by
        by_cases e : m.str = []
        · exact e
        · exfalso
          apply hall
          intro m' hm'
          rcases List.mem_cons.1 hm' with rfl | hm'
          · exact e
          · exact hrest m' hm'
      have hm1 := hhead m (by simp)
      rw [hm0] at hm1
      obtain ⟨lo', hi', k1, k2, k3, k4, k5, k6, k7⟩ := mixBoundsLoop_full head ms (fun m hm => hhead m (by simp [hm])) hrest rest 0 (some 0)
      simp only [List.length_cons, List.map_cons, List.flatten_cons, List.cons_append, hm0, mixBoundsLoop, getbyte, bind,
        Option.bind_some, hm1, List.length_nil, List.nil_append] at h
      rw [if_neg (by simp)] at h
      rw [k1] at h
      obtain ⟨y, rfl, -⟩ := k5 0 rfl
      have hl0 : lo' = 0 := by omega
      subst hl0
      simp only [Option.bind_some, ne_eq, not_true_eq_false, if_false, pure, Option.some.injEq, Prod.mk.injEq] at h
      obtain ⟨rfl, hhi⟩ := h
      refine ⟨fun _ => rfl, fun hall' => absurd hm0 (hall' m (by simp)), ?_, ?_⟩
      · intro hall'
        cases ms with
        | nil =>
          rcases k7 with k7 | ⟨m', hm', -⟩
          · simp only [Option.some.injEq] at k7
            rw [if_pos k7] at hhi; exact hhi.symm
          · simp at hm'
        | cons m' ms => exact absurd (hall' m' (by simp)) (hrest m' (by simp))
      · rintro ⟨m', hm', e'⟩
        have hm'' : m' ∈ ms := by
          rcases List.mem_cons.1 hm' with rfl | hm'
          · exact absurd hm0 e'
          · exact hm'
        have hc : ∃ c, m'.str.head? = some c := by
          cases hs : m'.str with
          | nil => exact absurd hs e'
          | cons c f => exact ⟨c, rfl⟩
        obtain ⟨c, hc⟩ := hc
        obtain ⟨y', e, hle⟩ := k6 m' hm'' c hc
        cases e
        have hcb := hbm m' hm' c (List.mem_of_mem_head? hc)
        have hy : y ≠ 0 := by omega
        rw [if_neg hy] at hhi
        subst hhi
        refine ⟨?_, ?_⟩
        · rcases k7 with k7 | ⟨m'', hm'', e⟩
          · simp only [Option.some.injEq] at k7; exact absurd k7 hy
          · exact ⟨m'', by simp [hm''], e⟩
        · intro m'' hm'' c'' hc''
          rcases List.mem_cons.1 hm'' with rfl | hm''
          · rw [hm0] at hc''; cases hc''
          · obtain ⟨y', e, hle⟩ := k6 m'' hm'' c'' hc''
            cases e; exact hle

end Libmorph
