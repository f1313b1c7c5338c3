import Verif.Lemmas.EngBuild
namespace Libmorph

/-! ### The box of ending tables -/

/-- Length of a list of tables in the image. -/
def tabsLen (l : List (List Byte × FTable)) : Nat := (l.map fun p => p.2.len).sum

/-- Each table is the one of its string, placed behind the tables before it. -/
def TabsAt : Nat → List (List Byte × FTable) → Prop
  | _, [] => True
  | off, p :: l => p.2 = { parseTable p.1 with offset := off % 65536 } ∧ TabsAt (off + p.2.len) l

theorem tabsAt_append (off : Nat) (l1 l2 : List (List Byte × FTable)) :
    TabsAt off (l1 ++ l2) ↔ TabsAt off l1 ∧ TabsAt (off + tabsLen l1) l2 := by
  induction l1 generalizing off with
  | nil => simp [TabsAt, tabsLen]
  | cons p l1 ih =>
    simp only [List.cons_append, TabsAt, ih, tabsLen, List.map_cons, List.sum_cons, and_assoc, Nat.add_assoc]

theorem tabsLen_append (l1 l2 : List (List Byte × FTable)) : tabsLen (l1 ++ l2) = tabsLen l1 + tabsLen l2 := by
  simp [tabsLen]

/-- What the compiler maintains. -/
structure BoxInv (b : FlexBox) : Prop where
  len : b.length = (4 + tabsLen b.tabs) % 65536
  tabs : TabsAt 4 b.tabs
  keys : (b.tabs.map Prod.fst).Nodup

theorem boxInv_init : BoxInv {} := ⟨rfl, trivial, by simp⟩

theorem boxInv_add {b : FlexBox} (h : BoxInv b) (s : List Byte) :
    BoxInv (b.add s).1 ∧ (s, (b.add s).2) ∈ (b.add s).1.tabs ∧ ∃ l, (b.add s).1.tabs = b.tabs ++ l := by
  simp only [FlexBox.add]
  cases hf : b.tabs.find? (fun p => p.1 = s) with
  | some p =>
    simp only
    have h1 := List.mem_of_find?_eq_some hf
    have h2 := List.find?_some hf
    simp only [decide_eq_true_eq] at h2
    refine ⟨h, ?_, [], by simp⟩
    rw [← h2]; exact h1
  | none =>
    simp only
    rw [List.find?_eq_none] at hf
    refine ⟨⟨?_, ?_, ?_⟩, by simp, _, rfl⟩
    · simp only [tabsLen_append, h.len]
      simp only [tabsLen, List.map_cons, List.map_nil, List.sum_cons, List.sum_nil]
      omega
    · rw [tabsAt_append]
      refine ⟨h.tabs, ?_, trivial⟩
      simp only [h.len]
    · rw [List.map_append, List.nodup_append]
      refine ⟨h.keys, by simp, ?_⟩
      intro a ha b' hb
      simp only [List.map_cons, List.map_nil, List.mem_singleton] at hb
      subst hb
      obtain ⟨p, hp, rfl⟩ := List.mem_map.1 ha
      have := hf p hp
      simpa using this

theorem FTable.ser_length (t : FTable) : t.ser.length = t.len := by
  simp only [FTable.ser, FTable.len, List.length_cons, List.length_flatten, List.map_map]
  rw [show (List.length ∘ Flex.ser) = fun x : Flex => 2 + x.szflex.length from by
    funext x; simp only [Function.comp, Flex.ser, List.length_cons]; omega]
  omega

theorem tabs_ser_length (l : List (List Byte × FTable)) :
    ((l.map fun p => p.2.ser).flatten).length = tabsLen l := by
  induction l with
  | nil => rfl
  | cons p l ih => simp only [List.map_cons, List.flatten_cons, List.length_append, ih, FTable.ser_length, tabsLen, List.sum_cons]

/-- A registered table stands at its offset in the image. -/
theorem box_table_at {b : FlexBox} (h : BoxInv b) (hlen : 4 + tabsLen b.tabs < 65536) {s : List Byte} {t : FTable}
    (hm : (s, t) ∈ b.tabs) :
    t.items = (parseTable s).items ∧ t.clower = (parseTable s).clower ∧ t.cupper = (parseTable s).cupper ∧
    4 ≤ t.offset ∧ t.offset < 65536 ∧ ∃ rest, b.image.drop t.offset = t.ser ++ rest := by
  obtain ⟨l1, l2, he⟩ := List.append_of_mem hm
  have ht := h.tabs
  rw [he, tabsAt_append] at ht
  obtain ⟨-, ht, -⟩ := ht
  simp only at ht
  rw [he, tabsLen_append] at hlen
  have ho : t.offset = 4 + tabsLen l1 := by rw [ht]; simp only; omega
  refine ⟨by rw [ht], by rw [ht], by rw [ht], by omega, by omega, ((l2.map (fun (p : List Byte × FTable) => p.2.ser)).flatten), ?_⟩
  rw [FlexBox.image, he, ho]
  simp only [List.map_append, List.map_cons, List.flatten_append, List.flatten_cons]
  have : 4 + tabsLen l1 = ([70, 76, 69, 88] ++ (l1.map fun (p : List Byte × FTable) => p.2.ser).flatten).length := by
    rw [List.length_append, tabs_ser_length]; rfl
  rw [this, ← List.append_assoc, List.drop_left]

/-! ### The classes -/

/-- What the compiler maintains: the `i`-th class has the offset `4 i`. -/
structure ClassInv (t : ClassTab) : Prop where
  len : t.len = 4 * t.tab.length
  at_ : ∀ i (hi : i < t.tab.length), t.tab[i].2 = (4 * i) % 65536
  keys : (t.tab.map Prod.fst).Nodup

theorem classInv_init : ClassInv {} := ⟨rfl, by simp, by simp⟩

theorem classInv_add {t : ClassTab} (h : ClassInv t) (c : ClassInfo) :
    ClassInv (t.add c).1 ∧ (c, (t.add c).2) ∈ (t.add c).1.tab ∧ ∃ l, (t.add c).1.tab = t.tab ++ l := by
  simp only [ClassTab.add]
  cases hf : t.tab.find? (fun p => p.1 = c) with
  | some p =>
    simp only
    have h1 := List.mem_of_find?_eq_some hf
    have h2 := List.find?_some hf
    simp only [decide_eq_true_eq] at h2
    refine ⟨h, ?_, [], by simp⟩
    rw [← h2]; exact h1
  | none =>
    simp only
    rw [List.find?_eq_none] at hf
    refine ⟨⟨?_, ?_, ?_⟩, by simp, _, rfl⟩
    · simp only [h.len, List.length_append, List.length_cons, List.length_nil]; omega
    · intro i hi
      simp only at hi ⊢
      by_cases hlt : i < t.tab.length
      · rw [List.getElem_append_left hlt]; exact h.at_ i hlt
      · simp only [List.length_append, List.length_cons, List.length_nil] at hi
        have : i = t.tab.length := by omega
        subst this
        rw [List.getElem_append_right (by omega)]
        simp [h.len]
    · rw [List.map_append, List.nodup_append]
      refine ⟨h.keys, by simp, ?_⟩
      intro a ha b' hb
      simp only [List.map_cons, List.map_nil, List.mem_singleton] at hb
      subst hb
      obtain ⟨p, hp, rfl⟩ := List.mem_map.1 ha
      have := hf p hp
      simpa using this

theorem class_image_drop (l : List (ClassInfo × Nat)) (i : Nat) :
    ((l.map fun p => p.1.ser).flatten).drop (4 * i) = ((l.drop i).map fun p => p.1.ser).flatten := by
  induction i generalizing l with
  | zero => simp
  | succ i ih =>
    cases l with
    | nil => simp
    | cons p l =>
      simp only [List.map_cons, List.flatten_cons, List.drop_succ_cons]
      rw [show 4 * (i + 1) = p.1.ser.length + 4 * i by simp [ClassInfo.ser, putword16]; omega]
      rw [← List.drop_drop, List.drop_left, ih]

/-- A registered class stands at its offset in the image. -/
theorem class_record_at {t : ClassTab} (h : ClassInv t) (hlen : t.tab.length ≤ 8192) {c : ClassInfo} {o : Nat}
    (hm : (c, o) ∈ t.tab) : o < 0x8000 ∧ ∃ rest, t.image.drop o = c.ser ++ rest := by
  obtain ⟨i, hi, he⟩ := List.getElem_of_mem hm
  have ho := h.at_ i hi
  rw [he] at ho
  simp only at ho
  have ho' : o = 4 * i := by omega
  refine ⟨by omega, ((t.tab.drop (i + 1)).map fun p => p.1.ser).flatten, ?_⟩
  rw [ho', ClassTab.image, class_image_drop]
  rw [List.drop_eq_getElem_cons hi, he]
  simp

/-! ### The state after the articles -/

/-- How an entry of the dictionary corresponds to its article. -/
structure Resolved (st : EngState) (a : Article) (p : List Byte × Entry) : Prop where
  stem : p.1 = a.lowStem
  id : p.2.nlexid = a.id
  post : p.2.stpost = a.post
  cls : ∃ fx, (⟨a.wdinfo, fx⟩, p.2.oclass) ∈ st.classes.tab ∧
    ((¬ a.Inflected ∧ fx = 0 ∧ p.2.chrmin = 0 ∧ p.2.chrmax = 0) ∨
     (a.Inflected ∧ ∃ t, (a.flex.map engTab.lower, t) ∈ st.box.tabs ∧ fx = t.offset ∧
        p.2.chrmin = t.clower ∧ p.2.chrmax = t.cupper))

structure StateInv (st : EngState) (as : List Article) : Prop where
  box : BoxInv st.box
  classes : ClassInv st.classes
  entries : List.Forall₂ (Resolved st) as st.entries

theorem resolved_mono {st st' : EngState} {a : Article} {p : List Byte × Entry} (h : Resolved st a p)
    (hb : ∀ x ∈ st.box.tabs, x ∈ st'.box.tabs) (hc : ∀ x ∈ st.classes.tab, x ∈ st'.classes.tab) : Resolved st' a p := by
  obtain ⟨h1, h2, h3, fx, h4, h5⟩ := h
  refine ⟨h1, h2, h3, fx, hc _ h4, ?_⟩
  rcases h5 with h5 | ⟨h5, t, h6, h7⟩
  · exact Or.inl h5
  · exact Or.inr ⟨h5, t, hb _ h6, h7⟩

theorem forall₂_snoc {α β : Type} {R : α → β → Prop} {a : List α} {b : List β} {x : α} {y : β}
    (h1 : List.Forall₂ R a b) (h2 : R x y) : List.Forall₂ R (a ++ [x]) (b ++ [y]) := by
  induction h1 with
  | nil => exact List.Forall₂.cons h2 List.Forall₂.nil
  | cons h _ ih => exact List.Forall₂.cons h ih

theorem forall₂_imp {α β : Type} {R S : α → β → Prop} {a : List α} {b : List β}
    (h1 : List.Forall₂ R a b) (h : ∀ x y, R x y → S x y) : List.Forall₂ S a b := by
  induction h1 with
  | nil => exact List.Forall₂.nil
  | cons h' _ ih => exact List.Forall₂.cons (h _ _ h') ih

theorem stateInv_resolve {st : EngState} {as : List Article} (h : StateInv st as) (a : Article) :
    StateInv (st.resolve a) (as ++ [a]) := by
  have hmap : a.flex.map engTab.lower = [] ↔ ¬ a.Inflected := by simp [Article.Inflected]
  simp only [EngState.resolve]
  by_cases hi : a.Inflected
  · have hne : ¬ (a.flex.map engTab.lower = []) := by rw [hmap]; simpa using hi
    simp only [if_neg hne]
    obtain ⟨b1, b2, lb, b3⟩ := boxInv_add h.box (a.flex.map engTab.lower)
    obtain ⟨c1, c2, lc, c3⟩ := classInv_add h.classes ⟨a.wdinfo, (st.box.add (a.flex.map engTab.lower)).2.offset⟩
    refine ⟨b1, c1, ?_⟩
    refine forall₂_snoc (forall₂_imp h.entries fun x y hr => resolved_mono hr ?_ ?_) ?_
    · intro x hx; rw [b3]; simp [hx]
    · intro x hx; rw [c3]; simp [hx]
    · exact ⟨rfl, rfl, rfl, _, c2, Or.inr ⟨hi, _, b2, rfl, rfl, rfl⟩⟩
  · have hne : a.flex.map engTab.lower = [] := hmap.2 hi
    simp only [if_pos hne]
    obtain ⟨c1, c2, lc, c3⟩ := classInv_add h.classes ⟨a.wdinfo, 0⟩
    refine ⟨h.box, c1, ?_⟩
    refine forall₂_snoc (forall₂_imp h.entries fun x y hr => resolved_mono hr ?_ ?_) ?_
    · intro x hx; exact hx
    · intro x hx; rw [c3]; simp [hx]
    · exact ⟨rfl, rfl, rfl, _, c2, Or.inl ⟨hi, rfl, rfl, rfl⟩⟩

theorem stateInv_build (as : List Article) : StateInv (engBuild as) as := by
  have : ∀ (l as0 : List Article) (st : EngState), StateInv st as0 → StateInv (l.foldl EngState.resolve st) (as0 ++ l) := by
    intro l
    induction l with
    | nil => intro as0 st h; simpa using h
    | cons a l ih =>
      intro as0 st h
      have := ih (as0 ++ [a]) _ (stateInv_resolve h a)
      simpa using this
  have := this as [] {} ⟨boxInv_init, classInv_init, List.Forall₂.nil⟩
  simpa [engBuild] using this

theorem forall₂_left {α β : Type} {R : α → β → Prop} {a : List α} {b : List β} (h : List.Forall₂ R a b) :
    ∀ x ∈ a, ∃ y ∈ b, R x y := by
  induction h with
  | nil => simp
  | @cons x y a b h' _ ih =>
    intro z hz
    rcases List.mem_cons.1 hz with rfl | hz
    · exact ⟨y, by simp, h'⟩
    · obtain ⟨w, hw, hr⟩ := ih z hz; exact ⟨w, by simp [hw], hr⟩

theorem forall₂_right {α β : Type} {R : α → β → Prop} {a : List α} {b : List β} (h : List.Forall₂ R a b) :
    ∀ y ∈ b, ∃ x ∈ a, R x y := by
  induction h with
  | nil => simp
  | @cons x y a b h' _ ih =>
    intro z hz
    rcases List.mem_cons.1 hz with rfl | hz
    · exact ⟨x, by simp, h'⟩
    · obtain ⟨w, hw, hr⟩ := ih z hz; exact ⟨w, by simp [hw], hr⟩

end Libmorph
