import Verif.Lemmas.ScanTables
import Verif.Lemmas.Hits
import Mathlib.Data.List.Sort
/-
From the images back to the articles.
-/
namespace Libmorph
variable {σ ρ : Type}

/-! ### The entry and the stem information of an article -/

/-- The ending table registered for an article. -/
def EngState.tableFor (st : EngState) (a : Article) : FTable :=
  if a.Inflected then ((st.box.tabs.find? fun p => p.1 = a.flex.map engTab.lower).map Prod.snd).getD {}
  else { offset := 0, clower := 0, cupper := 0, items := [] }

def EngState.infoFor (st : EngState) (a : Article) : StemInfo := ⟨a.wdinfo, (st.tableFor a).offset⟩

def EngState.entryFor (st : EngState) (a : Article) : Entry :=
  ⟨(st.tableFor a).clower, (st.tableFor a).cupper, a.id,
   ((st.classes.tab.find? fun p => p.1 = ⟨a.wdinfo, (st.tableFor a).offset⟩).map Prod.snd).getD 0, a.post⟩

theorem find_key {α β : Type} [DecidableEq α] (l : List (α × β)) (h : (l.map Prod.fst).Nodup) {k : α} {v : β} (hm : (k, v) ∈ l) :
    l.find? (fun p => p.1 = k) = some (k, v) := by
  induction l with
  | nil => simp at hm
  | cons p l ih =>
    simp only [List.map_cons, List.nodup_cons] at h
    rcases List.mem_cons.1 hm with rfl | hm
    · simp
    · rw [List.find?_cons]
      have : p.1 ≠ k := by
        rintro rfl
        exact h.1 (List.mem_map.2 ⟨_, hm, rfl⟩)
      simp only [this, decide_false]
      exact ih h.2 hm

theorem resolved_eq {st : EngState} (hb : BoxInv st.box) (hc : ClassInv st.classes) {a : Article} {p : List Byte × Entry}
    (h : Resolved st a p) : p = (a.lowStem, st.entryFor a) ∧
      ((⟨a.wdinfo, (st.tableFor a).offset⟩, (st.entryFor a).oclass) ∈ st.classes.tab) ∧
      (a.Inflected → (a.flex.map engTab.lower, st.tableFor a) ∈ st.box.tabs) := by
  obtain ⟨h1, h2, h3, fx, h4, h5⟩ := h
  have ht : fx = (st.tableFor a).offset ∧ p.2.chrmin = (st.tableFor a).clower ∧ p.2.chrmax = (st.tableFor a).cupper ∧
      (a.Inflected → (a.flex.map engTab.lower, st.tableFor a) ∈ st.box.tabs) := by
    rcases h5 with ⟨h5, h6, h7, h8⟩ | ⟨h5, t, h6, h7, h8, h9⟩
    · simp only [EngState.tableFor, if_neg h5]
      exact ⟨h6, h7, h8, fun hi => absurd hi h5⟩
    · have : st.tableFor a = t := by
        simp only [EngState.tableFor, if_pos h5]
        rw [find_key _ hb.keys h6]; rfl
      rw [this]
      exact ⟨h7, h8, h9, fun _ => h6⟩
  obtain ⟨e1, e2, e3, e4⟩ := ht
  subst e1
  have ho : (st.entryFor a).oclass = p.2.oclass := by
    simp only [EngState.entryFor]
    rw [find_key _ hc.keys h4]; rfl
  refine ⟨?_, by rw [ho]; exact h4, e4⟩
  obtain ⟨k, e⟩ := p
  obtain ⟨c1, c2, c3, c4, c5⟩ := e
  simp only at h1 h2 h3 e2 e3 ho
  subst h1 h2 h3 e2 e3
  rw [← ho]
  simp [EngState.entryFor]

theorem engBuild_entries (as : List Article) :
    (engBuild as).entries = as.map fun a => (a.lowStem, (engBuild as).entryFor a) := by
  have h := stateInv_build as
  have : ∀ (l : List Article) (es : List (List Byte × Entry)), List.Forall₂ (Resolved (engBuild as)) l es →
      es = l.map fun a => (a.lowStem, (engBuild as).entryFor a) := by
    intro l es hf
    induction hf with
    | nil => rfl
    | cons h1 _ ih => rw [List.map_cons, ← ih, (resolved_eq h.box h.classes h1).1]
  exact this _ _ h.entries

theorem engBuild_resolved (as : List Article) {a : Article} (ha : a ∈ as) :
    ((⟨a.wdinfo, ((engBuild as).tableFor a).offset⟩, ((engBuild as).entryFor a).oclass) ∈ (engBuild as).classes.tab) ∧
      (a.Inflected → (a.flex.map engTab.lower, (engBuild as).tableFor a) ∈ (engBuild as).box.tabs) := by
  have h := stateInv_build as
  obtain ⟨y, _, hr⟩ := forall₂_left h.entries a ha
  exact (resolved_eq h.box h.classes hr).2

/-! ### Consequences of the limits -/

theorem capType_le (s : List Byte) : capType s ≤ 2 := by
  simp only [capType]; split <;> (try split) <;> omega

theorem isCapitalEng_eq (b : Byte) : isCapitalEng b = takenForCapital b := by
  by_cases h : 128 ≤ b
  · simp [isCapitalEng, takenForCapital, h]; omega
  · have : ∀ b < 128, isCapitalEng b = takenForCapital b := by decide +kernel
    exact this b (by omega)

theorem demand_eq (a : Article) : a.demand = capType a.stem := by
  rcases a with ⟨stem, flex, pos, post, id⟩
  rcases stem with _ | ⟨b, _ | ⟨c, t⟩⟩
  · rfl
  · have : isCapitalEng 0 = false := by decide
    simp [Article.demand, capType, isCapitalEng_eq, show takenForCapital 0 = false from rfl]
  · simp [Article.demand, capType, isCapitalEng_eq]

theorem wdinfo_value (a : Article) (hp : a.pos < 0x40) : a.wdinfo = a.pos + 128 * a.demand := by
  have h1 : a.pos ||| 0x80 = a.pos + 128 := by
    rw [Nat.or_comm]
    have := Nat.two_pow_add_eq_or_of_lt (i := 7) (b := a.pos) (by omega) 1
    rw [show 2 ^ 7 * 1 = 0x80 by rfl] at this; omega
  have h2 : a.pos ||| 0x100 = a.pos + 256 := by
    rw [Nat.or_comm]
    have := Nat.two_pow_add_eq_or_of_lt (i := 8) (b := a.pos) (by omega) 1
    rw [show 2 ^ 8 * 1 = 0x100 by rfl] at this; omega
  have := capType_le a.stem
  simp only [Article.wdinfo, demand_eq]
  have hc : capType a.stem = 0 ∨ capType a.stem = 1 ∨ capType a.stem = 2 := by omega
  rcases hc with h | h | h <;> rw [h] <;> simp only
  · omega
  · rw [h1]
  · rw [h2]

theorem demand_le (a : Article) : a.demand ≤ 2 := by rw [demand_eq]; exact capType_le _

theorem minCap_value (a : Article) (hp : a.pos < 0x40) (fx : Nat) : StemInfo.minCap ⟨a.wdinfo, fx⟩ = a.demand := by
  have := demand_le a
  simp only [StemInfo.minCap, wdinfo_value a hp]
  rw [show (3 : Nat) = 2 ^ 2 - 1 by rfl, Nat.and_two_pow_sub_one_eq_mod, Nat.shiftRight_eq_div_pow]
  omega

theorem wdinfo_and_7f (a : Article) (hp : a.pos < 0x40) : a.wdinfo &&& 0x7f = a.pos := by
  rw [wdinfo_value a hp, show (0x7f : Nat) = 2 ^ 7 - 1 by rfl, Nat.and_two_pow_sub_one_eq_mod]; omega

theorem wdinfo_and_3f (a : Article) (hp : a.pos < 0x40) : a.wdinfo &&& 0x3f = a.pos := by
  rw [wdinfo_value a hp, show (0x3f : Nat) = 2 ^ 6 - 1 by rfl, Nat.and_two_pow_sub_one_eq_mod]; omega

theorem box_image_length (b : FlexBox) : b.image.length = 4 + tabsLen b.tabs := by
  rw [FlexBox.image, List.length_append, tabs_ser_length]; rfl

theorem EngOk.dict {A : List Byte} {as : List Article} (h : EngOk A as) : DictOk A (engBuild as).entries := by
  have he := engBuild_entries as
  have hm : ∀ p ∈ (engBuild as).entries, ∃ a ∈ as, p = (a.lowStem, (engBuild as).entryFor a) := by
    intro p hp; rw [he] at hp
    obtain ⟨a, ha, rfl⟩ := List.mem_map.1 hp
    exact ⟨a, ha, rfl⟩
  refine ⟨h.alpha, h.letters, ?_, ?_, ?_, ?_, ?_, ?_, h.size⟩
  · intro p hp; obtain ⟨a, ha, rfl⟩ := hm p hp; exact h.stems a ha
  · intro p hp; obtain ⟨a, ha, rfl⟩ := hm p hp; simpa [Article.lowStem] using h.short a ha
  · intro p hp; obtain ⟨a, ha, rfl⟩ := hm p hp; exact h.ids a ha
  · intro p hp; obtain ⟨a, ha, rfl⟩ := hm p hp
    exact (class_record_at (stateInv_build as).classes h.classes (engBuild_resolved as ha).1).1
  · intro p hp; obtain ⟨a, ha, rfl⟩ := hm p hp; exact h.posts a ha
  · rw [he, List.length_map]; exact h.count

theorem loadStem_ser (wd fx o : Nat) (classmap rest : List Byte) (h1 : wd < 65536) (h2 : fx < 65536)
    (h : classmap.drop o = ClassInfo.ser ⟨wd, fx⟩ ++ rest) : loadStem classmap o = some ⟨wd, fx⟩ := by
  simp only [loadStem, h, ClassInfo.ser, List.append_assoc, getword16_putword16 h1, getword16_putword16 h2, bind, Option.bind, pure]

/-- What the run time finds in the class and ending images for an article. -/
structure Loads (im : Images) (a : Article) (st : StemInfo) (t : FTable) : Prop where
  wdinfo : st.wdinfo = a.wdinfo
  plain : ¬ a.Inflected → st.tfoffs = 0
  table : a.Inflected → st.tfoffs ≠ 0 ∧ ∃ rest, im.flexTree.drop st.tfoffs = t.ser ++ rest
  tableOf : a.Inflected → TableOf a.endings t

theorem EngOk.loads {A : List Byte} {as : List Article} (h : EngOk A as) {a : Article} (ha : a ∈ as) :
    loadStem (engBuild as).images.classmap ((engBuild as).entryFor a).oclass = some ((engBuild as).infoFor a) ∧
    Loads (engBuild as).images a ((engBuild as).infoFor a) ((engBuild as).tableFor a) := by
  have hi := stateInv_build as
  obtain ⟨r1, r2⟩ := engBuild_resolved as ha
  obtain ⟨c1, rest, c2⟩ := class_record_at hi.classes h.classes r1
  have hp := h.pos a ha
  have hd := demand_le a
  have hw := wdinfo_value a hp
  have hlen : 4 + tabsLen (engBuild as).box.tabs < 65536 := by rw [← box_image_length]; exact h.flexes
  have hoff : ((engBuild as).tableFor a).offset < 65536 := by
    by_cases hinf : a.Inflected
    · exact (box_table_at hi.box hlen (r2 hinf)).2.2.2.2.1
    · simp [EngState.tableFor, hinf]
  refine ⟨loadStem_ser _ _ _ _ rest (by omega) hoff c2, rfl, ?_, ?_, ?_⟩
  · intro hinf; simp [EngState.infoFor, EngState.tableFor, hinf]
  · intro hinf
    obtain ⟨-, -, -, b4, -, b5⟩ := box_table_at hi.box hlen (r2 hinf)
    refine ⟨?_, b5⟩
    simp only [EngState.infoFor]; omega
  · intro hinf
    obtain ⟨b1, b2, b3, -⟩ := box_table_at hi.box hlen (r2 hinf)
    have := parseTable_tableOf (a.flex.map engTab.lower)
    simp only [Article.endings, if_pos hinf]
    exact ⟨by rw [b1]; exact this.perm, by rw [b1]; exact this.sorted, by rw [b2, b3]; exact this.bounds⟩

/-- The form ids filed under an ending, as read off the sorted table. -/
theorem idsOf_table {A : List Byte} {as : List Article} (h : EngOk A as) {a : Article} (ha : a ∈ as) {t : FTable}
    (ht : TableOf a.endings t) (e : List Byte) :
    (t.items.filter fun x => x.szflex = e).map Flex.idform = a.idsOf e := by
  have hends := h.ends a ha
  have hp : ((t.items.filter fun x => x.szflex = e).map Flex.idform).Perm
      ((a.endings.filter fun p => p.1 = e).map Prod.snd) := by
    refine ((ht.perm.filter _).map _).trans ?_
    rw [List.filter_map, List.map_map]
    apply List.Perm.of_eq
    have : ((fun x : Flex => decide (x.szflex = e)) ∘ fun p : List Byte × Nat => (⟨p.1, p.2 % 256⟩ : Flex))
        = fun p => decide (p.1 = e) := rfl
    rw [this]
    apply List.map_congr_left
    intro p hp
    have := hends p (List.mem_of_mem_filter hp)
    simp only [Function.comp]; omega
  have hsort : ((t.items.filter fun x => x.szflex = e).map Flex.idform).Pairwise (· ≤ ·) := by
    rw [List.pairwise_map]
    have := ht.sorted.filter (fun x => decide (x.szflex = e))
    refine this.imp_of_mem ?_
    intro x y hx hy hle
    simp only [List.mem_filter, decide_eq_true_eq] at hx hy
    simp only [Flex.le, Flex.lt, hx.2, hy.2, ne_eq, not_true_eq_false, if_false, decide_eq_false_iff_not] at hle
    omega
  have hs2 : (a.idsOf e).Pairwise (· ≤ ·) := by
    simp only [Article.idsOf]
    have := List.pairwise_mergeSort (le := fun (x y : Nat) => decide (x ≤ y))
      (by simp; omega) (by simp; omega) ((a.endings.filter fun p => p.1 = e).map Prod.snd)
    simpa using this
  have hp2 : (a.idsOf e).Perm ((a.endings.filter fun p => p.1 = e).map Prod.snd) := List.mergeSort_perm _ _
  exact (hp.trans hp2.symm).eq_of_pairwise (fun x y _ _ h1 h2 => Nat.le_antisymm h1 h2) hsort hs2

theorem mem_idsOf {a : Article} {e : List Byte} {i : Nat} : i ∈ a.idsOf e ↔ (e, i) ∈ a.endings := by
  simp only [Article.idsOf, List.mem_mergeSort, List.mem_map, List.mem_filter, decide_eq_true_eq]
  constructor
  · rintro ⟨⟨x, j⟩, ⟨h1, h2⟩, h3⟩
    simp only at h2 h3; subst h2 h3; exact h1
  · intro h; exact ⟨(e, i), ⟨h, rfl⟩, rfl⟩

end Libmorph
