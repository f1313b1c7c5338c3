import Verif.Lemmas.ClassTable
import Verif.Lemmas.EngView
import Verif.Lemmas.RusTables
import Verif.Spec.Russian
/-
What the Russian compiler leaves behind: every article's entry, class and ending table.
-/
namespace Libmorph

/-! ### The image of ending tables -/

structure PlainInv (ftab : List Byte) (st : RusState) : Prop where
  aligned : st.plain.length % 16 = 0
  start : 16 ≤ st.plain.length
  keys : (st.iplain.map Prod.fst).Nodup
  at_ : ∀ p ∈ st.iplain, p.2 % 16 = 0 ∧ 16 ≤ p.2 ∧ ∃ img pre rest, plainTable ftab p.1 = some img ∧
    st.plain = pre ++ img ++ rest ∧ pre.length = p.2

theorem pad16_length (l : List Byte) : (pad16 l).length = (l.length + 15) / 16 * 16 := by
  simp only [pad16, List.length_append, List.length_replicate]
  omega

/-- The article's reference is replaced. -/
def RusArticle.Mapped (a : RusArticle) : Prop := a.tfoffs ≠ 0 ∧ a.wdinfo ≠ 51

instance rusMappedDec (a : RusArticle) : Decidable a.Mapped := inferInstanceAs (Decidable (_ ∧ _))

theorem mapTables_inv {ftab : List Byte} {st st' : RusState} {a : RusArticle} {c' : RusStem} (h : PlainInv ftab st)
    (hm : st.mapTables ftab ⟨a.wdinfo, a.tfoffs, a.mtoffs⟩ = some (st', c')) :
    PlainInv ftab st' ∧ (∀ p ∈ st.iplain, p ∈ st'.iplain) ∧ st'.classes = st.classes ∧ st'.entries = st.entries ∧
    c'.wdinfo = a.wdinfo ∧ c'.mtoffs = a.mtoffs ∧ (¬ a.Mapped → c'.tfoffs = a.tfoffs) ∧
    (a.Mapped → ∃ off, (a.tfoffs, off) ∈ st'.iplain ∧ c'.tfoffs = (off >>> 4) % 65536) := by
  simp only [RusState.mapTables] at hm
  by_cases hmap : a.Mapped
  · rw [if_pos (show a.tfoffs ≠ 0 ∧ a.wdinfo ≠ 51 from hmap)] at hm
    cases hf : st.iplain.find? (fun p => p.1 = a.tfoffs) with
    | some p =>
      rw [hf] at hm
      simp only [Option.some.injEq, Prod.mk.injEq] at hm
      obtain ⟨rfl, rfl⟩ := hm
      have h1 := List.mem_of_find?_eq_some hf
      have h2 := List.find?_some hf
      simp only [decide_eq_true_eq] at h2
      exact ⟨h, fun _ h => h, rfl, rfl, rfl, rfl, fun hn => absurd hmap hn, fun _ => ⟨p.2, by rw [← h2]; exact h1, rfl⟩⟩
    | none =>
      rw [hf] at hm
      rw [List.find?_eq_none] at hf
      simp only [bind, Option.bind_eq_some_iff, pure, Option.some.injEq, Prod.mk.injEq] at hm
      obtain ⟨img, himg, rfl, rfl⟩ := hm
      refine ⟨⟨?_, ?_, ?_, ?_⟩, fun p hp => by simp [hp], rfl, rfl, rfl, rfl, fun hn => absurd hmap hn,
        fun _ => ⟨st.plain.length, by simp, rfl⟩⟩
      · simp only [pad16_length]; omega
      · simp only [pad16_length, List.length_append]; have := h.start; omega
      · simp only [List.map_append, List.map_cons, List.map_nil]
        rw [List.nodup_append]
        refine ⟨h.keys, by simp, ?_⟩
        intro x hx y hy
        simp only [List.mem_singleton] at hy
        subst hy
        obtain ⟨p, hp, rfl⟩ := List.mem_map.1 hx
        simpa using hf p hp
      · intro p hp
        rcases List.mem_append.1 hp with hp | hp
        · obtain ⟨h1, h2, im, pre, rest, h3, h4, h5⟩ := h.at_ p hp
          refine ⟨h1, h2, im, pre, rest ++ img ++ List.replicate (((st.plain ++ img).length + 15) / 16 * 16 - (st.plain ++ img).length) 0, h3, ?_, h5⟩
          simp only [pad16]
          generalize List.replicate (((st.plain ++ img).length + 15) / 16 * 16 - (st.plain ++ img).length) 0 = z
          rw [h4]
          simp only [List.append_assoc]
        · simp only [List.mem_singleton] at hp
          subst hp
          exact ⟨h.aligned, h.start, img, st.plain, _, himg, rfl, rfl⟩
  · rw [if_neg (show ¬(a.tfoffs ≠ 0 ∧ a.wdinfo ≠ 51) from hmap)] at hm
    simp only [Option.some.injEq, Prod.mk.injEq] at hm
    obtain ⟨rfl, rfl⟩ := hm
    exact ⟨h, fun _ h => h, rfl, rfl, rfl, rfl, fun _ => rfl, fun hn => absurd hn hmap⟩

/-! ### Classes -/

theorem RusStem.ser_length (c : RusStem) : c.ser.length = c.bufLen := by
  simp only [RusStem.ser, RusStem.bufLen, List.length_append]
  split <;> split <;> simp [putword16]

/-! ### Articles -/

structure RusResolved (D : RusDict) (st : RusState) (a : RusArticle) (p : List Byte × Entry) : Prop where
  stem : p.1 = a.stem
  id : p.2.nlexid = a.id
  post : p.2.stpost = a.post
  bounds : rusBounds D.ftab D.mtab a = some (p.2.chrmin, p.2.chrmax)
  cls : ∃ tf, ((⟨a.wdinfo, tf, a.mtoffs⟩ : RusStem), p.2.oclass) ∈ st.classes.clsset ∧
    (¬ a.Mapped → tf = a.tfoffs) ∧ (a.Mapped → ∃ off, (a.tfoffs, off) ∈ st.iplain ∧ tf = (off >>> 4) % 65536)

structure RusInv (D : RusDict) (st : RusState) (as : List RusArticle) : Prop where
  plain : PlainInv D.ftab st
  classes : st.classes.Inv RusStem.ser
  entries : List.Forall₂ (RusResolved D st) as st.entries

theorem rusResolved_mono {D : RusDict} {st st' : RusState} {a : RusArticle} {p : List Byte × Entry} (h : RusResolved D st a p)
    (hb : ∀ x ∈ st.iplain, x ∈ st'.iplain) (hc : ∀ x ∈ st.classes.clsset, x ∈ st'.classes.clsset) : RusResolved D st' a p := by
  obtain ⟨h1, h2, h3, h4, tf, h5, h6, h7⟩ := h
  refine ⟨h1, h2, h3, h4, tf, hc _ h5, h6, fun hm => ?_⟩
  obtain ⟨off, h8, h9⟩ := h7 hm
  exact ⟨off, hb _ h8, h9⟩

theorem rusInv_resolve {D : RusDict} {st st' : RusState} {as : List RusArticle} (h : RusInv D st as) {a : RusArticle}
    (hr : st.resolve D.ftab D.mtab a = some st') : RusInv D st' (as ++ [a]) := by
  simp only [RusState.resolve, bind, Option.bind_eq_some_iff, Prod.exists, pure, Option.some.injEq] at hr
  obtain ⟨lo, hi, hb, st1, c, hm, cl, o, ha, rfl⟩ := hr
  obtain ⟨p1, p2, p3, p4, p5, p6, p7, p8⟩ := mapTables_inv h.plain hm
  have hcl := h.classes
  rw [← p3] at hcl
  obtain ⟨c1, c2, c3⟩ := ClassTable.inv_add RusStem.ser_length hcl ha
  refine ⟨⟨p1.aligned, p1.start, p1.keys, p1.at_⟩, c1, ?_⟩
  simp only [p4]
  refine forall₂_snoc (forall₂_imp h.entries fun x y hr => rusResolved_mono hr p2 ?_) ?_
  · intro x hx; rw [← p3] at hx; exact c3 x hx
  · refine ⟨rfl, rfl, rfl, hb, c.tfoffs, ?_, p7, p8⟩
    simp only
    rw [← p5, ← p6]; exact c2

theorem rusInv_build {D : RusDict} {st : RusState} (h : rusBuild D.ftab D.mtab D.arts = some st) : RusInv D st D.arts := by
  have : ∀ (l as0 : List RusArticle) (st0 st : RusState), RusInv D st0 as0 →
      l.foldlM (RusState.resolve D.ftab D.mtab) st0 = some st → RusInv D st (as0 ++ l) := by
    intro l
    induction l with
    | nil =>
      intro as0 st0 st h h1
      simp only [List.foldlM_nil, pure, Option.some.injEq] at h1
      subst h1; simpa using h
    | cons a l ih =>
      intro as0 st0 st h h1
      simp only [List.foldlM_cons, bind, Option.bind_eq_some_iff] at h1
      obtain ⟨st1, h1, h2⟩ := h1
      have := ih (as0 ++ [a]) _ _ (rusInv_resolve h h1) h2
      simpa using this
  have := this D.arts [] _ st ⟨⟨by decide, by decide, by simp, by simp⟩, ClassTable.inv_init _, List.Forall₂.nil⟩ h
  simpa using this

/-! ### The entry and the stem information of an article -/

/-- The reference of an article after `MapTables`. -/
def RusState.tabFor (st : RusState) (a : RusArticle) : Nat :=
  if a.Mapped then (((st.iplain.find? fun p => p.1 = a.tfoffs).map Prod.snd).getD 0 >>> 4) % 65536 else a.tfoffs

/-- The class of an article. -/
def RusState.classFor (st : RusState) (a : RusArticle) : RusStem := ⟨a.wdinfo, st.tabFor a, a.mtoffs⟩

/-- What the run time loads for it. -/
def RusState.infoFor (st : RusState) (a : RusArticle) : RusStem := ⟨(st.classFor a).stored, st.tabFor a, a.mtoffs⟩

/-- The entry of an article. -/
def RusState.entryFor (D : RusDict) (st : RusState) (a : RusArticle) : Entry :=
  ⟨((rusBounds D.ftab D.mtab a).getD (0, 0)).1, ((rusBounds D.ftab D.mtab a).getD (0, 0)).2, a.id,
   ((st.classes.clsset.find? fun p => p.1 = st.classFor a).map Prod.snd).getD 0, a.post⟩

theorem rusResolved_eq {D : RusDict} {st : RusState} {as : List RusArticle} (hi : RusInv D st as) {a : RusArticle}
    {p : List Byte × Entry} (h : RusResolved D st a p) :
    p = (a.stem, st.entryFor D a) ∧ (st.classFor a, (st.entryFor D a).oclass) ∈ st.classes.clsset ∧
    rusBounds D.ftab D.mtab a = some ((st.entryFor D a).chrmin, (st.entryFor D a).chrmax) ∧
    (a.Mapped → ∃ off, (a.tfoffs, off) ∈ st.iplain ∧ st.tabFor a = (off >>> 4) % 65536) := by
  obtain ⟨h1, h2, h3, h4, tf, h5, h6, h7⟩ := h
  have ht : st.tabFor a = tf := by
    simp only [RusState.tabFor]
    by_cases hm : a.Mapped
    · obtain ⟨off, h8, h9⟩ := h7 hm
      rw [if_pos hm, find_key _ hi.plain.keys h8, h9]; rfl
    · rw [if_neg hm, h6 hm]
  have hcl : st.classFor a = ⟨a.wdinfo, tf, a.mtoffs⟩ := by simp [RusState.classFor, ht]
  have ho : (st.entryFor D a).oclass = p.2.oclass := by
    simp only [RusState.entryFor]
    rw [hcl, find_key _ hi.classes.keys h5]; rfl
  have hb1 : (st.entryFor D a).chrmin = p.2.chrmin := by simp [RusState.entryFor, h4]
  have hb2 : (st.entryFor D a).chrmax = p.2.chrmax := by simp [RusState.entryFor, h4]
  refine ⟨?_, by rw [ho, hcl]; exact h5, by rw [hb1, hb2]; exact h4, fun hm => ?_⟩
  · obtain ⟨k, e⟩ := p
    obtain ⟨c1, c2, c3, c4, c5⟩ := e
    simp only at h1 h2 h3 ho hb1 hb2
    subst h1 h2 h3
    rw [← ho, ← hb1, ← hb2]
    simp [RusState.entryFor]
  · obtain ⟨off, h8, h9⟩ := h7 hm
    exact ⟨off, h8, by rw [ht, h9]⟩

variable {A : List Byte} {D : RusDict} {st : RusState}

theorem RusOk.inv (h : RusOk A D st) : RusInv D st D.arts := rusInv_build h.built

theorem RusOk.entries (h : RusOk A D st) : st.entries = D.arts.map fun a => (a.stem, st.entryFor D a) := by
  have : ∀ (l : List RusArticle) (es : List (List Byte × Entry)), List.Forall₂ (RusResolved D st) l es →
      es = l.map fun a => (a.stem, st.entryFor D a) := by
    intro l es hf
    induction hf with
    | nil => rfl
    | cons h1 _ ih => rw [List.map_cons, ← ih, (rusResolved_eq h.inv h1).1]
  exact this _ _ h.inv.entries

theorem RusOk.resolved (h : RusOk A D st) {a : RusArticle} (ha : a ∈ D.arts) :
    (st.classFor a, (st.entryFor D a).oclass) ∈ st.classes.clsset ∧
    rusBounds D.ftab D.mtab a = some ((st.entryFor D a).chrmin, (st.entryFor D a).chrmax) ∧
    (a.Mapped → ∃ off, (a.tfoffs, off) ∈ st.iplain ∧ st.tabFor a = (off >>> 4) % 65536) := by
  obtain ⟨y, _, hr⟩ := forall₂_left h.inv.entries a ha
  exact (rusResolved_eq h.inv hr).2

theorem rus_class_at (h : RusOk A D st) {a : RusArticle} (ha : a ∈ D.arts) :
    (st.entryFor D a).oclass < 0x8000 ∧
    ∃ rest, (st.classes.image RusStem.ser).drop (st.entryFor D a).oclass = (st.classFor a).ser ++ rest := by
  have hr := (h.resolved ha).1
  have hb := h.inv.classes.below _ hr
  obtain ⟨x, y, h1, h2⟩ := h.inv.classes.at_ _ hr
  simp only at hb h1 h2
  refine ⟨?_, y, ?_⟩
  · have := h.classes
    have hlen : 2 ≤ (st.classFor a).ser.length := by rw [RusStem.ser_length, RusStem.bufLen]; omega
    omega
  · rw [h1, ← h2, List.append_assoc, List.drop_left]

theorem pos_eq (w : Nat) : w &&& 0x3f = w % 64 := by
  rw [show (0x3f : Nat) = 2 ^ 6 - 1 by rfl, Nat.and_two_pow_sub_one_eq_mod]

theorem mapped_iff (h : RusOk A D st) {a : RusArticle} (ha : a ∈ D.arts) : a.Mapped ↔ a.Inflected := by
  simp only [RusArticle.Mapped, RusArticle.Inflected]
  constructor
  · rintro ⟨h1, h2⟩
    exact ⟨h1, fun hp => h2 (h.prepos a ha hp).1⟩
  · rintro ⟨h1, h2⟩
    refine ⟨h1, fun hw => h2 ?_⟩
    rw [RusArticle.pos, hw]

/-- An inflected article's expanded table stands where its reference says. -/
theorem rus_table_at (h : RusOk A D st) {a : RusArticle} (ha : a ∈ D.arts) (hinf : a.Inflected) :
    st.tabFor a ≠ 0 ∧ st.tabFor a < 65536 ∧ ∃ img rest, plainTable D.ftab a.tfoffs = some img ∧ img.length < 2 ^ 20 ∧
      st.plain.drop (st.tabFor a <<< 4) = img ++ rest := by
  obtain ⟨off, h1, h2⟩ := (h.resolved ha).2.2 ((mapped_iff h ha).2 hinf)
  obtain ⟨h3, h4, img, pre, rest, h5, h6, h7⟩ := h.inv.plain.at_ _ h1
  simp only at h3 h4 h5 h6 h7
  have hp := h.plain
  have hl : off + img.length ≤ st.plain.length := by
    rw [h6, List.length_append, List.length_append]; omega
  have he : st.tabFor a = off / 16 := by
    rw [h2, Nat.shiftRight_eq_div_pow]
    exact Nat.mod_eq_of_lt (by omega)
  refine ⟨by omega, by omega, img, rest, h5, by omega, ?_⟩
  rw [he, Nat.shiftLeft_eq, show off / 16 * 2 ^ 4 = pre.length by omega, h6, List.append_assoc, List.drop_left]

end Libmorph
