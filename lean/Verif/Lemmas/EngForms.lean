import Verif.Lemmas.EngScan
import Verif.Props.C15
/-
Building forms: the ending tables, the capitalization, the caller's buffer.
-/
namespace Libmorph

theorem packed_cons (f : List Byte) (fs : List (List Byte)) : packed (f :: fs) = f ++ 0 :: packed fs := by
  simp [packed]

theorem packed_append (fs gs : List (List Byte)) : packed (fs ++ gs) = packed fs ++ packed gs := by
  simp [packed]

theorem packed_nil : packed [] = [] := rfl

/-- The four appends of one form. -/
theorem coll4 (cap : Nat) (out a b c : List Byte) :
    ((((collAppend cap out a).bind fun o => collAppend cap o b).bind fun o => collAppend cap o c).bind
      fun o => collAppend cap o [0])
      = if out.length + ((a ++ b ++ c).length + 1) ≤ cap then some (out ++ (a ++ b ++ c ++ [0])) else none := by
  simp only [collAppend]
  repeat' split
  all_goals (try simp only [Option.bind_some, Option.bind_none, List.length_append, List.length_singleton] at *)
  all_goals (repeat' split)
  all_goals (try simp only [Option.bind_some, Option.bind_none, List.length_append, List.length_singleton] at *)
  all_goals (repeat' split)
  all_goals (try simp only [Option.bind_some, Option.bind_none, List.length_append, List.length_singleton] at *)
  all_goals (repeat' split)
  all_goals (try simp only [List.length_append, List.length_singleton] at *)
  all_goals (try omega)
  all_goals simp

/-- The forms a table gives for a form number, in table order. -/
def tableForms (pre suf : List Byte) (items : List Flex) (i : Nat) : List (List Byte) :=
  (items.filter fun x => x.idform = i).map fun x => pre ++ x.szflex ++ suf

theorem getFlexLoop_eq (cap : Nat) (pre suf : List Byte) (i : Nat) (tl : List Byte) (items : List Flex)
    (hlen : ∀ x ∈ items, x.szflex.length < 256) (out : List Byte) (nt : Int) :
    (out.length + (packed (tableForms pre suf items i)).length ≤ cap →
      getFlexLoop cap pre suf i items.length ((items.map Flex.ser).flatten ++ tl) out nt
        = some (nt + (tableForms pre suf items i).length, out ++ packed (tableForms pre suf items i))) ∧
    (cap < out.length + (packed (tableForms pre suf items i)).length → tableForms pre suf items i ≠ [] →
      ∃ o, getFlexLoop cap pre suf i items.length ((items.map Flex.ser).flatten ++ tl) out nt = some (-1, o)) := by
  induction items generalizing out nt with
  | nil =>
    refine ⟨fun _ => ?_, fun _ h => absurd rfl h⟩
    simp [getFlexLoop, tableForms, packed]
  | cons x items ih =>
    have ih := ih (fun y hy => hlen y (by simp [hy]))
    have hx := hlen x (by simp)
    have hread : ((x :: items).map Flex.ser).flatten ++ tl
        = x.idform :: x.szflex.length :: (x.szflex ++ ((items.map Flex.ser).flatten ++ tl)) := by
      simp [Flex.ser, Nat.mod_eq_of_lt hx]
    rw [hread]
    simp only [List.length_cons, getFlexLoop, getbyte, bind, Option.bind_some, List.drop_left]
    by_cases hi : x.idform = i
    · have htf : tableForms pre suf (x :: items) i = (pre ++ x.szflex ++ suf) :: tableForms pre suf items i := by
        simp [tableForms, hi]
      rw [if_neg (by simpa using hi), if_neg (by simp), List.take_left, coll4, htf, packed_cons]
      simp only [List.length_append, List.length_cons]
      constructor
      · intro hfit
        rw [if_pos (by omega)]
        have := (ih (out ++ (pre ++ x.szflex ++ suf ++ [0])) (nt + 1)).1 (by
          simp only [List.length_append, List.length_cons, List.length_nil]; omega)
        simp only [this]
        simp only [List.append_assoc, List.cons_append, List.nil_append, Option.some.injEq, Prod.mk.injEq, and_true]
        push_cast; omega
      · intro hbig _
        by_cases h1 : out.length + (pre.length + x.szflex.length + suf.length + 1) ≤ cap
        · rw [if_pos h1]
          by_cases hne : tableForms pre suf items i = []
          · rw [hne] at hbig; simp [packed] at hbig; omega
          · exact (ih _ _).2 (by simp only [List.length_append, List.length_cons, List.length_nil]; omega) hne
        · rw [if_neg h1]; exact ⟨_, rfl⟩
    · have htf : tableForms pre suf (x :: items) i = tableForms pre suf items i := by
        simp [tableForms, hi]
      rw [if_pos hi, htf]
      exact ih out nt

theorem bytesLt_tri (a b : List Byte) : bytesLt a b = true ∨ bytesLt b a = true ∨ a = b := by
  cases h1 : bytesLt a b with
  | true => exact Or.inl rfl
  | false =>
    cases h2 : bytesLt b a with
    | true => exact Or.inr (Or.inl rfl)
    | false => exact Or.inr (Or.inr (bytesLt_total h1 h2))

theorem bytesLe_trans {a b c : List Byte} (h1 : (!bytesLt b a) = true) (h2 : (!bytesLt c b) = true) :
    (!bytesLt c a) = true := by
  simp only [Bool.not_eq_true'] at *
  by_contra h
  have h : bytesLt c a = true := by simpa using h
  rcases bytesLt_tri a b with h3 | h3 | h3
  · rw [bytesLt_trans h h3] at h2; simp at h2
  · rw [h3] at h1; simp at h1
  · subst h3; rw [h] at h2; simp at h2

theorem bytesLe_antisymm {a b : List Byte} (h1 : (!bytesLt b a) = true) (h2 : (!bytesLt a b) = true) : a = b := by
  simp only [Bool.not_eq_true'] at *
  rcases bytesLt_tri a b with h3 | h3 | h3
  · rw [h3] at h2; simp at h2
  · rw [h3] at h1; simp at h1
  · exact h3

theorem tableForms_article {A : List Byte} {as : List Article} (h : EngOk A as) {a : Article} (ha : a ∈ as) {t : FTable}
    (ht : TableOf a.endings t) (i : Nat) : tableForms a.lowStem a.post t.items i = a.formsWith i := by
  have hends := h.ends a ha
  have hp : ((t.items.filter fun x => x.idform = i).map Flex.szflex).Perm
      ((a.endings.filter fun p => p.2 = i).map Prod.fst) := by
    refine ((ht.perm.filter _).map _).trans ?_
    rw [List.filter_map, List.map_map]
    apply List.Perm.of_eq
    have : (a.endings.filter ((fun x : Flex => decide (x.idform = i)) ∘ fun p : List Byte × Nat => (⟨p.1, p.2 % 256⟩ : Flex)))
        = a.endings.filter fun p => decide (p.2 = i) := by
      apply List.filter_congr
      intro p hp
      have := hends p hp
      simp only [Function.comp, Nat.mod_eq_of_lt this.2]
    rw [this]; rfl
  have hsort : ((t.items.filter fun x => x.idform = i).map Flex.szflex).Pairwise (fun x y => (!bytesLt y x) = true) := by
    rw [List.pairwise_map]
    refine (ht.sorted.filter _).imp_of_mem ?_
    intro x y hx hy hle
    simp only [Bool.not_eq_true']
    simp only [Flex.le] at hle
    by_contra hc
    have hc : bytesLt y.szflex x.szflex = true := by simpa using hc
    rw [Flex.lt_of_bytesLt hc] at hle; simp at hle
  have hs2 : (a.endingsFor i).Pairwise (fun x y => (!bytesLt y x) = true) := by
    simp only [Article.endingsFor]
    exact List.pairwise_mergeSort (le := fun x y => !bytesLt y x)
      (fun x y z h1 h2 => bytesLe_trans h1 h2)
      (fun x y => by
        rcases bytesLt_tri x y with h3 | h3 | h3
        · have : bytesLt y x = false := by
            by_contra hc
            have hc : bytesLt y x = true := by simpa using hc
            have := bytesLt_trans h3 hc
            rw [bytesLt_irrefl] at this; simp at this
          simp [this]
        · have : bytesLt x y = false := by
            by_contra hc
            have hc : bytesLt x y = true := by simpa using hc
            have := bytesLt_trans h3 hc
            rw [bytesLt_irrefl] at this; simp at this
          simp [this]
        · subst h3; simp [bytesLt_irrefl]) _
  have hp2 : (a.endingsFor i).Perm ((a.endings.filter fun p => p.2 = i).map Prod.fst) := List.mergeSort_perm _ _
  have := (hp.trans hp2.symm).eq_of_pairwise (fun x y _ _ h1 h2 => bytesLe_antisymm h1 h2) hsort hs2
  rw [tableForms, Article.formsWith, ← this, List.map_map]
  rfl

/-- The forms the library builds for a form number; 255 stands for "not inflected".  An uninflected
article is built without its suffix (buildform.cpp:82-83). -/
def Article.built (a : Article) (i : Nat) : List (List Byte) :=
  if a.Inflected then a.formsWith i else [a.lowStem]

theorem getWordForms_article {A : List Byte} {as : List Article} (h : EngOk A as) {a : Article} (ha : a ∈ as) (i : Nat) :
    ((packed (a.built i)).length ≤ 256 →
      getWordForms (engBuild as).images.flexTree 256 a.lowStem a.post ((engBuild as).infoFor a) i []
        = some (((a.built i).length : Int), packed (a.built i))) ∧
    (256 < (packed (a.built i)).length →
      ∃ o, getWordForms (engBuild as).images.flexTree 256 a.lowStem a.post ((engBuild as).infoFor a) i [] = some (-1, o)) := by
  obtain ⟨l1, l2⟩ := h.loads ha
  by_cases hinf : a.Inflected
  · obtain ⟨t1, rest, t2⟩ := l2.table hinf
    have ht := l2.tableOf hinf
    have hb : a.built i = tableForms a.lowStem a.post ((engBuild as).tableFor a).items i := by
      rw [Article.built, if_pos hinf, tableForms_article h ha ht]
    have hn : ((engBuild as).tableFor a).items.length < 256 := by
      rw [ht.perm.length_eq, List.length_map]; exact h.few a ha
    have := getFlexLoop_eq 256 a.lowStem a.post i rest ((engBuild as).tableFor a).items (by
      intro x hx
      obtain ⟨p, hp, rfl⟩ := List.mem_map.1 (ht.perm.mem_iff.1 hx)
      exact (h.ends a ha p hp).1) [] 0
    simp only [getWordForms, StemInfo.flexTable, if_pos t1, t2, FTable.ser, List.cons_append, getbyte, bind,
      Option.bind_some, Nat.mod_eq_of_lt hn, hb]
    refine ⟨fun hf => ?_, fun hf => ?_⟩
    · rw [this.1 (by simpa using hf)]; simp
    · refine this.2 (by simpa using hf) ?_
      intro h0; rw [h0] at hf; simp [packed] at hf
  · have hz : ((engBuild as).infoFor a).tfoffs = 0 := l2.plain hinf
    simp only [getWordForms, StemInfo.flexTable, hz, ne_eq, not_true_eq_false, if_false, Article.built, if_neg hinf,
      packed_cons, packed_nil, collAppend]
    simp only [List.length_append, List.length_cons, List.length_nil, List.nil_append]
    refine ⟨fun hf => ?_, fun hf => ?_⟩
    · rw [if_neg (by omega)]
      simp only [Option.bind_some, Nat.zero_add]
      rw [if_neg (by omega)]; rfl
    · by_cases h1 : a.lowStem.length > 256
      · rw [if_pos (by omega)]; exact ⟨_, rfl⟩
      · rw [if_neg (by omega)]
        simp only [Option.bind_some, Nat.zero_add]
        rw [if_pos (by omega)]; exact ⟨_, rfl⟩

/-! ### Bytes of the text -/

theorem engLower_byte : ∀ b, b < 256 → 0 < b → 0 < engTab.lower b ∧ engTab.lower b < 256 := by decide +kernel

theorem splitBy_mem {sep : Byte} {s p : List Byte} (hp : p ∈ splitBy sep s) : ∀ b ∈ p, b ∈ s := by
  induction s generalizing p with
  | nil => simp [splitBy] at hp; subst hp; simp
  | cons c s ih =>
    intro b hb
    simp only [splitBy] at hp
    split at hp
    · rcases List.mem_cons.1 hp with rfl | hp
      · simp at hb
      · exact List.mem_cons_of_mem _ (ih hp b hb)
    · cases hsp : splitBy sep s with
      | nil => rw [hsp] at hp; simp at hp; subst hp; simp at hb; simp [hb]
      | cons q qs =>
        rw [hsp] at hp ih
        rcases List.mem_cons.1 hp with rfl | hp
        · rcases List.mem_cons.1 hb with rfl | hb
          · simp
          · exact List.mem_cons_of_mem _ (ih (by simp) b hb)
        · exact List.mem_cons_of_mem _ (ih (List.mem_cons_of_mem _ hp) b hb)

theorem altsOf_mem {f e : List Byte} (he : e ∈ altsOf f) : ∀ b ∈ e, b ∈ f := by
  intro b hb
  simp only [altsOf, List.mem_map] at he
  obtain ⟨t, ht, rfl⟩ := he
  have ht : t ∈ splitBy 47 f := by
    split at ht
    · exact List.dropLast_subset _ ht
    · exact ht
  split at hb
  · simp at hb
  · exact splitBy_mem ht b hb

theorem flexionsFrom_mem {i : Nat} {l : List (List Byte)} {p : List Byte × Nat} (hp : p ∈ flexionsFrom i l) :
    ∀ b ∈ p.1, ∃ f ∈ l, b ∈ f := by
  induction l generalizing i with
  | nil => simp [flexionsFrom] at hp
  | cons f l ih =>
    intro b hb
    simp only [flexionsFrom, List.mem_append] at hp
    rcases hp with hp | hp
    · split at hp
      · simp at hp
      · obtain ⟨e, he, rfl⟩ := List.mem_map.1 hp
        exact ⟨f, by simp, altsOf_mem he b hb⟩
    · obtain ⟨g, hg, hbg⟩ := ih hp b hb
      exact ⟨g, by simp [hg], hbg⟩

/-- A form text: bytes other than zero. -/
def Text (f : List Byte) : Prop := ∀ b ∈ f, b ≠ 0 ∧ b < 256

theorem EngOk.endText {A : List Byte} {as : List Article} (h : EngOk A as) {a : Article} (ha : a ∈ as)
    {p : List Byte × Nat} (hp : p ∈ a.endings) : Text p.1 := by
  intro b hb
  simp only [Article.endings] at hp
  split at hp
  · simp only [flexionsOf] at hp
    obtain ⟨f, hf, hbf⟩ := flexionsFrom_mem hp b hb
    have := splitBy_mem hf b hbf
    have : b ∈ a.flex.map engTab.lower := by
      split at this
      · exact List.mem_of_mem_drop this
      · exact this
    obtain ⟨c, hc, rfl⟩ := List.mem_map.1 this
    have hc := h.text a ha c (by simp [hc])
    have := engLower_byte c hc.2 hc.1
    omega
  · simp at hp

theorem EngOk.stemText {A : List Byte} {as : List Article} (h : EngOk A as) {a : Article} (ha : a ∈ as) :
    Text a.lowStem := by
  intro b hb
  have := h.letters b (h.stems a ha b hb)
  omega

theorem EngOk.postText {A : List Byte} {as : List Article} (h : EngOk A as) {a : Article} (ha : a ∈ as) :
    Text a.post := by
  intro b hb
  have := h.text a ha b (by simp [hb])
  omega

theorem mem_endingsFor {a : Article} {i : Nat} {e : List Byte} : e ∈ a.endingsFor i ↔ (e, i) ∈ a.endings := by
  simp only [Article.endingsFor, List.mem_mergeSort, List.mem_map, List.mem_filter, decide_eq_true_eq]
  constructor
  · rintro ⟨⟨x, j⟩, ⟨h1, h2⟩, h3⟩
    simp only at h2 h3; subst h2 h3; exact h1
  · intro h; exact ⟨(e, i), ⟨h, rfl⟩, rfl⟩

theorem EngOk.builtText {A : List Byte} {as : List Article} (h : EngOk A as) {a : Article} (ha : a ∈ as) (i : Nat) :
    ∀ f ∈ a.built i, Text f := by
  intro f hf
  simp only [Article.built] at hf
  split at hf
  · simp only [Article.formsWith, List.mem_map] at hf
    obtain ⟨e, he, rfl⟩ := hf
    intro b hb
    simp only [List.mem_append] at hb
    rcases hb with (hb | hb) | hb
    · exact h.stemText ha b hb
    · exact h.endText ha (mem_endingsFor.1 he) b hb
    · exact h.postText ha b hb
  · simp at hf; subst hf; exact h.stemText ha

/-! ### Capitalization of a form -/

theorem eng_dlm : ∀ c, c < 256 → c ≠ 0 → engTab.ctype c = ctDlm → c = 45 := by decide +kernel

theorem engUpper_byte : ∀ a, a < 256 → engTab.ctype a ≠ ctDlm → engTab.upper a ≠ 0 ∧ engTab.upper a < 256 := by
  decide +kernel

theorem join_parts (w : List Byte) (hw : Text w) : joinParts 45 (wordParts engTab w) = w := by
  induction w with
  | nil => rfl
  | cons c w ih =>
    have ih := ih (fun b hb => hw b (by simp [hb]))
    have hc := hw c (by simp)
    simp only [wordParts]
    have hne := wordParts_ne engTab w
    generalize wordParts engTab w = ps at ih hne
    split
    · rename_i hd
      rw [eng_dlm c hc.2 hc.1 hd]
      cases ps with
      | nil => exact absurd rfl hne
      | cons p ps => rw [joinParts, ih]; · rfl
                     · simp
    · cases ps with
      | nil => exact absurd rfl hne
      | cons p ps =>
        cases ps with
        | nil => simp [joinParts] at ih ⊢; exact ih
        | cons q ps => simp [joinParts] at ih ⊢; exact ih

theorem capSet_printed (w tail : List Byte) (d : Nat) (hd : d ≤ 2) (hw : Text w) :
    capSet engTab (w ++ 0 :: tail) w.length d = some (printed d w ++ 0 :: tail) ∧ (printed d w).length = w.length := by
  obtain ⟨w1, h1, h2, h3⟩ := C16_parts engTab engTab_ok engTab_upOk w tail d hd hw
  obtain ⟨w2, h4, h5⟩ := C16_only_case engTab engTab_ok engTab_upOk w tail d hw
  have he : w1 = w2 := by
    rw [h1] at h4
    simpa using h4
  subst he
  have ht : Text w1 := by
    clear h1 h2 h3 h4
    induction h5 with
    | nil => intro b hb; simp at hb
    | @cons a b l1 l2 hab _ ih =>
      intro c hc
      rcases List.mem_cons.1 hc with rfl | hc
      · have ha := hw a (by simp)
        rcases hab with rfl | ⟨h6, rfl⟩
        · exact ha
        · exact engUpper_byte a ha.2 h6
      · exact ih (fun b hb => hw b (by simp [hb])) c hc
  have : printed d w = w1 := by
    simp only [printed, ← h3]
    exact join_parts w1 ht
  rw [this]
  exact ⟨h1, h2⟩

theorem strLen_text (w tail : List Byte) (hw : Text w) : strLen (w ++ 0 :: tail) = some w.length := by
  rw [strLen, if_pos (by simp)]
  congr 2
  rw [List.takeWhile_append_of_pos]
  · simp
  · intro b hb; simpa using (hw b hb).1

/-! ### The caller's buffer -/

/-- A buffer `B` that has been filled with `x`: a zero follows once something has been written, and what
is beyond is unchanged. -/
structure Coder.Holds (c : Coder) (B x : List Byte) : Prop where
  pos : c.pos = x.length
  room : x.length ≤ B.length
  buf : (x = [] ∧ c.buf = some B) ∨ (x ≠ [] ∧ x.length < B.length ∧ c.buf = some (x ++ 0 :: B.drop (x.length + 1)))

theorem pokes_eq (x y B p : List Byte) (h : y.length = B.length - x.length) (hB : x.length + p.length ≤ B.length) :
    pokes (x ++ y) x.length p = some (x ++ p ++ y.drop p.length) := by
  rw [pokes, if_pos (by simp; omega)]
  rw [List.take_left, List.drop_append]
  have : List.drop (x.length + p.length) x = [] := List.drop_of_length_le (by omega)
  rw [this]
  simp

/-- What a coder that holds `x` has in memory. -/
theorem Coder.Holds.mem {c : Coder} {B x : List Byte} (h : c.Holds B x) :
    ∃ y, c.buf = some (x ++ y) ∧ y.length = B.length - x.length ∧ y.drop 1 = B.drop (x.length + 1) := by
  rcases h.buf with ⟨h1, h2⟩ | ⟨h1, h2, h3⟩
  · subst h1; exact ⟨B, by simpa using h2, by simp, by simp⟩
  · refine ⟨_, h3, ?_, rfl⟩
    simp only [List.length_cons, List.length_drop]; omega

theorem Coder.appendz_eq {c : Coder} {B x : List Byte} (h : c.Holds B x) (p : List Byte) :
    (x.length + p.length + 2 ≤ B.length → ∃ c', c.appendz p = some (true, c') ∧ c'.Holds B (x ++ (p ++ [0]))) ∧
    (B.length < x.length + p.length + 2 →
      ∃ c', c.appendz p = some (false, c') ∧ ∃ b, c'.buf = some b ∧ b.length = B.length) := by
  obtain ⟨y, h1, h2, h3⟩ := h.mem
  have hr := h.room
  simp only [Coder.appendz, Coder.append, h1, h.pos]
  have hlen : (x ++ y).length = B.length := by simp; omega
  rw [hlen]
  by_cases h4 : p.length ≥ B.length - x.length
  · rw [if_pos h4]
    refine ⟨fun h5 => by omega, fun _ => ⟨c, rfl, _, h1, hlen⟩⟩
  · rw [if_neg h4, pokes_eq x y B (p ++ [0]) h2 (by simp; omega)]
    simp only [bind, Option.bind_some, pure, if_true, List.length_singleton]
    have hlen2 : (x ++ (p ++ [0]) ++ y.drop (p ++ [0]).length).length = B.length := by
      simp only [List.length_append, List.length_drop, List.length_singleton]; omega
    rw [hlen2]
    by_cases h5 : 1 ≥ B.length - (x.length + p.length)
    · rw [if_pos h5]
      refine ⟨fun h6 => by omega, fun _ => ⟨_, rfl, _, rfl, hlen2⟩⟩
    · rw [if_neg h5]
      have e : x ++ (p ++ [0]) ++ y.drop (p ++ [0]).length = (x ++ p) ++ (0 :: y.drop (p.length + 1)) := by simp
      rw [e, show x.length + p.length = (x ++ p).length by simp]
      rw [pokes_eq (x ++ p) (0 :: y.drop (p.length + 1)) B _
        (by simp only [List.length_append, List.length_cons, List.length_drop] at h5 ⊢; omega)
        (by simp only [List.length_append, List.length_cons, List.length_nil] at h5 ⊢; omega)]
      simp only [Option.bind_some]
      refine ⟨fun _ => ⟨_, rfl, ?_⟩, fun h6 => by rw [List.length_append] at h6; omega⟩
      refine ⟨by simp; omega, by simp; omega, Or.inr ⟨by simp, by simp; omega, ?_⟩⟩
      simp only [Option.some.injEq]
      have hd : y.drop (p.length + 2) = B.drop (x.length + p.length + 2) := by
        have := congrArg (List.drop (p.length + 1)) h3
        rw [List.drop_drop, List.drop_drop] at this
        rw [show 1 + (p.length + 1) = p.length + 2 by omega] at this
        rw [this]; congr 1; omega
      simp only [List.length_append, List.length_cons, List.length_nil, List.drop_succ_cons, List.drop_drop,
        List.append_assoc, List.cons_append, List.nil_append]
      rw [show p.length + 1 + (0 + 1) = p.length + 2 by omega, hd]
      congr 4

/-- The loop that capitalizes and copies the forms, for any alphabet; `pr` is how a word is printed. -/
theorem formCopyLoop_gen (T : CharTab) (d : Nat) (pr : List Byte → List Byte)
    (hpr : ∀ f tail, Text f → capSet T (f ++ 0 :: tail) f.length d = some (pr f ++ 0 :: tail) ∧ (pr f).length = f.length)
    (B : List Byte) (tl : List Byte) (fs : List (List Byte)) (hfs : ∀ f ∈ fs, Text f)
    (s : FormState) (x : List Byte) (hs : s.pforms.Holds B x) :
    ((fs ≠ [] → (x ++ packed (fs.map pr)).length + 1 ≤ B.length) →
      ∃ c, formCopyLoop T d fs.length (packed fs ++ tl) s = some (none, ⟨c, s.nbuilt + fs.length⟩) ∧
        c.Holds B (x ++ packed (fs.map pr))) ∧
    (fs ≠ [] → B.length < (x ++ packed (fs.map pr)).length + 1 →
      ∃ c n, formCopyLoop T d fs.length (packed fs ++ tl) s = some (some LEMMBUFF_FAILED, ⟨c, n⟩) ∧
        ∃ b, c.buf = some b ∧ b.length = B.length) := by
  induction fs generalizing s x with
  | nil =>
    refine ⟨fun _ => ⟨s.pforms, ?_, by simpa [packed] using hs⟩, fun h => absurd rfl h⟩
    obtain ⟨c, n⟩ := s
    simp [formCopyLoop]
  | cons f fs ih =>
    have hf := hfs f (by simp)
    obtain ⟨cs1, cs2⟩ := hpr f (packed fs ++ tl) hf
    have hmem : packed (f :: fs) ++ tl = f ++ 0 :: (packed fs ++ tl) := by simp [packed_cons]
    have ha := Coder.appendz_eq hs (pr f)
    simp only [List.length_cons, formCopyLoop, hmem, strLen_text f _ hf, bind, Option.bind_some, cs1]
    have ht : (pr f ++ 0 :: (packed fs ++ tl)).take f.length = pr f := by
      rw [← cs2, List.take_left]
    have hdr : (pr f ++ 0 :: (packed fs ++ tl)).drop (f.length + 1) = packed fs ++ tl := by
      rw [← cs2, List.drop_append]; simp
    rw [ht, hdr]
    simp only [List.map_cons, packed_cons, List.length_append, List.length_cons] at *
    by_cases hfit : x.length + f.length + 2 ≤ B.length
    · obtain ⟨c, hc1, hc2⟩ := ha.1 (by omega)
      simp only [hc1, Option.bind_some, if_true]
      have := ih (fun g hg => hfs g (by simp [hg])) ⟨c, s.nbuilt + 1⟩ _ hc2
      simp only [List.append_assoc, List.cons_append, List.nil_append, List.length_append, List.length_cons,
        List.length_nil] at this ⊢
      refine ⟨fun h => ?_, fun _ h => ?_⟩
      · obtain ⟨c', i1, i2⟩ := this.1 (fun _ => by have := h (by simp); omega)
        refine ⟨c', ?_, i2⟩
        rw [i1]
        simp only [Option.some.injEq, Prod.mk.injEq, FormState.mk.injEq, true_and]
        push_cast; omega
      · by_cases hne : fs = []
        · subst hne; simp [packed] at h; omega
        · exact this.2 hne (by omega)
    · obtain ⟨c, hc1, hc2⟩ := ha.2 (by omega)
      simp only [hc1, Option.bind_some]
      refine ⟨fun h => by have := h (by simp); omega, fun _ h => ⟨c, s.nbuilt, rfl, hc2⟩⟩

/-- The loop that capitalizes and copies the forms. -/
theorem formCopyLoop_eq (d : Nat) (hd : d ≤ 2) (B : List Byte) (tl : List Byte) (fs : List (List Byte)) (hfs : ∀ f ∈ fs, Text f)
    (s : FormState) (x : List Byte) (hs : s.pforms.Holds B x) :
    ((fs ≠ [] → (x ++ packed (fs.map (printed d))).length + 1 ≤ B.length) →
      ∃ c, formCopyLoop engTab d fs.length (packed fs ++ tl) s = some (none, ⟨c, s.nbuilt + fs.length⟩) ∧
        c.Holds B (x ++ packed (fs.map (printed d)))) ∧
    (fs ≠ [] → B.length < (x ++ packed (fs.map (printed d))).length + 1 →
      ∃ c n, formCopyLoop engTab d fs.length (packed fs ++ tl) s = some (some LEMMBUFF_FAILED, ⟨c, n⟩) ∧
        ∃ b, c.buf = some b ∧ b.length = B.length) :=
  formCopyLoop_gen engTab d (printed d) (fun f tail hf => capSet_printed f tail d hd hf) B tl fs hfs s x hs

end Libmorph
