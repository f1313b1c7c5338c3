import Verif.Lemmas.Psp
import Verif.Props.C90
import Verif.Props.C15
import Verif.Props.C12Rus
import Verif.Props.C11
import Verif.Model.Fuzzy
import Verif.Spec.EngSample
import Verif.Spec.RusSample
import Verif.Props.C64
/-
C93: the table of weights that make-psp-tab makes of a text.
-/
namespace Libmorph
open Libmorph.Spec

variable {A : List Byte} {D : RusDict} {st : RusState}

/-! ### The table of the votes -/

theorem sum_set_add {α : Type} (f : α → Rat) : ∀ (l : List α) (i : Nat) (d y : α) (x : Rat), i < l.length → f y = f (l.getD i d) + x →
    ((l.set i y).map f).sum = (l.map f).sum + x
  | [], _, _, _, _, h, _ => by simp at h
  | a :: l, 0, d, y, x, _, hy => by simp at hy; simp [hy]; ring
  | a :: l, i + 1, d, y, x, h, hy => by
    have := sum_set_add f l i d y x (by simpa using h) (by simpa using hy)
    rw [List.set_cons_succ, List.map_cons, List.map_cons, List.sum_cons, List.sum_cons, this, add_assoc]

theorem addAt_sum (l : List Rat) (i : Nat) (x : Rat) : (addAt l i x).sum = l.sum + x := by
  have := sum_set_add id (l ++ List.replicate (i + 1 - l.length) 0) i 0
    ((l ++ List.replicate (i + 1 - l.length) 0).getD i 0 + x) x (by simp; omega) rfl
  simpa [addAt] using this

theorem addForms_sum (n : Nat) (cols : List Nat) (l : List Rat) : (addForms n cols l).sum = l.sum + (cols.length : Rat) / (n : Rat) := by
  induction cols generalizing l with
  | nil => simp [addForms]
  | cons c cols ih =>
    rw [addForms, List.foldl_cons, ← addForms, ih, addAt_sum]
    simp
    ring

theorem castVote_weights (m : List PspRow) (v : Vote) : ((castVote m v).map PspRow.weight).sum = (m.map PspRow.weight).sum + v.share := by
  have := sum_set_add PspRow.weight (m ++ List.replicate (v.row + 1 - m.length) ({} : PspRow)) v.row {}
    ⟨((m ++ List.replicate (v.row + 1 - m.length) ({} : PspRow)).getD v.row {}).weight + v.share,
      addForms v.cols.length v.cols ((m ++ List.replicate (v.row + 1 - m.length) ({} : PspRow)).getD v.row {}).forms⟩ v.share
    (by simp; omega) rfl
  rw [castVote]
  rw [this, List.map_append, List.sum_append]
  simp

/-- Every table of the votes is this one. -/
theorem Spec.Tallies.eq {V : List Vote} {m : List PspRow} (h : Tallies V m) : m = V.foldl castVote [] := by
  have k := castVotes_tallies V
  generalize V.foldl castVote [] = m' at k
  have hlen : m.length = m'.length := by
    rcases Nat.lt_trichotomy m.length m'.length with e | e | e
    · exact absurd ((h.rows _).2 ((k.rows _).1 e)) (Nat.lt_irrefl _)
    · exact e
    · exact absurd ((k.rows _).2 ((h.rows _).1 e)) (Nat.lt_irrefl _)
  refine List.ext_getElem hlen fun i h1 h2 => ?_
  have e1 : m.getD i {} = m[i] := by simp [h1]
  have e2 : m'.getD i {} = m'[i] := by simp [h2]
  have hw := (h.weight i).trans (k.weight i).symm
  have hc := fun f => (h.cols i f).trans (k.cols i f).symm
  have hv := fun f => (h.cells i f).trans (k.cells i f).symm
  rw [e1, e2] at hw
  simp only [e1, e2] at hc hv
  generalize m[i] = a at hw hc hv
  generalize m'[i] = b at hw hc hv
  obtain ⟨aw, af⟩ := a
  obtain ⟨bw, bf⟩ := b
  simp only at hw hc hv
  subst hw
  have hl : af.length = bf.length := by
    rcases Nat.lt_trichotomy af.length bf.length with e | e | e
    · exact absurd ((hc _).2 e) (Nat.lt_irrefl _)
    · exact e
    · exact absurd ((hc _).1 e) (Nat.lt_irrefl _)
  congr 1
  refine List.ext_getElem hl fun j j1 j2 => ?_
  have := hv j
  simpa [j1, j2] using this

theorem tallies_sums {V : List Vote} {m : List PspRow} (h : Tallies V m) (hV : ∀ v ∈ V, v.cols ≠ []) :
    (m.map PspRow.weight).sum = (V.map Vote.share).sum ∧ ∀ p, (m.getD p {}).forms.sum = ((votesFor V p).length : Rat) := by
  rw [h.eq]
  clear h
  induction V using List.reverseRecOn with
  | nil => simp [votesFor]
  | append_singleton V v ih =>
    obtain ⟨h1, h2⟩ := ih fun x hx => hV x (by simp [hx])
    rw [List.foldl_append, List.foldl_cons, List.foldl_nil]
    refine ⟨by rw [castVote_weights, h1]; simp, fun p => ?_⟩
    generalize V.foldl castVote [] = m at h2
    simp only [castVote]
    rw [getD_set _ _ _ _ _ (by simp; omega), getD_grow, getD_grow, votesFor_snoc]
    split
    · rename_i e; subst e
      have : (v.cols.length : Rat) ≠ 0 := by simpa using hV v (by simp)
      rw [addForms_sum, h2, div_self this]
      simp
    · simp [h2, -List.getD_eq_getElem?_getD]

/-- The votes are those of words with at least one lexeme, each with at least one description. -/
def GoodVotes (V : List Vote) : Prop := ∀ v ∈ V, 0 < v.share ∧ v.cols ≠ []

theorem pspNormal_getD (m : List PspRow) (p : Nat) : (pspNormal m).getD p {} =
    ⟨(m.getD p {}).weight / (m.map PspRow.weight).sum, (m.getD p {}).forms.map fun x => x / (m.getD p {}).forms.sum⟩ := by
  simp only [pspNormal, List.getD_eq_getElem?_getD, List.getElem?_map]
  cases m[p]? <;> simp

/-- **C93** The table that is printed, for any votes: it reaches to the last row voted for, a row to its last column; the weight of a row is
its part of all shares, the number in a column is its part of the votes of the row. Where there are votes, the weights sum to 1, the numbers of a row with votes sum
to 1, a row without votes is empty and has weight 0, and no number is negative. -/
theorem C93_table {V : List Vote} {m : List PspRow} (h : Tallies V m) (hV : GoodVotes V) :
    (∀ p, p < (pspNormal m).length ↔ ∃ v ∈ V, p ≤ v.row) ∧
    (∀ p, ((pspNormal m).getD p {}).weight = rowWeight V p / (V.map Vote.share).sum) ∧
    (∀ p f, f < ((pspNormal m).getD p {}).forms.length ↔ ∃ v ∈ V, v.row = p ∧ ∃ c ∈ v.cols, f ≤ c) ∧
    (∀ p f, ((pspNormal m).getD p {}).forms.getD f 0 = cellWeight V p f / ((votesFor V p).length : Rat)) := by
  obtain ⟨h1, h2⟩ := tallies_sums h fun v hv => (hV v hv).2
  refine ⟨fun p => by rw [← h.rows]; simp [pspNormal], fun p => by rw [pspNormal_getD, h.weight, h1], fun p f => ?_, fun p f => ?_⟩
  · rw [pspNormal_getD, ← h.cols]; simp only [List.length_map]
  · rw [pspNormal_getD, ← h.cells, ← h2]
    simp only [List.getD_eq_getElem?_getD, List.getElem?_map]
    cases ((m[p]?.getD {}).forms)[f]? <;> simp

theorem rowWeight_nonneg {V : List Vote} (hV : GoodVotes V) (p : Nat) : 0 ≤ rowWeight V p := by
  refine List.sum_nonneg fun x hx => ?_
  obtain ⟨v, hv, rfl⟩ := List.mem_map.1 hx
  exact (hV v (List.mem_filter.1 hv).1).1.le

theorem cellWeight_nonneg (V : List Vote) (p f : Nat) : 0 ≤ cellWeight V p f := by
  refine List.sum_nonneg fun x hx => ?_
  obtain ⟨v, -, rfl⟩ := List.mem_map.1 hx
  exact div_nonneg (Nat.cast_nonneg _) (Nat.cast_nonneg _)

theorem rowWeight_zero {V : List Vote} (hV : GoodVotes V) (p : Nat) : rowWeight V p = 0 ↔ ∀ v ∈ V, v.row ≠ p := by
  constructor
  · intro h v hv e
    have hm : v ∈ votesFor V p := List.mem_filter.2 ⟨hv, by simpa using e⟩
    have : v.share ≤ rowWeight V p := List.single_le_sum (fun x hx => by
      obtain ⟨u, hu, rfl⟩ := List.mem_map.1 hx
      exact (hV u (List.mem_filter.1 hu).1).1.le) _ (List.mem_map_of_mem hm)
    have := (hV v hv).1
    rw [h] at *
    exact absurd (lt_of_lt_of_le this ‹_›) (lt_irrefl _)
  · intro h
    have : votesFor V p = [] := List.filter_eq_nil_iff.2 fun v hv => by simpa using h v hv
    simp [rowWeight, this]

/-- **C93** The numbers are proportions. -/
theorem C93_proportions {V : List Vote} {m : List PspRow} (h : Tallies V m) (hV : GoodVotes V) :
    (V ≠ [] → 0 < (m.map PspRow.weight).sum ∧ ((pspNormal m).map PspRow.weight).sum = 1) ∧
    (∀ r ∈ m, r.forms ≠ [] → 0 < r.forms.sum) ∧ (∀ r ∈ pspNormal m, r.forms ≠ [] → r.forms.sum = 1) ∧
    (∀ r ∈ pspNormal m, 0 ≤ r.weight ∧ (r.weight = 0 ↔ r.forms = []) ∧ ∀ x ∈ r.forms, 0 ≤ x) := by
  obtain ⟨h1, h2⟩ := tallies_sums h fun v hv => (hV v hv).2
  have hpos : V ≠ [] → 0 < (V.map Vote.share).sum := fun hne => by
    refine List.sum_pos _ (fun x hx => ?_) (by simpa using hne)
    obtain ⟨v, hv, rfl⟩ := List.mem_map.1 hx
    exact (hV v hv).1
  have hrow : ∀ r ∈ m, ∃ p, m.getD p {} = r := fun r hr => by
    obtain ⟨p, hp, rfl⟩ := List.getElem_of_mem hr
    exact ⟨p, by simp [hp]⟩
  have hvotes : ∀ p, (m.getD p {}).forms ≠ [] ↔ ∃ v ∈ V, v.row = p := fun p => by
    rw [← List.length_pos_iff, h.cols]
    constructor
    · rintro ⟨v, hv, e, -⟩; exact ⟨v, hv, e⟩
    · rintro ⟨v, hv, e⟩
      obtain ⟨c, hc⟩ := List.exists_mem_of_ne_nil _ (hV v hv).2
      exact ⟨v, hv, e, c, hc, Nat.zero_le _⟩
  have hfs : ∀ r ∈ m, r.forms ≠ [] → 0 < r.forms.sum := fun r hr hne => by
    obtain ⟨p, rfl⟩ := hrow r hr
    rw [h2]
    obtain ⟨v, hv, e⟩ := (hvotes p).1 hne
    have : v ∈ votesFor V p := List.mem_filter.2 ⟨hv, by simpa using e⟩
    simpa using List.length_pos_of_mem this
  refine ⟨fun hne => ⟨by rw [h1]; exact hpos hne, ?_⟩, hfs, fun r hr hne => ?_, fun r hr => ?_⟩
  · have hs : ∀ (l : List PspRow) (g : Rat), (l.map fun r => r.weight / g).sum = (l.map PspRow.weight).sum / g := fun l g => by
      induction l with
      | nil => simp
      | cons a l ih => simp [ih, add_div]
    simp only [pspNormal, List.map_map]
    have : (PspRow.weight ∘ fun r : PspRow => (⟨r.weight / (m.map PspRow.weight).sum, r.forms.map fun x => x / r.forms.sum⟩ : PspRow)) =
        fun r => r.weight / (m.map PspRow.weight).sum := rfl
    rw [this, hs, h1]
    exact div_self (hpos hne).ne'
  · simp only [pspNormal] at hr
    obtain ⟨q, hq, rfl⟩ := List.mem_map.1 hr
    have hne' : q.forms ≠ [] := fun e => hne (by simp [e])
    have hs : ∀ (l : List Rat) (g : Rat), (l.map fun x => x / g).sum = l.sum / g := fun l g => by
      induction l with
      | nil => simp
      | cons a l ih => simp [ih, add_div]
    simp only [hs]
    exact div_self (hfs q hq hne').ne'
  · simp only [pspNormal] at hr
    obtain ⟨q, hq, rfl⟩ := List.mem_map.1 hr
    obtain ⟨p, rfl⟩ := hrow q hq
    have hne : V ≠ [] := by
      rintro rfl
      rw [h.eq] at hq
      simp at hq
    have hg : 0 < (m.map PspRow.weight).sum := by rw [h1]; exact hpos hne
    refine ⟨?_, ?_, ?_⟩
    · rw [h.weight]; exact div_nonneg (rowWeight_nonneg hV p) hg.le
    · simp only [div_eq_zero_iff, hg.ne', or_false, List.map_eq_nil_iff]
      rw [h.weight, rowWeight_zero hV]
      constructor
      · intro hz
        by_cases hf : (m.getD p {}).forms = []
        · exact hf
        · obtain ⟨v, hv, e⟩ := (hvotes p).1 hf
          exact absurd e (hz v hv)
      · intro hf v hv e
        exact (hvotes p).2 ⟨v, hv, e⟩ hf
    · intro x hx
      obtain ⟨y, hy, rfl⟩ := List.mem_map.1 hx
      refine div_nonneg ?_ ?_
      · obtain ⟨f, hf, rfl⟩ := List.getElem_of_mem hy
        have := h.cells p f
        have e : (m.getD p {}).forms.getD f 0 = (m.getD p {}).forms[f] := by rw [List.getD_eq_getElem?_getD, List.getElem?_eq_getElem hf]; rfl
        rw [← e, this]
        exact cellWeight_nonneg _ _ _
      · rw [h2]; exact Nat.cast_nonneg _

/-! ### The words -/

theorem rusPsp_rest : ∀ c, rusPsp.skip c = Bool.false → rusPsp.take c = Bool.true := by
  intro c h
  simp [rusPsp] at h ⊢
  omega

theorem engPsp_rest : ∀ c, engPsp.skip c = Bool.false → engPsp.take c = Bool.true := by
  intro c h
  simp [engPsp] at h ⊢
  omega

/-- **C93** The words that are looked up, Russian: in a text without zero bytes whose lines are not too long, the words that begin with a letter
behind the capital А and go on with letters and hyphens, four bytes and more. -/
theorem C93_words_russian (text : List Byte) (hz : 0 ∉ text) (hs : ShortLines text) :
    ∃ ws, Cut (· ≤ 0xc0) (fun c => 0xc0 ≤ c ∨ c = 45) text ws ∧ (∀ vs, Cut (· ≤ 0xc0) (fun c => 0xc0 ≤ c ∨ c = 45) text vs → vs = ws) ∧
      pspFile rusPsp text = ws.filter fun w => 3 < w.length := by
  obtain ⟨ws, h1, h2⟩ := pspFile_cut rusPsp rusPsp_rest rfl rfl text hz hs
  have h1' : Cut (· ≤ 0xc0) (fun c => 0xc0 ≤ c ∨ c = 45) text ws := by simpa [rusPsp] using h1
  exact ⟨ws, h1', fun vs hv => Cut.unique (fun c hc => by omega) hv h1', h2⟩

/-- **C93** The words that are looked up, English: they begin with a byte from 'A' and go on with such bytes, hyphens and apostrophes. -/
theorem C93_words_english (text : List Byte) (hz : 0 ∉ text) (hs : ShortLines text) :
    ∃ ws, Cut (· < 0x41) (fun c => 0x41 ≤ c ∨ c = 45 ∨ c = 39) text ws ∧
      (∀ vs, Cut (· < 0x41) (fun c => 0x41 ≤ c ∨ c = 45 ∨ c = 39) text vs → vs = ws) ∧ pspFile engPsp text = ws.filter fun w => 3 < w.length := by
  obtain ⟨ws, h1, h2⟩ := pspFile_cut engPsp engPsp_rest rfl rfl text hz hs
  have h1' : Cut (· < 0x41) (fun c => 0x41 ≤ c ∨ c = 45 ∨ c = 39) text ws := by simpa [engPsp, or_assoc] using h1
  exact ⟨ws, h1', fun vs hv => Cut.unique (fun c hc => by omega) hv h1', h2⟩

/-! ### The programs -/

theorem stack_cases {stack : Nat → List Lemm × List Gram} (hstack : ∀ k, (stack k).1.length = 32 ∧ (stack k).2.length = 64) (k : Nat) :
    (some (stack k).1).map List.length = some 32 ∧ (some (stack k).2).map List.length = some 64 := by
  simp [hstack k]

theorem lemmGroups_grs {H : List LemmStep} (h : ∀ p ∈ H, p.grs ≠ []) : ∀ g ∈ lemmGroups true H, g.1.grs ≠ [] := by
  induction H using List.reverseRecOn with
  | nil => simp [lemmGroups]
  | append_singleton H p ih =>
    have ih := ih fun q hq => h q (by simp [hq])
    rw [lemmGroups_snoc, joinStep]
    split
    · rename_i g hg
      split
      · intro x hx
        rcases List.mem_append.1 hx with hx | hx
        · exact ih x (List.dropLast_subset _ hx)
        · rw [List.mem_singleton.1 hx]
          exact ih g (List.mem_of_getLast? hg)
      · intro x hx
        rcases List.mem_append.1 hx with hx | hx
        · exact ih x hx
        · rw [List.mem_singleton.1 hx]
          exact h p (by simp)
    · intro x hx
      rw [List.mem_singleton.1 hx]
      exact h p (by simp)

/-- How the program answers for a word with these readings: their records, each with the descriptions of its first reading, if 32 records and
64 descriptions are enough; nothing, if the library says they are not; and where the library writes behind the records, the program is undefined. -/
def pspAnswer (T : PspTool) (H : List LemmStep) : Option (List Vote) := pspEnd T (lemmGroups true H) (lemmEnd (some 32) none (some 64) [] H)

theorem pspAnswer_good {T : PspTool} {H : List LemmStep} (h : ∀ p ∈ H, p.grs ≠ []) {V : List Vote} (hV : pspAnswer T H = some V) : GoodVotes V := by
  rw [pspAnswer] at hV
  generalize lemmEnd (some 32) none (some 64) [] H = e at hV
  cases e with
  | done =>
    simp only [pspEnd, Option.some.injEq] at hV
    subst hV
    intro v hv
    obtain ⟨gs, hgs, h1⟩ := List.mem_filterMap.1 hv
    cases gs with
    | nil => simp at h1
    | cons g gs =>
      simp only [List.head?_cons, Option.bind_some] at h1
      split at h1
      · simp only [Option.some.injEq] at h1
        subst h1
        refine ⟨?_, by simp⟩
        have : 0 < ((lemmGroups true H).map LemmGroup.counted).length := List.length_pos_of_mem hgs
        simp only [one_div, inv_pos]
        exact_mod_cast this
      · simp at h1
  | code r =>
    simp only [pspEnd, Option.some.injEq] at hV
    subst hV
    intro v hv
    simp at hv
  | undefined => simp [pspEnd] at hV

/-- What the Russian program makes of a word: nothing of one of 48 bytes and more. -/
def RusDict.PspSays (D : RusDict) (w : List Byte) (o : Option (List Vote)) : Prop :=
  (48 ≤ w.length ∧ o = some []) ∨ (w.length < 48 ∧ ∃ H, D.Readings (rusAdmits w 2) (w.map rusTab.lower) H ∧
    ∃ F : RusReading → List (List Byte), o = pspAnswer rusPsp (H.map fun r => r.step (F r)))

/-- What the English program makes of a word. -/
def EngPspSays (as : List Article) (w : List Byte) (o : Option (List Vote)) : Prop :=
  (48 ≤ w.length ∧ o = some []) ∨ (w.length < 48 ∧ ∃ H, Readings as w 2 H ∧ o = pspAnswer engPsp (H.map Article.step))

theorem rusWord_says (h : RusOk A D st) (junk w : List Byte) (hne : w ≠ []) (hparts : (wordParts rusTab w).length ≤ 8) :
    ∃ o, D.PspSays w o ∧ (∀ V, o = some V → GoodVotes V) ∧ ∀ (L : List Lemm) (G : List Gram) m, L.length = 32 → G.length = 64 →
      pspWord rusPsp (fun L G w => rusLemmatize (st.images D.mtab) junk w (some L) none (some G) 2) L G w m = o.map fun V => V.foldl castVote m := by
  by_cases hlen : w.length < 48
  · obtain ⟨H, hH, F, -, hA⟩ := C90_russian h w 2 hne hlen hparts
    have hg : ∀ p ∈ H.map (fun r => r.step (F r)), p.grs ≠ [] := by
      intro p hp
      obtain ⟨r, hr, rfl⟩ := List.mem_map.1 hp
      simpa [RusReading.step] using (hH.proper r hr).1.some_
    refine ⟨_, .inr ⟨hlen, H, hH, F, rfl⟩, fun V hV => pspAnswer_good hg hV, fun L G m hL hG => ?_⟩
    have := hA junk (some L) none (some G) (by simp)
    simp only [Option.map_some, Option.map_none, hL, hG] at this
    exact pspWord_eq rusPsp this (lemmGroups_grs hg) m
  · refine ⟨some [], .inl ⟨by omega, rfl⟩, ?_, fun L G m _ _ => ?_⟩
    · rintro V e v hv
      cases e
      simp at hv
    · have := (C14_rus_too_long_partial (st.images D.mtab) junk w 2 (by omega) (by omega)).2.1 (some L) none (some G)
      simp [pspWord, this, WORDBUFF_FAILED]

theorem engWord_says {as : List Article} (h : EngOk A as) (junk w : List Byte) (hne : w ≠ []) (hparts : (wordParts engTab w).length ≤ 8) :
    ∃ o, EngPspSays as w o ∧ (∀ V, o = some V → GoodVotes V) ∧ ∀ (L : List Lemm) (G : List Gram) m, L.length = 32 → G.length = 64 →
      pspWord engPsp (fun L G w => lemmatize (engBuild as).images junk w (some L) none (some G) 2) L G w m = o.map fun V => V.foldl castVote m := by
  by_cases hlen : w.length < 48
  · obtain ⟨H, hH, hA⟩ := C90_english h w 2 hne hlen hparts
    have hg : ∀ p ∈ H.map Article.step, p.grs ≠ [] := by
      intro p hp
      obtain ⟨r, hr, rfl⟩ := List.mem_map.1 hp
      obtain ⟨a, -, h2⟩ := List.mem_filterMap.1 (hH.sub.subset hr)
      obtain ⟨e, -, h3⟩ := Option.bind_eq_some_iff.1 h2
      split at h3
      · rename_i hc
        simp only [Option.some.injEq] at h3
        subst h3
        simp only [Bool.and_eq_true, Article.takes] at hc
        simp only [Article.step]
        split
        · rename_i hi
          have := hc.1
          rw [if_pos hi] at this
          simpa using this
        · simp
      · simp at h3
    refine ⟨_, .inr ⟨hlen, H, hH, rfl⟩, fun V hV => pspAnswer_good hg hV, fun L G m hL hG => ?_⟩
    have := hA junk (some L) none (some G) (by simp)
    simp only [Option.map_some, Option.map_none, hL, hG] at this
    exact pspWord_eq engPsp this (lemmGroups_grs hg) m
  · refine ⟨some [], .inl ⟨by omega, rfl⟩, ?_, fun L G m _ _ => ?_⟩
    · rintro V e v hv
      cases e
      simp at hv
    · have := (C14_too_long_partial (engBuild as).images junk w 2 (by omega) (by omega)).2.1 (some L) none (some G)
      simp [pspWord, this, WORDBUFF_FAILED]

theorem votes_flatten {ws : List (List Byte)} {ans : List Byte → Option (List Vote)} (h : ∀ w ∈ ws, ∀ V, ans w = some V → GoodVotes V) {Vs : List (List Vote)}
    (hV : ws.mapM ans = some Vs) : GoodVotes Vs.flatten := by
  intro v hv
  obtain ⟨V, h1, h2⟩ := List.mem_flatten.1 hv
  have key : ∀ {ws : List (List Byte)} {Vs}, ws.mapM ans = some Vs → ∀ V ∈ Vs, ∃ w ∈ ws, ans w = some V := by
    intro ws
    induction ws with
    | nil => intro Vs h V hV; simp [pure] at h; subst h; simp at hV
    | cons w ws ih =>
      intro Vs h V hV
      rw [List.mapM_cons] at h
      obtain ⟨V0, e0, h⟩ := Option.bind_eq_some_iff.1 h
      obtain ⟨Vs0, e1, h⟩ := Option.bind_eq_some_iff.1 h
      simp only [pure, Option.some.injEq] at h
      subst h
      rcases List.mem_cons.1 hV with rfl | hV
      · exact ⟨w, by simp, e0⟩
      · obtain ⟨x, hx, e⟩ := ih e1 V hV
        exact ⟨x, by simp [hx], e⟩
  obtain ⟨w, hw, e⟩ := key hV V h1
  exact h w hw V e v h2

/-- The words of the file and their answers make the table. -/
theorem pspAccumulate_eq (T : PspTool) {call : List Lemm → List Gram → List Byte → Option (Int × LemmState)} {stack : Nat → List Lemm × List Gram}
    {Says : List Byte → Option (List Vote) → Prop} (hstack : ∀ k, (stack k).1.length = 32 ∧ (stack k).2.length = 64) (text : List Byte)
    (h : ∀ w ∈ pspFile T text, ∃ o, Says w o ∧ (∀ V, o = some V → GoodVotes V) ∧ ∀ (L : List Lemm) (G : List Gram) m, L.length = 32 → G.length = 64 →
      pspWord T call L G w m = o.map fun V => V.foldl castVote m) :
    ∃ ans : List Byte → Option (List Vote), (∀ w ∈ pspFile T text, Says w (ans w)) ∧
      (∀ Vs, (pspFile T text).mapM ans = some Vs → GoodVotes Vs.flatten ∧ ∃ m, Tallies Vs.flatten m ∧ pspAccumulate T call stack text = some m) ∧
      ((pspFile T text).mapM ans = none → pspAccumulate T call stack text = none) := by
  classical
  let ans : List Byte → Option (List Vote) := fun w => if hw : w ∈ pspFile T text then (h w hw).choose else none
  have hans : ∀ w (hw : w ∈ pspFile T text), ans w = (h w hw).choose := fun w hw => by simp only [ans, dif_pos hw]
  have hall := pspAll_eq T (call := call) (stack := stack) ans (pspFile T text) (fun w hw k m => by
    rw [hans w hw]
    exact (h w hw).choose_spec.2.2 _ _ m (hstack k).1 (hstack k).2) 0 []
  refine ⟨ans, fun w hw => ?_, fun Vs hVs => ?_, fun hn => ?_⟩
  · rw [hans w hw]; exact (h w hw).choose_spec.1
  · refine ⟨votes_flatten (fun w hw V hV => ?_) hVs, Vs.flatten.foldl castVote [], castVotes_tallies _, ?_⟩
    · rw [hans w hw] at hV
      exact (h w hw).choose_spec.2.1 V hV
    · rw [pspAccumulate, hall, hVs]; rfl
  · rw [pspAccumulate, hall, hn]; rfl

/-- **C93** The Russian program, for a compiled dictionary and any text, whatever lies on the stack: it prints the table of the votes of the words (`C93_table` says what is
in it), or, where the library writes behind the program's records, is undefined. -/
theorem C93_russian (h : RusOk A D st) (junk text path : List Byte) (stack : Nat → List Lemm × List Gram)
    (hstack : ∀ k, (stack k).1.length = 32 ∧ (stack k).2.length = 64) (hparts : ∀ w ∈ pspFile rusPsp text, (wordParts rusTab w).length ≤ 8)
    (real : Rat → List Byte) (lemm : ApiInst → List Lemm → List Gram → List Byte → Option (Int × LemmState))
    (hl : lemm .cp1251 = fun L G w => rusLemmatize (st.images D.mtab) junk w (some L) none (some G) 2) :
    ∃ ans : List Byte → Option (List Vote), (∀ w ∈ pspFile rusPsp text, D.PspSays w (ans w)) ∧
      (∀ Vs, (pspFile rusPsp text).mapM ans = some Vs → GoodVotes Vs.flatten ∧ ∃ m, Tallies Vs.flatten m ∧
        rusPspMain real lemm (rusGetAPI libmorphMagic (some (asciiBytes (libmorphMagic ++ ":1251") ++ [0])) true) stack path (some text) =
          some ⟨pspDump real [] rusPspDecl [] (pspNormal m), [], 0⟩) ∧
      ((pspFile rusPsp text).mapM ans = none →
        rusPspMain real lemm (rusGetAPI libmorphMagic (some (asciiBytes (libmorphMagic ++ ":1251") ++ [0])) true) stack path (some text) = none) := by
  have hobj : rusGetAPI libmorphMagic (some (asciiBytes (libmorphMagic ++ ":1251") ++ [0])) true = some (0, .inst .cp1251) := by decide +kernel
  obtain ⟨ans, h1, h2, h3⟩ := pspAccumulate_eq rusPsp (call := lemm .cp1251) (Says := D.PspSays) hstack text (fun w hw => by
    rw [hl]
    exact rusWord_says h junk w (by have := (pspFile_words rusPsp rusPsp_rest text w hw).1; rintro rfl; simp at this) (hparts w hw))
  refine ⟨ans, h1, fun Vs hVs => ?_, fun hn => ?_⟩
  · obtain ⟨g, m, k1, k2⟩ := h2 Vs hVs
    refine ⟨g, m, k1, ?_⟩
    simp [rusPspMain, pspCall, hobj, k2, bind, pure]
  · simp [rusPspMain, pspCall, hobj, h3 hn, bind]

/-- **C93** The English program: the same with the file named by its argument.  (It asks for utf-8 and gets the object for 1251, `C32_english`.) -/
theorem C93_english {as : List Article} (h : EngOk A as) (junk text name path : List Byte) (more : List (List Byte)) (stack : Nat → List Lemm × List Gram)
    (hstack : ∀ k, (stack k).1.length = 32 ∧ (stack k).2.length = 64) (hparts : ∀ w ∈ pspFile engPsp text, (wordParts engTab w).length ≤ 8)
    (real : Rat → List Byte) (lemm : ApiInst → List Lemm → List Gram → List Byte → Option (Int × LemmState)) (files : List Byte → Option (List Byte))
    (hf : files path = some text) (hl : lemm .cp1251 = fun L G w => lemmatize (engBuild as).images junk w (some L) none (some G) 2) :
    ∃ ans : List Byte → Option (List Vote), (∀ w ∈ pspFile engPsp text, EngPspSays as w (ans w)) ∧
      (∀ Vs, (pspFile engPsp text).mapM ans = some Vs → GoodVotes Vs.flatten ∧ ∃ m, Tallies Vs.flatten m ∧
        engPspMain real lemm (engGetAPI libmorphMagic (some (asciiBytes (libmorphMagic ++ ":utf-8") ++ [0])) true) stack name files (path :: more) =
          some ⟨pspDump real (asciiBytes "namespace NAMESPACE {\n\n") engPspDecl (asciiBytes "\n}\n") (pspNormal m), [], 0⟩) ∧
      ((pspFile engPsp text).mapM ans = none →
        engPspMain real lemm (engGetAPI libmorphMagic (some (asciiBytes (libmorphMagic ++ ":utf-8") ++ [0])) true) stack name files (path :: more) = none) := by
  have hobj : engGetAPI libmorphMagic (some (asciiBytes (libmorphMagic ++ ":utf-8") ++ [0])) true = some (0, .inst .cp1251) := by decide +kernel
  obtain ⟨ans, h1, h2, h3⟩ := pspAccumulate_eq engPsp (call := lemm .cp1251) (Says := EngPspSays as) hstack text (fun w hw => by
    rw [hl]
    exact engWord_says h junk w (by have := (pspFile_words engPsp engPsp_rest text w hw).1; rintro rfl; simp at this) (hparts w hw))
  refine ⟨ans, h1, fun Vs hVs => ?_, fun hn => ?_⟩
  · obtain ⟨g, m, k1, k2⟩ := h2 Vs hVs
    refine ⟨g, m, k1, ?_⟩
    simp [engPspMain, pspCall, hobj, k2, bind, pure, hf]
  · simp [engPspMain, pspCall, hobj, h3 hn, bind, hf]

/-- **C93** A word with fewer than 32 readings does not make the program undefined. -/
theorem C93_defined (T : PspTool) (H : List LemmStep) (h : H.length < 32) : pspAnswer T H ≠ none := by
  have hg : ∀ H : List LemmStep, (lemmGroups true H).length ≤ H.length := by
    intro H
    induction H using List.reverseRecOn with
    | nil => simp [lemmGroups]
    | append_singleton H p ih =>
      rw [lemmGroups_snoc, joinStep, List.length_append, List.length_singleton]
      split
      · rename_i g hg
        obtain ⟨ys, e⟩ := List.getLast?_eq_some_iff.1 hg
        rw [e] at ih ⊢
        simp only [List.length_append, List.length_singleton] at ih
        split <;> simp <;> omega
      · simp
  have := C90_spare 32 none (some 64) H (lt_of_le_of_lt (hg H) h)
  rw [pspAnswer]
  generalize lemmEnd (some 32) none (some 64) [] H = e at this
  cases e <;> simp [pspEnd] at this ⊢

/-- **C93** A file that is not there: the Russian program says so and prints an empty table, the English one stops; without an argument that one
says how it is used. -/
theorem C93_missing (real : Rat → List Byte) (lemm : ApiInst → List Lemm → List Gram → List Byte → Option (Int × LemmState))
    (stack : Nat → List Lemm × List Gram) (name path : List Byte) (more : List (List Byte)) (files : List Byte → Option (List Byte)) (hf : files path = none) :
    rusPspMain real lemm (rusGetAPI libmorphMagic (some (asciiBytes (libmorphMagic ++ ":1251") ++ [0])) true) stack path none =
      some ⟨rusPspDecl ++ asciiBytes "[0] =\n  {\n  };\n", asciiBytes "Could not open file '" ++ path ++ asciiBytes "'\n", 0⟩ ∧
    engPspMain real lemm (engGetAPI libmorphMagic (some (asciiBytes (libmorphMagic ++ ":utf-8") ++ [0])) true) stack name files (path :: more) =
      some ⟨[], asciiBytes "Could not open file '" ++ path ++ asciiBytes "'\n", 2⟩ ∧
    engPspMain real lemm (engGetAPI libmorphMagic (some (asciiBytes (libmorphMagic ++ ":utf-8") ++ [0])) true) stack name files [] =
      some ⟨[], asciiBytes "usage: " ++ name ++ asciiBytes " sample-text.txt\n", 22⟩ := by
  have h1 : rusGetAPI libmorphMagic (some (asciiBytes (libmorphMagic ++ ":1251") ++ [0])) true = some (0, .inst .cp1251) := by decide +kernel
  have h2 : engGetAPI libmorphMagic (some (asciiBytes (libmorphMagic ++ ":utf-8") ++ [0])) true = some (0, .inst .cp1251) := by decide +kernel
  refine ⟨?_, ?_, ?_⟩
  · have e : pspDump real [] rusPspDecl [] (pspNormal []) = rusPspDecl ++ asciiBytes "[0] =\n  {\n  };\n" := by
      have e1 : asciiBytes "[0] =\n  {\n  };\n" = asciiBytes "[" ++ decimal 0 ++ asciiBytes "] =\n  {" ++ asciiBytes "\n  };\n" := by decide +kernel
      rw [e1]
      simp [pspDump, pspNormal, pspRows, List.append_assoc]
    simp [rusPspMain, pspCall, h1, bind, pure, e]
  · simp [engPspMain, pspCall, h2, bind, pure, hf]
  · simp [engPspMain, pspCall, h2, bind, pure]

/-! ### What the readers of the table get -/

/-- The rows a Russian lexeme can vote for: the first of verbs, nouns and so on, and the bytes of numerals and pronouns with their two flags. -/
def RusRow (p : Nat) : Prop := p ∈ [1, 7, 13, 16, 25] ∨ (p < 256 ∧ p % 64 ∈ [38, 39, 40, 41, 42, 44, 45, 46])

theorem toPartOfSp_row (w : Nat) (h : toPartOfSp w ≠ 0) : RusRow (toPartOfSp w) := by
  have key : ∀ b < 256, toPartOfSp b ≠ 0 → (toPartOfSp b ∈ [1, 7, 13, 16, 25] ∨ (toPartOfSp b < 256 ∧ toPartOfSp b % 64 ∈ [38, 39, 40, 41, 42, 44, 45, 46])) := by
    decide +kernel
  have e : toPartOfSp w = toPartOfSp (w % 256) := by simp [toPartOfSp]
  rw [e] at h ⊢
  exact key _ (Nat.mod_lt _ (by decide)) h

theorem rus_votes {lex : List (List Gram)} {v : Vote} (h : v ∈ rusPsp.votes lex) : RusRow v.row ∧ (v.row = 1 → ∀ c ∈ v.cols, c < 6 ∨ 17 < c) := by
  obtain ⟨gs, -, h1⟩ := List.mem_filterMap.1 h
  cases gs with
  | nil => simp at h1
  | cons g gs =>
    simp only [List.head?_cons, Option.bind_some] at h1
    split at h1
    · rename_i hp
      simp only [Option.some.injEq] at h1
      subst h1
      simp only [rusPsp, Bool.and_eq_true, bne_iff_ne, ne_eq, decide_eq_true_eq] at hp ⊢
      refine ⟨toPartOfSp_row _ (by simpa using hp.2), fun e c hc => ?_⟩
      simp only [e, if_true] at hc
      obtain ⟨x, -, rfl⟩ := List.mem_map.1 hc
      simp only [mapVerbFid]
      split <;> omega
    · simp at h1

theorem pspSays_votes {w : List Byte} {V : List Vote} (h : D.PspSays w (some V)) : ∀ v ∈ V, RusRow v.row ∧ (v.row = 1 → ∀ c ∈ v.cols, c < 6 ∨ 17 < c) := by
  rcases h with ⟨-, e⟩ | ⟨-, H, -, F, e⟩
  · cases e; simp
  · rw [pspAnswer] at e
    generalize lemmEnd (some 32) none (some 64) [] (H.map fun r => r.step (F r)) = z at e
    cases z with
    | done => simp only [pspEnd, Option.some.injEq] at e; subst e; exact fun v hv => rus_votes hv
    | code r => simp only [pspEnd, Option.some.injEq] at e; subst e; simp
    | undefined => simp [pspEnd] at e

/-- **C93** In the Russian table the rows of the parts of speech that are counted with another are empty: 2 to 6, 8, 9, 14, 15, 17, 18, 26 (and all others that
no lexeme votes for), and the columns 6 to 17 of the verbs are zero - whatever the text. -/
theorem C93_folded {ws : List (List Byte)} {ans : List Byte → Option (List Vote)} (hs : ∀ w ∈ ws, D.PspSays w (ans w)) {Vs : List (List Vote)}
    (hV : ws.mapM ans = some Vs) (hg : GoodVotes Vs.flatten) {m : List PspRow} (h : Tallies Vs.flatten m) :
    (∀ p, ¬ RusRow p → ((pspNormal m).getD p {}).forms = [] ∧ ((pspNormal m).getD p {}).weight = 0) ∧
    (∀ f, 6 ≤ f → f ≤ 17 → ((pspNormal m).getD 1 {}).forms.getD f 0 = 0) := by
  have hall : ∀ v ∈ Vs.flatten, RusRow v.row ∧ (v.row = 1 → ∀ c ∈ v.cols, c < 6 ∨ 17 < c) := by
    intro v hv
    obtain ⟨V, h1, h2⟩ := List.mem_flatten.1 hv
    have key : ∀ {ws : List (List Byte)} {Vs}, ws.mapM ans = some Vs → ∀ V ∈ Vs, ∃ w ∈ ws, ans w = some V := by
      intro ws
      induction ws with
      | nil => intro Vs h V hV; simp [pure] at h; subst h; simp at hV
      | cons w ws ih =>
        intro Vs h V hV
        rw [List.mapM_cons] at h
        obtain ⟨V0, e0, h⟩ := Option.bind_eq_some_iff.1 h
        obtain ⟨Vs0, e1, h⟩ := Option.bind_eq_some_iff.1 h
        simp only [pure, Option.some.injEq] at h
        subst h
        rcases List.mem_cons.1 hV with rfl | hV
        · exact ⟨w, by simp, e0⟩
        · obtain ⟨x, hx, e⟩ := ih e1 V hV
          exact ⟨x, by simp [hx], e⟩
    obtain ⟨w, hw, e⟩ := key hV V h1
    have := hs w hw
    rw [e] at this
    exact pspSays_votes this v h2
  obtain ⟨-, t2, t3, t4⟩ := C93_table h hg
  refine ⟨fun p hp => ⟨?_, ?_⟩, fun f h6 h17 => ?_⟩
  · by_contra hne
    obtain ⟨v, hv, e, -⟩ := (t3 p 0).1 (List.length_pos_iff.2 hne)
    exact hp (e ▸ (hall v hv).1)
  · rw [t2, (rowWeight_zero hg p).2 (fun v hv e => hp (e ▸ (hall v hv).1)), zero_div]
  · rw [t4]
    have : cellWeight Vs.flatten 1 f = 0 := by
      refine List.sum_eq_zero fun x hx => ?_
      obtain ⟨v, hv, rfl⟩ := List.mem_map.1 hx
      obtain ⟨hv, hr⟩ := List.mem_filter.1 hv
      have : f ∉ v.cols := fun hc => by
        have := (hall v hv).2 (by simpa using hr) f hc
        omega
      rw [List.count_eq_zero_of_not_mem this]
      simp
    rw [this, zero_div]

/-- The sizes that are printed: `nullptr`, or an array of `maxLen` numbers. -/
def pspSizes (m : List PspRow) : List (Option Nat) := m.map fun r => if r.forms = [] then none else some r.forms.length

/-- **C93** With the table of a text the fuzzy library can weigh every row and column that some lexeme of the text voted for, and smaller columns. -/
theorem C93_reads {ω : Type} {V : List Vote} {m : List PspRow} (h : Tallies V m) (hV : GoodVotes V) (R : FuzzyRank ω) (hR : R.sizes = pspSizes (pspNormal m))
    {v : Vote} (hv : v ∈ V) {c f : Nat} (hc : c ∈ v.cols) (hf : f ≤ c) {index : Nat} (hi : index < 16) (power sets : Nat) :
    R.run index power v.row f sets = some (R.weight index power v.row f sets) := by
  obtain ⟨t1, -, t3, -⟩ := C93_table h hV
  have hrow : v.row < (pspNormal m).length := (t1 _).2 ⟨v, hv, Nat.le_refl _⟩
  have hcol := (t3 v.row f).2 ⟨v, hv, rfl, c, hc, hf⟩
  have e : (pspNormal m).getD v.row {} = (pspNormal m)[v.row] := by simp [hrow]
  rw [e] at hcol
  have hs : R.sizes[v.row]? = some (some (pspNormal m)[v.row].forms.length) := by
    rw [hR, pspSizes, List.getElem?_map, List.getElem?_eq_getElem hrow, Option.map_some, if_neg (by rintro e; simp [e] at hcol)]
  rw [FuzzyRank.run, if_neg (by omega), hs]
  simp only [bind, Option.bind_some, if_neg (show ¬ (pspNormal m)[v.row].forms.length ≤ f by omega)]
  rfl

/-- **C93** refuted as a table for all parts of speech of the text: a lexeme of part of speech `w` votes for the row `toPartOfSp w`; when that is the
last row of the table and `w` is behind it, the fuzzy library, which looks up `w` itself, reads behind the table; when it is not the last row, it finds no numbers. -/
theorem C93_reads_counterexample {ω : Type} {V : List Vote} {m : List PspRow} (h : Tallies V m) (R : FuzzyRank ω) (hR : R.sizes = pspSizes (pspNormal m))
    {w : Nat} (hw : ∀ v ∈ V, v.row < w) (index power f sets : Nat) : R.run index power w f sets = none := by
  have : R.sizes[w]? = none := by
    rw [hR, pspSizes, List.getElem?_map, List.getElem?_eq_none, Option.map_none]
    rw [pspNormal, List.length_map]
    by_contra hc
    obtain ⟨v, hv, hle⟩ := (h.rows w).1 (by omega)
    exact absurd (hw v hv) (by omega)
  rw [FuzzyRank.run, this]
  split <;> rfl

/-! ### The text -/

/-- Without blanks and newlines. -/
def squeeze (s : List Byte) : List Byte := s.filter fun c => c ≠ 32 ∧ c ≠ 10

theorem squeeze_append (s t : List Byte) : squeeze (s ++ t) = squeeze s ++ squeeze t := List.filter_append ..

theorem squeeze_self {s : List Byte} (h : ∀ c ∈ s, c ≠ 32 ∧ c ≠ 10) : squeeze s = s := List.filter_eq_self.2 fun c hc => by simpa using h c hc

theorem hexByte_solid (n : Nat) : ∀ c ∈ hexByte n, c ≠ 32 ∧ c ≠ 10 := by
  intro c hc
  simp only [hexByte, List.mem_cons, List.not_mem_nil, or_false] at hc
  rcases hc with rfl | rfl <;> split <;> omega

/-- The numbers, separated by commas. -/
def commaList (real : Rat → List Byte) (xs : List Rat) : List Byte := [44].intercalate (xs.map real)

theorem squeeze_numbers (real : Rat → List Byte) (hreal : ∀ x, ∀ c ∈ real x, c ≠ 32 ∧ c ≠ 10) (xs : List Rat) (i : Nat) (pre : List Byte) (x : Rat) :
    squeeze (pspNumbers real pre i (x :: xs)) = squeeze pre ++ commaList real (x :: xs) := by
  induction xs generalizing i pre x with
  | nil => simp [pspNumbers, squeeze_append, squeeze_self (hreal x), commaList, List.intercalate]
  | cons y xs ih =>
    rw [pspNumbers, squeeze_append, squeeze_append, squeeze_self (hreal x), ih]
    have : squeeze (if (i + 1) % 12 = 0 then asciiBytes ",\n    " else asciiBytes ", ") = [44] := by split <;> decide
    rw [this]
    simp [commaList, List.intercalate, List.intersperse, List.append_assoc]

/-- **C93** The array of a row, for any formatting of numbers without blanks: it has the number of the row in its name, and its elements are all numbers of the
row in their order; the size it is declared with is that number of elements modulo 256. -/
theorem C93_array (real : Rat → List Byte) (hreal : ∀ x, ∀ c ∈ real x, c ≠ 32 ∧ c ≠ 10) (psp : Nat) (tab : List Rat) (hne : tab ≠ []) :
    squeeze (pspRanges real psp tab) = asciiBytes "staticconstfloatpsp" ++ hexByte psp ++ asciiBytes "_ranges[0x" ++ hexByte (tab.length % 256) ++ asciiBytes "]={" ++
      commaList real tab ++ asciiBytes "};" := by
  obtain ⟨x, xs, rfl⟩ := List.exists_cons_of_ne_nil hne
  rw [pspRanges, if_neg hne]
  simp only [squeeze_append, squeeze_self (hexByte_solid _), squeeze_numbers real hreal]
  have e1 : squeeze (asciiBytes "  static const float psp") = asciiBytes "staticconstfloatpsp" := by decide +kernel
  have e2 : squeeze (asciiBytes "_ranges[0x") = asciiBytes "_ranges[0x" := by decide +kernel
  have e3 : squeeze (asciiBytes "] =\n  {") = asciiBytes "]={" := by decide +kernel
  have e4 : squeeze (asciiBytes "\n    ") = [] := by decide +kernel
  have e5 : squeeze (asciiBytes "\n  };\n") = asciiBytes "};" := by decide +kernel
  rw [e1, e2, e3, e4, e5]
  simp [List.append_assoc]

theorem decimalUpTo_solid (k n : Nat) : ∀ c ∈ decimalUpTo k n, c ≠ 32 ∧ c ≠ 10 := by
  induction k generalizing n with
  | zero => simp [decimalUpTo]
  | succ k ih =>
    intro c hc
    rw [decimalUpTo] at hc
    split at hc
    · simp only [List.mem_singleton] at hc; omega
    · rcases List.mem_append.1 hc with hc | hc
      · exact ih _ c hc
      · simp only [List.mem_singleton] at hc; omega

/-- A row of the table, as it is printed. -/
def rowText (real : Rat → List Byte) (p : PspRow × Nat) : List Byte :=
  if p.1.forms ≠ [] then asciiBytes "{" ++ real p.1.weight ++ asciiBytes ",psp" ++ hexByte p.2 ++ asciiBytes "_ranges," ++ Libmorph.decimal p.1.forms.length ++ asciiBytes "}"
  else asciiBytes "{0.0000,nullptr,0}"

/-- **C93** The table: a row for every row, with its weight, the name of its array and the number of its elements, or with nothing. -/
theorem C93_rows (real : Rat → List Byte) (hreal : ∀ x, ∀ c ∈ real x, c ≠ 32 ∧ c ≠ 10) (i : Nat) (m : List PspRow) :
    squeeze (pspRows real [] i m) = [44].intercalate ((m.zipIdx i).map (rowText real)) := by
  have e1 : squeeze (asciiBytes "\n    { ") = asciiBytes "{" := by decide +kernel
  have e2 : squeeze (asciiBytes ", psp") = asciiBytes ",psp" := by decide +kernel
  have e3 : squeeze (asciiBytes "_ranges, ") = asciiBytes "_ranges," := by decide +kernel
  have e4 : squeeze (asciiBytes " }") = asciiBytes "}" := by decide +kernel
  have e5 : squeeze (asciiBytes "\n    { 0.0000, nullptr, 0 }") = asciiBytes "{0.0000,nullptr,0}" := by decide +kernel
  have one : ∀ (pre : List Byte) (r : PspRow) (i : Nat), squeeze (if r.forms ≠ [] then
      pre ++ asciiBytes "\n    { " ++ real r.weight ++ asciiBytes ", psp" ++ hexByte i ++ asciiBytes "_ranges, " ++ Libmorph.decimal r.forms.length ++ asciiBytes " }"
      else pre ++ asciiBytes "\n    { 0.0000, nullptr, 0 }") = squeeze pre ++ rowText real (r, i) := by
    intro pre r i
    rw [rowText]
    split
    · simp only [squeeze_append, squeeze_self (hexByte_solid _), squeeze_self (hreal _), squeeze_self (decimalUpTo_solid _ _), Libmorph.decimal, e1, e2, e3, e4]
      simp [List.append_assoc]
    · rw [squeeze_append, e5]
  have key : ∀ (m : List PspRow) (pre : List Byte) (i : Nat) (r : PspRow), squeeze (pspRows real pre i (r :: m)) =
      squeeze pre ++ [44].intercalate (((r :: m).zipIdx i).map (rowText real)) := by
    intro m
    induction m with
    | nil =>
      intro pre i r
      rw [pspRows, pspRows, List.append_nil, one]
      simp [List.intercalate]
    | cons q m ih =>
      intro pre i r
      rw [pspRows, squeeze_append, one, ih]
      have : squeeze (asciiBytes ",") = [44] := by decide +kernel
      rw [this]
      simp [List.intercalate, List.intersperse, List.append_assoc]
  cases m with
  | nil => simp [pspRows, squeeze, List.intercalate]
  | cons r m => rw [key]; simp [squeeze]

/-- **C93** refuted as C++: a row whose last column is 255 has 256 numbers and is declared with none. -/
theorem C93_array_counterexample {V : List Vote} {m : List PspRow} (h : Tallies V m) (hV : GoodVotes V) {v : Vote} (hv : v ∈ V) (h255 : 255 ∈ v.cols)
    (hle : ∀ u ∈ V, ∀ c ∈ u.cols, c < 256) :
    ((pspNormal m).getD v.row {}).forms.length = 256 ∧ hexByte (((pspNormal m).getD v.row {}).forms.length % 256) = asciiBytes "00" := by
  obtain ⟨-, -, t3, -⟩ := C93_table h hV
  have e : ((pspNormal m).getD v.row {}).forms.length = 256 := by
    have h1 := (t3 v.row 255).2 ⟨v, hv, rfl, 255, h255, Nat.le_refl _⟩
    have h2 : ¬ 256 < ((pspNormal m).getD v.row {}).forms.length := fun hc => by
      obtain ⟨u, hu, -, c, hc, hle'⟩ := (t3 v.row 256).1 hc
      have := hle u hu c hc
      omega
    omega
  exact ⟨e, by rw [e]; decide⟩

/-- **C93** Where no form has the number 255 the declared size is the number of elements. -/
theorem C93_array_size {V : List Vote} {m : List PspRow} (h : Tallies V m) (hV : GoodVotes V) (hle : ∀ u ∈ V, ∀ c ∈ u.cols, c < 255) (p : Nat) :
    ((pspNormal m).getD p {}).forms.length % 256 = ((pspNormal m).getD p {}).forms.length := by
  obtain ⟨-, -, t3, -⟩ := C93_table h hV
  refine Nat.mod_eq_of_lt ?_
  by_contra hc
  obtain ⟨u, hu, -, c, hc, hle'⟩ := (t3 p 255).1 (by omega)
  have := hle u hu c hc
  omega

/-! ### The hypotheses are met -/

/-- "снами, Ивана", "снам-то Иваны" -/
def pspText : List Byte :=
  [241, 237, 224, 236, 232, 44, 32, 200, 226, 224, 237, 224, 10, 241, 237, 224, 236, 45, 242, 238, 32, 200, 226, 224, 237, 251]

example : pspFile rusPsp pspText = [[241, 237, 224, 236, 232], [200, 226, 224, 237, 224], [241, 237, 224, 236, 45, 242, 238], [200, 226, 224, 237, 251]] := by
  decide +kernel

/-- Four lexemes, two nouns and two names; the forms are those of "снами", "снам-то", "Ивана", "Иваны". -/
example : (pspAccumulate rusPsp (fun L G w => rusLemmatize (rusSampleState.images rusSample.mtab) [] w (some L) none (some G) 2)
      (fun _ => (junkLemms 32, junkGrams 64)) pspText).map pspNormal =
    some (List.replicate 7 ⟨0, []⟩ ++ ⟨1 / 2, [0, 0, 0, 0, 0, 0, 0, 0, 0, 0, 0, 0, 1 / 2, 0, 0, 1 / 2]⟩ :: List.replicate 30 ⟨0, []⟩ ++
      [⟨1 / 2, [0, 1 / 2, 0, 0, 0, 0, 0, 0, 0, 0, 1 / 2]⟩]) := by decide +kernel

example (real : Rat → List Byte) (path : List Byte) (lemm : ApiInst → List Lemm → List Gram → List Byte → Option (Int × LemmState))
    (hl : lemm .cp1251 = fun L G w => rusLemmatize (rusSampleState.images rusSample.mtab) [] w (some L) none (some G) 2) :
    ∃ ans : List Byte → Option (List Vote), (∀ w ∈ pspFile rusPsp pspText, rusSample.PspSays w (ans w)) ∧
      (∀ Vs, (pspFile rusPsp pspText).mapM ans = some Vs → GoodVotes Vs.flatten ∧ ∃ m, Tallies Vs.flatten m ∧
        rusPspMain real lemm (rusGetAPI libmorphMagic (some (asciiBytes (libmorphMagic ++ ":1251") ++ [0])) true) (fun _ => (junkLemms 32, junkGrams 64)) path (some pspText) =
          some ⟨pspDump real [] rusPspDecl [] (pspNormal m), [], 0⟩) ∧
      ((pspFile rusPsp pspText).mapM ans = none →
        rusPspMain real lemm (rusGetAPI libmorphMagic (some (asciiBytes (libmorphMagic ++ ":1251") ++ [0])) true) (fun _ => (junkLemms 32, junkGrams 64)) path (some pspText) = none) :=
  C93_russian rusSample_ok [] pspText path _ (fun _ => by simp [junkLemms, junkGrams]) (by decide +kernel) real lemm hl

/-- The text of the example is read by lines as a whole. -/
example : 0 ∉ pspText ∧ ShortLines pspText := by
  refine ⟨by decide, fun x y z e _ => ?_⟩
  have : y.length ≤ pspText.length := by rw [e]; simp; omega
  have h : pspText.length = 26 := by decide
  omega

/-- Only "снами": a table of eight rows, in which a noun of part of speech 8 is not found. -/
example (R : FuzzyRank Rat) (hR : R.sizes = List.replicate 7 none ++ [some 16]) : R.run 1 2 8 0 0 = none ∧ R.run 1 2 7 15 0 = some (R.weight 1 2 7 15 0) := by
  simp [FuzzyRank.run, hR]

example : (pspAccumulate rusPsp (fun L G w => rusLemmatize (rusSampleState.images rusSample.mtab) [] w (some L) none (some G) 2)
      (fun _ => (junkLemms 32, junkGrams 64)) [241, 237, 224, 236, 232]).map (fun m => pspSizes (pspNormal m)) = some (List.replicate 7 none ++ [some 16]) := by
  decide +kernel

/-- "Paris, brothers!", "brother-in-law out-of-the-way of Paris's": one row, two columns; "out-of-the-way" is not inflected. -/
example : (pspAccumulate engPsp (fun L G w => lemmatize (engBuild engSample).images [] w (some L) none (some G) 2) (fun _ => (junkLemms 32, junkGrams 64))
      (asciiBytes "Paris, brothers!\nbrother-in-law out-of-the-way of Paris's")).map pspNormal = some [{}, ⟨1, [1 / 2, 1 / 2]⟩] := by decide +kernel

example (real : Rat → List Byte) (lemm : ApiInst → List Lemm → List Gram → List Byte → Option (Int × LemmState))
    (hl : lemm .cp1251 = fun L G w => lemmatize (engBuild engSample).images [] w (some L) none (some G) 2) :=
  C93_english engSample_ok [] (asciiBytes "Paris, brothers!") [] [49] [] (fun _ => (junkLemms 32, junkGrams 64)) (fun _ => by simp [junkLemms, junkGrams])
    (by decide +kernel) real lemm (fun _ => some (asciiBytes "Paris, brothers!")) rfl hl

/-- Votes as `C93_table` wants them, and their table. -/
example : GoodVotes [⟨1, 1 / 2, [0, 3]⟩, ⟨1, 1, [3]⟩, ⟨2, 1 / 2, [1]⟩] ∧ Tallies [⟨1, 1 / 2, [0, 3]⟩, ⟨1, 1, [3]⟩, ⟨2, 1 / 2, [1]⟩]
      [{}, ⟨3 / 2, [1 / 2, 0, 0, 3 / 2]⟩, ⟨1 / 2, [0, 1]⟩] ∧
    pspNormal [{}, ⟨3 / 2, [1 / 2, 0, 0, 3 / 2]⟩, ⟨1 / 2, [0, 1]⟩] = [{}, ⟨3 / 4, [1 / 4, 0, 0, 3 / 4]⟩, ⟨1 / 4, [0, 1]⟩] := by
  refine ⟨by simp [GoodVotes], ?_, by decide +kernel⟩
  have e : ([{}, ⟨3 / 2, [1 / 2, 0, 0, 3 / 2]⟩, ⟨1 / 2, [0, 1]⟩] : List PspRow) =
      List.foldl castVote [] [⟨1, 1 / 2, [0, 3]⟩, ⟨1, 1, [3]⟩, ⟨2, 1 / 2, [1]⟩] := by decide +kernel
  rw [e]
  exact castVotes_tallies _

theorem and63 (w : Nat) : w % 256 &&& 63 = w % 64 := by
  have := Nat.and_two_pow_sub_one_eq_mod (w % 256) 6
  simp only [show (2:Nat) ^ 6 - 1 = 63 from rfl] at this
  omega

theorem toPartOfSp_iff (w p : Nat) : (toPartOfSp w = p ∧ p ≠ 0) ↔ RusRowOf w p := by
  have h63 := and63 w
  simp only [toPartOfSp, h63]
  constructor
  · rintro ⟨h, hp⟩
    split at h
    · exact h ▸ .folded (l := [1, 2, 3, 4, 5, 6]) (by decide) (by simp; omega)
    split at h
    · exact h ▸ .folded (l := [7, 8, 9]) (by decide) (by simp; omega)
    split at h
    · exact h ▸ .folded (l := [13, 14, 15]) (by decide) (by simp; omega)
    split at h
    · exact h ▸ .folded (l := [16, 17, 18]) (by decide) (by simp; omega)
    split at h
    · exact h ▸ .folded (l := [25, 26]) (by decide) (by simp; omega)
    split at h
    · exact h ▸ .alone (by simp [rusAlone]; omega)
    · exact absurd h.symm hp
  · intro h
    cases h with
    | folded hl hw =>
      simp only [rusFolds, List.mem_cons, Prod.mk.injEq, List.not_mem_nil, or_false] at hl
      rcases hl with ⟨rfl, rfl⟩ | ⟨rfl, rfl⟩ | ⟨rfl, rfl⟩ | ⟨rfl, rfl⟩ | ⟨rfl, rfl⟩ <;>
        simp only [List.mem_cons, List.not_mem_nil, or_false] at hw <;> refine ⟨?_, by decide⟩ <;> (repeat' split) <;> omega
    | alone hw =>
      simp only [rusAlone, List.mem_cons, List.not_mem_nil, or_false] at hw
      refine ⟨?_, by omega⟩
      repeat' split
      all_goals omega

theorem votes_polled (T : PspTool) (polls : List Gram → Vote → Prop) (n : Nat)
    (h : ∀ gs v, polls gs v ↔ ∃ g, gs.head? = some g ∧ T.passes n (T.rowOf g.wdInfo) g.idForm = true ∧
      v = ⟨T.rowOf g.wdInfo, 1 / (n : Rat), gs.map fun d => T.formOf (T.rowOf g.wdInfo) d.idForm⟩) (lex : List (List Gram)) :
    Polled polls lex (lex.filterMap fun gs => gs.head?.bind fun g =>
      let row := T.rowOf g.wdInfo
      if T.passes n row g.idForm then some ⟨row, 1 / (n : Rat), gs.map fun g => T.formOf row g.idForm⟩ else none) := by
  induction lex with
  | nil => exact .none
  | cons gs lex ih =>
    cases hg : gs.head? with
    | none =>
      rw [List.filterMap_cons_none (by rw [hg]; rfl)]
      exact .silent (fun v hv => by obtain ⟨g, h1, -⟩ := (h gs v).1 hv; rw [hg] at h1; simp at h1) ih
    | some g =>
      by_cases hp : T.passes n (T.rowOf g.wdInfo) g.idForm = true
      · rw [List.filterMap_cons_some (b := ⟨T.rowOf g.wdInfo, 1 / (n : Rat), gs.map fun d => T.formOf (T.rowOf g.wdInfo) d.idForm⟩)
          (by rw [hg]; simp [hp])]
        exact .vote ((h gs _).2 ⟨g, hg, hp, rfl⟩) ih
      · rw [List.filterMap_cons_none (by rw [hg]; simp [hp])]
        exact .silent (fun v hv => by
          obtain ⟨g', h1, h2, -⟩ := (h gs v).1 hv
          rw [hg] at h1; injection h1 with h1; subst h1; exact hp h2) ih

theorem C93_votes_russian (lex : List (List Gram)) : Polled (RusVote lex.length) lex (rusPsp.votes lex) := by
  refine votes_polled rusPsp _ lex.length (fun gs v => ?_) lex
  constructor
  · rintro ⟨g, hg, hrow, hf, himp, hs, hlen, hcols⟩
    obtain ⟨hr, hr0⟩ := (toPartOfSp_iff _ _).2 hrow
    refine ⟨g, hg, ?_, ?_⟩
    · simp only [rusPsp, hr]
      simp [hf, hr0]
      omega
    · obtain ⟨row, share, cols⟩ := v
      simp only at hr hs hlen hcols himp
      congr 1
      · exact hr.symm
      · apply List.ext_getElem? 
        intro i
        rw [List.getElem?_map]
        cases hi : gs[i]? with
        | none =>
          rw [List.getElem?_eq_none_iff] at hi
          rw [List.getElem?_eq_none (by omega)]; rfl
        | some d =>
          rw [hcols i d hi]
          have : d.idForm ∈ List.range' 6 12 ↔ 6 ≤ d.idForm ∧ d.idForm ≤ 17 := by rw [List.mem_range'_1]; omega
          simp only [Option.map_some, rusPsp, mapVerbFid, hr, this]
          congr 1
          split <;> split <;> simp_all
  · rintro ⟨g, hg, hp, rfl⟩
    simp only [rusPsp] at hp
    simp only [Bool.and_eq_true, Bool.not_eq_true', Bool.and_eq_false_iff, decide_eq_false_iff_not, decide_eq_true_eq] at hp
    obtain ⟨⟨h1, h2⟩, h3⟩ := hp
    refine ⟨g, hg, (toPartOfSp_iff _ _).1 ⟨rfl, h3⟩, h2, ?_, rfl, by simp, ?_⟩
    · show ¬ (toPartOfSp g.wdInfo = 1 ∧ _)
      rintro ⟨a, b, c⟩
      rcases h1 with (h1 | h1) | h1 <;> [exact h1 a; exact h1 b; exact h1 c]
    · intro i d hi
      have : d.idForm ∈ List.range' 6 12 ↔ 6 ≤ d.idForm ∧ d.idForm ≤ 17 := by rw [List.mem_range'_1]; omega
      rw [List.getElem?_map, hi]
      simp only [Option.map_some, rusPsp, mapVerbFid, this]
      congr 1
      split <;> split <;> simp_all

theorem C93_votes_english (lex : List (List Gram)) : Polled (EngVote lex.length) lex (engPsp.votes lex) := by
  refine votes_polled engPsp _ lex.length (fun gs v => ?_) lex
  have key : ∀ p f : Nat, (f ≠ 255 && !(p = 0 || (p > 4 && p < 17) || p > 17)) = true ↔ f ≠ 255 ∧ p ∈ [1, 2, 3, 4, 17] := by
    intro p f
    simp only [List.mem_cons, List.not_mem_nil, or_false, Bool.and_eq_true, Bool.not_eq_true', Bool.or_eq_false_iff, Bool.and_eq_false_iff,
      decide_eq_false_iff_not, decide_eq_true_eq]
    constructor
    · rintro ⟨h, h2⟩; exact ⟨h, by omega⟩
    · rintro ⟨h, h2⟩; exact ⟨h, by omega⟩
  constructor
  · rintro ⟨g, hg, hrow, hp, hf, hs, hcols⟩
    obtain ⟨row, share, cols⟩ := v
    simp only at hrow hp hs hcols
    subst hrow hs hcols
    exact ⟨g, hg, (key _ _).2 ⟨hf, hp⟩, rfl⟩
  · rintro ⟨g, hg, hp, rfl⟩
    obtain ⟨h1, h2⟩ := (key _ _).1 hp
    exact ⟨g, hg, rfl, h2, h1, rfl, rfl⟩

/-- The number of a row and the size of an array are printed in two hexadecimal digits. -/
theorem C93_hex (n : Nat) : hexByte n = [(asciiBytes "0123456789abcdef").getD (n / 16 % 16) 0, (asciiBytes "0123456789abcdef").getD (n % 16) 0] := by
  have key : ∀ d < 16, (if d < 10 then 48 + d else 87 + d) = (asciiBytes "0123456789abcdef").getD d 0 := by decide
  simp only [hexByte, key _ (Nat.mod_lt _ (by decide : 0 < 16))]

/-- A word that is a noun or an imperative: only the noun votes; an imperative alone votes, and its present tense forms move. -/
example : rusPsp.votes [[⟨7, 1, 0, 0⟩], [⟨1, 2, 0, 0⟩]] = [⟨7, 1 / 2, [1]⟩] ∧ rusPsp.votes [[⟨1, 7, 0, 0⟩, ⟨1, 2, 0, 0⟩]] = [⟨1, 1, [19, 2]⟩] ∧
    engPsp.votes [[⟨1, 3, 0, 0⟩], [⟨17, 1, 0, 0⟩], [⟨5, 1, 0, 0⟩], [⟨2, 255, 0, 0⟩]] = [⟨1, 1 / 4, [3]⟩, ⟨17, 1 / 4, [1]⟩] := by
  refine ⟨?_, ?_, ?_⟩ <;> simp [PspTool.votes, rusPsp, engPsp, toPartOfSp, mapVerbFid]

end Libmorph
