import Verif.Lemmas.FuzzyMap
import Verif.Lemmas.FuzzyCaps
import Verif.Lemmas.EngForms
/-
The collector of the fuzzy lemmatizer.
-/
namespace Libmorph

variable {ω : Type}

/-! ### Groups of visits -/

/-- One more visit: to the last lemma, or to a new one. -/
def addVisit (xs : List FuzzyLemma) (v : Nat × FuzzyRef) : List FuzzyLemma :=
  match xs.getLast? with
  | none => xs ++ [⟨v.1 + 2, v.2.cls, [v.2]⟩]
  | some y =>
    if y.cls = v.2.cls ∧ y.ccstem = v.1 + 2 then xs.dropLast ++ [{ y with refs := y.refs ++ [v.2] }]
    else xs ++ [⟨v.1 + 2, v.2.cls, [v.2]⟩]

theorem addVisit_same (ys : List FuzzyLemma) (y : FuzzyLemma) (v : Nat × FuzzyRef) (h : y.cls = v.2.cls ∧ y.ccstem = v.1 + 2) :
    addVisit (ys ++ [y]) v = ys ++ [{ y with refs := y.refs ++ [v.2] }] := by
  simp [addVisit, h]

theorem addVisit_other (xs : List FuzzyLemma) (v : Nat × FuzzyRef)
    (h : ∀ y, xs.getLast? = some y → ¬ (y.cls = v.2.cls ∧ y.ccstem = v.1 + 2)) :
    addVisit xs v = xs ++ [⟨v.1 + 2, v.2.cls, [v.2]⟩] := by
  rw [addVisit]
  split
  · rfl
  · rename_i y hy; rw [if_neg (h y hy)]

theorem addVisit_refs (xs : List FuzzyLemma) (r : FuzzyRef) (cl : Nat) (rs : List FuzzyRef) (h : ∀ x ∈ rs, x.cls = r.cls)
    (ho : ∀ y, xs.getLast? = some y → ¬ (y.cls = r.cls ∧ y.ccstem = cl + 2)) :
    ((r :: rs).map fun x => (cl, x)).foldl addVisit xs = xs ++ [⟨cl + 2, r.cls, r :: rs⟩] := by
  have : ∀ (pre rs : List FuzzyRef), (∀ x ∈ rs, x.cls = r.cls) →
      (rs.map fun x => (cl, x)).foldl addVisit (xs ++ [⟨cl + 2, r.cls, pre⟩]) = xs ++ [⟨cl + 2, r.cls, pre ++ rs⟩] := by
    intro pre rs
    induction rs generalizing pre with
    | nil => intro _; simp
    | cons x rs ih =>
      intro hx
      rw [List.map_cons, List.foldl_cons, addVisit_same _ _ _ ⟨(hx x (by simp)).symm, rfl⟩]
      rw [ih _ fun y hy => hx y (by simp [hy])]
      simp
  rw [List.map_cons, List.foldl_cons, addVisit_other _ _ ho, this [r] rs h]
  rfl

theorem FuzzyClass.refsAt_cls {c : FuzzyClass} {i : Nat} {tail : List Byte} {r : FuzzyRef} (h : r ∈ c.refsAt i tail) :
    r.cls = i ∧ ∃ f ∈ c.flexes, ∃ m ∈ c.models, [m.s0, m.s1] ++ f.2 = tail ∧ r.power = m.weight ∧ r.form = f.1 := by
  simp only [FuzzyClass.refsAt, List.mem_flatMap, List.mem_filterMap] at h
  obtain ⟨f, hf, m, hm, h⟩ := h
  split at h
  · simp only [Option.some.injEq] at h
    subst h
    exact ⟨rfl, f, hf, m, hm, by assumption, rfl, rfl⟩
  · simp at h

/-- The lemmas of one end of the word. -/
def lemmasAt (fits : FuzzyClass → Bool) (cs : List (FuzzyClass × Nat)) (w : List Byte) (n : Nat) : List FuzzyLemma :=
  cs.filterMap fun p =>
    if p.1.refsAt p.2 (w.drop (w.length - n)) ≠ [] ∧ fits p.1 then
      some ⟨w.length - n + 2, p.2, p.1.refsAt p.2 (w.drop (w.length - n))⟩
    else none

theorem lemmasAt_mem {fits : FuzzyClass → Bool} {cs : List (FuzzyClass × Nat)} {w : List Byte} {n : Nat} {x : FuzzyLemma}
    (h : x ∈ lemmasAt fits cs w n) : x.ccstem = w.length - n + 2 ∧ x.refs ≠ [] ∧
      ∃ p ∈ cs, p.2 = x.cls ∧ fits p.1 ∧ x.refs = p.1.refsAt p.2 (w.drop (w.length - n)) := by
  simp only [lemmasAt, List.mem_filterMap] at h
  obtain ⟨p, hp, h⟩ := h
  split at h
  · rename_i hh
    simp only [Option.some.injEq] at h
    subst h
    exact ⟨rfl, hh.1, p, hp, rfl, hh.2, rfl⟩
  · simp at h

theorem fold_lemmasAt (fits : FuzzyClass → Bool) (all : List FuzzyClass) (w : List Byte) (n : Nat) :
    ∀ (cs : List (FuzzyClass × Nat)), (∀ p ∈ cs, all[p.2]? = some p.1) → (cs.map Prod.snd).Pairwise (· < ·) →
    ∀ (xs : List FuzzyLemma), (∀ y, xs.getLast? = some y → y.ccstem = w.length - n + 2 → ∀ p ∈ cs, y.cls < p.2) →
    (((cs.flatMap fun p => p.1.refsAt p.2 (w.drop (w.length - n))).map fun r => (w.length - n, r)).filter
      fun v => fits (classOf all v.2.cls)).foldl addVisit xs = xs ++ lemmasAt fits cs w n := by
  intro cs
  induction cs with
  | nil => intro _ _ xs _; simp [lemmasAt]
  | cons p cs ih =>
    intro hall hpw xs hx
    rw [List.map_cons, List.pairwise_cons] at hpw
    rw [List.flatMap_cons, List.map_append, List.filter_append, List.foldl_append]
    have hcls : ∀ r ∈ p.1.refsAt p.2 (w.drop (w.length - n)), classOf all r.cls = p.1 := by
      intro r hr
      rw [(FuzzyClass.refsAt_cls hr).1, classOf, hall p (by simp)]; rfl
    have e : (((p.1.refsAt p.2 (w.drop (w.length - n))).map fun r => (w.length - n, r)).filter
        fun v => fits (classOf all v.2.cls)) =
        if fits p.1 then (p.1.refsAt p.2 (w.drop (w.length - n))).map fun r => (w.length - n, r) else [] := by
      split
      · rename_i hf
        rw [List.filter_eq_self]
        intro v hv
        obtain ⟨r, hr, rfl⟩ := List.mem_map.1 hv
        simp only [hcls r hr, hf]
      · rename_i hf
        rw [List.filter_eq_nil_iff]
        intro v hv
        obtain ⟨r, hr, rfl⟩ := List.mem_map.1 hv
        simp only [hcls r hr, hf, Bool.false_eq_true, not_false_eq_true]
    have hl : lemmasAt fits (p :: cs) w n = (if p.1.refsAt p.2 (w.drop (w.length - n)) ≠ [] ∧ fits p.1 then
        [⟨w.length - n + 2, p.2, p.1.refsAt p.2 (w.drop (w.length - n))⟩] else []) ++ lemmasAt fits cs w n := by
      simp only [lemmasAt, List.filterMap_cons]
      split <;> rename_i h <;> split at h <;> simp_all
    rw [e, hl]
    by_cases hf : fits p.1 = true
    · rw [if_pos hf]
      cases hr : p.1.refsAt p.2 (w.drop (w.length - n)) with
      | nil =>
        simp only [List.map_nil, List.foldl_nil, ne_eq, not_true_eq_false, false_and, if_false, List.nil_append]
        exact ih (fun q hq => hall q (by simp [hq])) hpw.2 xs fun y hy h1 q hq => hx y hy h1 q (by simp [hq])
      | cons r rs =>
        have hc : ∀ x ∈ r :: rs, x.cls = p.2 := fun x hx => (FuzzyClass.refsAt_cls (hr ▸ hx)).1
        rw [addVisit_refs xs r _ rs (fun x hx => by rw [hc x (by simp [hx]), hc r (by simp)])
          (fun y hy hh => by have := hx y hy hh.2 p (by simp); rw [hc r (by simp)] at hh; omega)]
        rw [ih (fun q hq => hall q (by simp [hq])) hpw.2, if_pos ⟨by simp, hf⟩, hc r (by simp), List.append_assoc]
        intro y hy h1 q hq
        simp only [List.getLast?_append, List.getLast?_singleton, Option.some_or, Option.some.injEq] at hy
        subst hy
        rw [hc r (by simp)]
        exact hpw.1 q.2 (List.mem_map_of_mem hq)
    · rw [if_neg hf, if_neg fun h => hf h.2, List.foldl_nil, List.nil_append]
      exact ih (fun q hq => hall q (by simp [hq])) hpw.2 xs fun y hy h1 q hq => hx y hy h1 q (by simp [hq])

theorem zipIdx_pairwise (cs : List FuzzyClass) (k : Nat) : ((cs.zipIdx k).map Prod.snd).Pairwise (· < ·) := by
  rw [List.zipIdx_map_snd]
  exact List.pairwise_lt_range'

theorem zipIdx_get {cs : List FuzzyClass} {p : FuzzyClass × Nat} (h : p ∈ cs.zipIdx) : cs[p.2]? = some p.1 :=
  List.mem_zipIdx_iff_getElem?.1 h

/-- The visits that fit, grouped, are the lemmas. -/
theorem fold_visits (fits : FuzzyClass → Bool) (cs : List FuzzyClass) (w : List Byte) :
    ((fuzzyVisits cs w).filter fun v => fits (classOf cs v.2.cls)).foldl addVisit [] = fuzzyLemmas fits cs w := by
  have : ∀ k ≤ w.length + 1, (((List.range k).flatMap fun n => (fuzzyRefsAt cs (w.drop (w.length - n))).map fun r => (w.length - n, r)).filter
      fun v => fits (classOf cs v.2.cls)).foldl addVisit [] = (List.range k).flatMap fun n => lemmasAt fits cs.zipIdx w n := by
    intro k
    induction k with
    | zero => intro _; rfl
    | succ k ih =>
      intro hk
      rw [List.range_succ, List.flatMap_append, List.filter_append, List.foldl_append, ih (by omega), List.flatMap_append]
      simp only [List.flatMap_cons, List.flatMap_nil, List.append_nil]
      rw [fuzzyRefsAt, fold_lemmasAt fits cs w k _ (fun p hp => zipIdx_get hp) (zipIdx_pairwise cs 0)]
      intro y hy h1 p hp
      exfalso
      have hm := List.mem_of_getLast? hy
      rw [List.mem_flatMap] at hm
      obtain ⟨n, hn, hm⟩ := hm
      have := (lemmasAt_mem hm).1
      simp only [List.mem_range] at hn
      omega
  exact this _ (Nat.le_refl _)

/-! ### Stems -/

/-- The last stem without the number of its descriptions. -/
def openLast : List (FuzzyStem ω) → List (FuzzyStem ω)
  | [] => []
  | [x] => [{ x with ngrams := 0 }]
  | x :: y :: l => x :: openLast (y :: l)

theorem openLast_concat (l : List (FuzzyStem ω)) (a : FuzzyStem ω) : openLast (l ++ [a]) = l ++ [{ a with ngrams := 0 }] := by
  induction l with
  | nil => rfl
  | cons b l ih =>
    cases l with
    | nil => rfl
    | cons c l => simp only [List.cons_append] at ih ⊢; rw [openLast, ih]

theorem closeLast_concat (g : Nat) (l : List (FuzzyStem ω)) (a : FuzzyStem ω) :
    closeLast g (l ++ [a]) = l ++ [{ a with ngrams := g - a.pgrams.getD g }] := by
  induction l with
  | nil => rfl
  | cons b l ih =>
    cases l with
    | nil => rfl
    | cons c l => simp only [List.cons_append] at ih ⊢; rw [closeLast, ih]

section
variable (R : FuzzyRank ω) (L : FuzzyLang) (cs : List FuzzyClass) (w : List Byte)

/-- One stem as it is reported. -/
def fstemOf (hF hG : Bool) (o g : Nat) (x : FuzzyLemma) : FuzzyStem ω :=
  ⟨if hF then some o else none, x.ccstem, x.cls, if hG then some g else none, if hG then x.refs.length else 0, fuzzyWeight R cs w x⟩

theorem fuzzyLay_append (hF hG : Bool) (o g : Nat) (xs ys : List FuzzyLemma) :
    fuzzyLay R L cs w hF hG o g (xs ++ ys) = fuzzyLay R L cs w hF hG o g xs
      ++ fuzzyLay R L cs w hF hG (o + (fuzzyTexts L cs w xs).length) (g + (fuzzyGrams cs xs).length) ys := by
  induction xs generalizing o g with
  | nil => simp [fuzzyLay, fuzzyTexts, fuzzyGrams]
  | cons x xs ih =>
    simp only [List.cons_append, fuzzyLay, ih]
    congr 3
    · simp [fuzzyTexts]; omega
    · simp [fuzzyGrams]; omega

theorem fuzzyLay_concat (hF hG : Bool) (xs : List FuzzyLemma) (x : FuzzyLemma) :
    fuzzyLay R L cs w hF hG 0 0 (xs ++ [x]) = fuzzyLay R L cs w hF hG 0 0 xs
      ++ [fstemOf R cs w hF hG (fuzzyTexts L cs w xs).length (fuzzyGrams cs xs).length x] := by
  rw [fuzzyLay_append]; simp [fuzzyLay, fstemOf]

theorem fuzzyLay_length (hF hG : Bool) (o g : Nat) (xs : List FuzzyLemma) : (fuzzyLay R L cs w hF hG o g xs).length = xs.length := by
  induction xs generalizing o g with
  | nil => rfl
  | cons x xs ih => simp [fuzzyLay, ih]

theorem openLast_length (l : List (FuzzyStem ω)) : (openLast l).length = l.length := by
  rcases List.eq_nil_or_concat l with rfl | ⟨l, a, rfl⟩
  · rfl
  · simp only [List.concat_eq_append, openLast_concat, List.length_append, List.length_cons, List.length_nil]

theorem fuzzyTexts_concat (xs : List FuzzyLemma) (x : FuzzyLemma) :
    fuzzyTexts L cs w (xs ++ [x]) = fuzzyTexts L cs w xs ++ (fuzzyText L cs w x ++ [0]) := by
  simp [fuzzyTexts]

theorem fuzzyGrams_concat (xs : List FuzzyLemma) (x : FuzzyLemma) :
    fuzzyGrams cs (xs ++ [x]) = fuzzyGrams cs xs ++ x.refs.map fun r => ⟨(classOf cs x.cls).partSp, r.form, 0, 0⟩ := by
  simp [fuzzyGrams]

/-- The state after the lemmas `xs`. -/
structure FuzzyInv (pforms : Option (List Byte)) (pgrams : Option (List Gram)) (xs : List FuzzyLemma) (s : FuzzyState ω) : Prop where
  ne : ∀ x ∈ xs, x.refs ≠ []
  stems : s.stems = openLast (fuzzyLay R L cs w pforms.isSome pgrams.isSome 0 0 xs)
  forms0 : pforms = none → s.forms = ⟨none, 0⟩
  forms : ∀ B, pforms = some B → s.forms.Holds B (fuzzyTexts L cs w xs)
  grams : s.grams = pgrams.map fun G => fuzzyGrams cs xs ++ G.drop (fuzzyGrams cs xs).length
  gcur : s.gcur = if pgrams.isSome then (fuzzyGrams cs xs).length else 0

variable {R L cs w} {pforms : Option (List Byte)} {pgrams : Option (List Gram)}

theorem FuzzyInv.close {xs : List FuzzyLemma} {s : FuzzyState ω} (h : FuzzyInv R L cs w pforms pgrams xs s) :
    closeLast s.gcur s.stems = fuzzyLay R L cs w pforms.isSome pgrams.isSome 0 0 xs := by
  rw [h.stems, h.gcur]
  rcases List.eq_nil_or_concat xs with rfl | ⟨ys, y, rfl⟩
  · rfl
  · rw [List.concat_eq_append, fuzzyLay_concat, openLast_concat, closeLast_concat]
    congr 2
    cases hp : pgrams.isSome with
    | false => simp [fstemOf]
    | true => simp [fstemOf, fuzzyGrams_concat]

theorem FuzzyInv.last {xs : List FuzzyLemma} {s : FuzzyState ω} (h : FuzzyInv R L cs w pforms pgrams xs s) (v : Nat × FuzzyRef) :
    (s.stems.getLast?.any fun x => x.nclass == v.2.cls && x.ccstem == v.1 + 2) = true ↔
      ∃ y, xs.getLast? = some y ∧ y.cls = v.2.cls ∧ y.ccstem = v.1 + 2 := by
  rw [h.stems]
  rcases List.eq_nil_or_concat xs with rfl | ⟨ys, y, rfl⟩
  · simp [fuzzyLay, openLast]
  · rw [List.concat_eq_append, fuzzyLay_concat, openLast_concat]
    simp [fstemOf]

/-- Room for more is room for less. -/
theorem FuzzyRoom.back {xs : List FuzzyLemma} {v : Nat × FuzzyRef} (h : FuzzyRoom L cs w pforms pgrams (addVisit xs v)) :
    FuzzyRoom L cs w pforms pgrams xs := by
  rcases List.eq_nil_or_concat xs with rfl | ⟨ys, y, rfl⟩
  · exact ⟨by simp, by simp, by simp, by simp [fuzzyGrams]⟩
  · rw [List.concat_eq_append] at *
    by_cases hs : y.cls = v.2.cls ∧ y.ccstem = v.1 + 2
    · rw [addVisit_same _ _ _ hs] at h
      refine ⟨by simpa using h.count, ?_, ?_, ?_⟩
      · intro hp x hx
        rcases List.mem_append.1 hx with hx | hx
        · exact h.words hp x (by simp [hx])
        · simp only [List.mem_singleton] at hx
          subst hx
          exact h.words hp { x with refs := x.refs ++ [v.2] } (List.mem_append_right _ (List.mem_singleton.2 rfl))
      · intro B hB _
        have := h.forms B hB (by simp)
        rw [fuzzyTexts_concat] at this ⊢
        exact this
      · intro G hG
        have := h.grams G hG
        rw [fuzzyGrams_concat] at this ⊢
        simp at this ⊢
        omega
    · rw [addVisit_other _ _ (by intro z hz; simp at hz; subst hz; exact hs)] at h
      refine ⟨by have := h.count; simp at this ⊢; omega, ?_, ?_, ?_⟩
      · intro hp x hx; exact h.words hp x (List.mem_append_left _ hx)
      · intro B hB _
        have := h.forms B hB (by simp)
        rw [fuzzyTexts_concat] at this
        simp at this ⊢; omega
      · intro G hG
        have := h.grams G hG
        rw [fuzzyGrams_concat] at this
        simp at this ⊢
        omega

/-! ### One call -/

theorem strncpyOf_eq (f tl : List Byte) (h : ∀ b ∈ f, b ≠ 0) : strncpyOf (f ++ tl) f.length = some f := by
  rw [strncpyOf]
  have : ((f ++ tl).take f.length).takeWhile (· ≠ 0) = f := by
    rw [List.take_left]
    clear tl
    induction f with
    | nil => rfl
    | cons b f ih => rw [List.takeWhile_cons_of_pos (by simpa using h b (by simp)), ih fun b hb => h b (by simp [hb])]
  simp only [this]
  rw [if_neg (by simp)]
  simp

theorem pspMinCap_le (i : Nat) : pspMinCap i ≤ 2 := by
  rw [pspMinCap]; split
  · omega
  · split <;> omega

/-- A form in the array `szform`. -/
theorem fuzzyForm_eq (hL : L = rusFuzzy ∨ L = engFuzzy) (junk stem flex : List Byte) (partsp : Nat) (hp : partsp < 64)
    (h64 : stem.length + flex.length ≤ 64) (ht : Text (stem ++ flex)) (hj : FuzzyStops L junk (stem.length + flex.length)) :
    ∃ mem, fuzzyForm L junk stem flex partsp = some (L.printed (pspMinCap partsp) (stem ++ flex), mem) ∧
      ∀ n, FuzzyStops L junk n → FuzzyStops L mem n := by
  rw [fuzzyForm, if_neg (by omega)]
  simp only
  rcases hL with rfl | rfl
  · have hc : rusFuzzy.caps = true := rfl
    obtain ⟨x, h1, h2, h3⟩ := capSet_open (stem ++ flex) (junk.drop (stem.length + flex.length)) (pspMinCap partsp) (pspMinCap_le _)
      ht (hj hc)
    have hT : rusFuzzy.tab = rusTab := rfl
    rw [List.length_append] at h1 h2
    rw [if_pos hc, fuzzyMinCap, if_pos hp, hT, Option.bind_eq_bind, Option.bind_some, h1, Option.bind_eq_bind, Option.bind_some]
    refine ⟨rusPrinted (pspMinCap partsp) (stem ++ flex) ++ x, ?_, ?_⟩
    · rw [← h2, List.take_left, FuzzyLang.printed, if_pos hc]; rfl
    · intro n hn _
      by_cases hle : n ≤ stem.length + flex.length
      · obtain ⟨c, hc1, hc2⟩ := h3 0 (hj hc)
        refine ⟨c, ?_, hc2⟩
        rw [List.drop_append_of_le_length (by omega)]
        exact List.mem_append_right _ (by simpa using hc1)
      · obtain ⟨c, hc1, hc2⟩ := h3 (n - (stem.length + flex.length)) (by
          rw [List.drop_drop, Nat.add_sub_cancel' (by omega)]; exact hn hc)
        refine ⟨c, ?_, hc2⟩
        rw [List.drop_append, List.drop_of_length_le (by omega), List.nil_append, h2]
        exact hc1
  · have hc : ¬ engFuzzy.caps = true := by decide
    rw [if_neg hc]
    refine ⟨_, by rw [FuzzyLang.printed, if_neg hc, ← List.length_append, List.take_left], ?_⟩
    intro n _ h; exact absurd h hc

theorem fuzzyPrinted_length (hL : L = rusFuzzy ∨ L = engFuzzy) (d : Nat) (hd : d ≤ 2) (x : List Byte) (ht : Text x) :
    (L.printed d x).length = x.length := by
  rcases hL with rfl | rfl
  · exact (capSet_rusPrinted x [] d hd ht).2
  · rfl

/-- What is known of a visit: it comes from an ending of the class that ends the word. -/
def VisitOk (cs : List FuzzyClass) (w : List Byte) (v : Nat × FuzzyRef) : Prop :=
  ∃ c, cs[v.2.cls]? = some c ∧ ∃ f ∈ c.flexes, f.1 = v.2.form ∧ v.1 + 2 + f.2.length = w.length

theorem FuzzyRank.run_eq (hok : FuzzyOk R L cs) {v : Nat × FuzzyRef} (hv : VisitOk cs w v) (sets : Nat) :
    R.run (w.length - v.1 - 1) v.2.power (classOf cs v.2.cls).partSp v.2.form sets =
      some (R.weight (w.length - v.1 - 1) v.2.power (classOf cs v.2.cls).partSp v.2.form sets) := by
  obtain ⟨c, hc, f, hf, h1, h2⟩ := hv
  have hm : c ∈ cs := List.mem_of_getElem? hc
  have h3 := hok.short c hm f hf
  obtain ⟨n, h4, h5⟩ := hok.ranks c hm f hf
  have e : classOf cs v.2.cls = c := by rw [classOf, hc]; rfl
  rw [e, FuzzyRank.run, if_neg (by omega), h4]
  simp only [Option.bind_eq_bind, Option.bind_some]
  cases n with
  | none => rfl
  | some n =>
    have := h5 n rfl
    simp only
    rw [if_neg (by omega)]; rfl

/-- The lemma a visit opens. -/
def newLemma (v : Nat × FuzzyRef) : FuzzyLemma := ⟨v.1 + 2, v.2.cls, [v.2]⟩

/-- The part of the state that `fuzzyOpen` makes for a new lemma; descriptions come later. -/
structure FuzzyMid (R : FuzzyRank ω) (L : FuzzyLang) (cs : List FuzzyClass) (w : List Byte) (pforms : Option (List Byte))
    (pgrams : Option (List Gram)) (xs : List FuzzyLemma) (s s' : FuzzyState ω) : Prop where
  stems : s'.stems = openLast (fuzzyLay R L cs w pforms.isSome pgrams.isSome 0 0 xs)
  forms0 : pforms = none → s'.forms = ⟨none, 0⟩
  forms : ∀ B, pforms = some B → s'.forms.Holds B (fuzzyTexts L cs w xs)
  grams : s'.grams = s.grams
  gcur : s'.gcur = s.gcur

theorem fuzzyOpen_new (hL : L = rusFuzzy ∨ L = engFuzzy) (hok : FuzzyOk R L cs) (hw : Text w) {xs : List FuzzyLemma}
    {s : FuzzyState ω} (h : FuzzyInv R L cs w pforms pgrams xs s) {v : Nat × FuzzyRef} (hv : VisitOk cs w v)
    (hn : ∀ y, xs.getLast? = some y → ¬ (y.cls = v.2.cls ∧ y.ccstem = v.1 + 2)) (h64' : xs.length ≤ 64) (junk tl : List Byte)
    (hj : pforms.isSome → v.1 + 2 + (classOf cs v.2.cls).normal.length < 64 → FuzzyStops L junk (v.1 + 2 + (classOf cs v.2.cls).normal.length)) :
    (∃ s', fuzzyOpen L R junk w v.1 v.2 (classOf cs v.2.cls).partSp (if (classOf cs v.2.cls).accent then 1 else 0)
        ((classOf cs v.2.cls).rest ++ tl) s = some (none, s') ∧
        FuzzyMid R L cs w pforms pgrams (xs ++ [newLemma v]) s s' ∧ xs.length + 1 ≤ 64 ∧
        (pforms.isSome → v.1 + 2 + (classOf cs v.2.cls).normal.length < 64) ∧
        ∀ B, pforms = some B → (fuzzyTexts L cs w (xs ++ [newLemma v])).length < B.length) ∨
      (∃ e s', fuzzyOpen L R junk w v.1 v.2 (classOf cs v.2.cls).partSp (if (classOf cs v.2.cls).accent then 1 else 0)
        ((classOf cs v.2.cls).rest ++ tl) s = some (some e, s') ∧ e ∈ [LEMMBUFF_FAILED, WORDBUFF_FAILED, GRAMBUFF_FAILED] ∧
        ¬ FuzzyRoom L cs w pforms pgrams (xs ++ [newLemma v])) := by
  have hlast := (not_congr (h.last v)).2 (by rintro ⟨y, hy, h1⟩; exact hn y hy h1)
  have hrun := FuzzyRank.run_eq (R := R) (L := L) hok hv (if (classOf cs v.2.cls).accent then 1 else 0)
  have hclose := h.close
  obtain ⟨c, hc, f, hf, hf1, hf2⟩ := hv
  have hm : c ∈ cs := List.mem_of_getElem? hc
  have hcl : classOf cs v.2.cls = c := by rw [classOf, hc]; rfl
  rw [hcl] at hj hrun ⊢
  have hlen : s.stems.length = xs.length := by rw [h.stems, openLast_length, fuzzyLay_length]
  have hgc : s.grams.isSome = pgrams.isSome := by rw [h.grams]; simp
  have hst : (⟨s.forms.buf.map fun _ => s.forms.pos, v.1 + 2, v.2.cls, s.grams.map fun _ => s.gcur, 0,
      R.weight (w.length - v.1 - 1) v.2.power c.partSp v.2.form (if c.accent then 1 else 0)⟩ : FuzzyStem ω) =
      { fstemOf R cs w pforms.isSome pgrams.isSome (fuzzyTexts L cs w xs).length (fuzzyGrams cs xs).length (newLemma v) with ngrams := 0 } := by
    simp only [fstemOf, newLemma, fuzzyWeight, hcl, List.head?_cons, Option.map_some, Option.getD_some, Nat.add_sub_cancel]
    congr 1
    · cases pforms with
      | none => rw [h.forms0 rfl]; rfl
      | some B =>
        have hh := h.forms B rfl
        obtain ⟨y, hy, -⟩ := hh.mem
        rw [hy, hh.pos]; rfl
    · rw [h.grams, h.gcur]
      cases pgrams <;> rfl
  rw [fuzzyOpen, if_neg hlast, hrun]
  simp only [Option.bind_eq_bind, Option.bind_some]
  rw [hlen]
  by_cases h64 : xs.length = 64
  · rw [if_pos h64]
    refine Or.inr ⟨_, _, rfl, by simp, fun hr => ?_⟩
    have := hr.count
    simp at this; omega
  · rw [if_neg h64, hclose, hst]
    have hlay : fuzzyLay R L cs w pforms.isSome pgrams.isSome 0 0 xs
        ++ [{ fstemOf R cs w pforms.isSome pgrams.isSome (fuzzyTexts L cs w xs).length (fuzzyGrams cs xs).length (newLemma v) with ngrams := 0 }]
        = openLast (fuzzyLay R L cs w pforms.isSome pgrams.isSome 0 0 (xs ++ [newLemma v])) := by
      rw [fuzzyLay_concat, openLast_concat]
    rw [hlay]
    cases pforms with
    | none =>
      rw [h.forms0 rfl]
      rw [if_neg (by simp)]
      exact Or.inl ⟨_, rfl, ⟨rfl, fun _ => rfl, by simp, rfl, rfl⟩, by omega, by simp, by simp⟩
    | some B =>
      have hh := h.forms B rfl
      obtain ⟨y, hy, -⟩ := hh.mem
      obtain ⟨f0, fs, hfs⟩ : ∃ f0 fs, c.flexes = f0 :: fs := by
        cases hcf : c.flexes with
        | nil => rw [hcf] at hf; simp at hf
        | cons f0 fs => exact ⟨_, _, rfl⟩
      have hnorm : c.normal = f0.2 := by rw [FuzzyClass.normal, hfs]; rfl
      have hs0 := hok.short c hm f0 (by rw [hfs]; simp)
      have ht0 := hok.text c hm f0 (by rw [hfs]; simp)
      have hmod : f0.2.length % 256 = f0.2.length := Nat.mod_eq_of_lt (by omega)
      rw [if_pos (by rw [hy]; rfl)]
      obtain ⟨z, hz⟩ : ∃ z, getbyte ((c.rest ++ tl).drop 1) = some (f0.2.length, f0.2 ++ z) := by
        rw [FuzzyClass.rest, hfs, List.map_cons, List.flatten_cons, fuzzyFlexSer, hmod, List.take_length]
        simp only [List.append_assoc, List.cons_append, List.drop_succ_cons, List.drop_zero, getbyte]
        exact ⟨_, rfl⟩
      rw [hz]
      simp only [Option.bind_some]
      have htake : (w.take (v.1 + 2)).length = v.1 + 2 := by simp; omega
      by_cases h40 : v.1 + 2 + f0.2.length ≥ 0x40
      · rw [if_pos h40]
        refine Or.inr ⟨_, _, rfl, by simp, fun hr => ?_⟩
        have := hr.words rfl (newLemma v) (by simp)
        simp only [newLemma, hcl, hnorm] at this
        omega
      · rw [if_neg h40, strncpyOf_eq _ _ fun b hb => (ht0 b hb).1]
        simp only [Option.bind_some]
        rw [if_neg (by omega)]
        have htext : Text (w.take (v.1 + 2) ++ f0.2) := Text.append (fun b hb => hw b (List.mem_of_mem_take hb)) ht0
        obtain ⟨mem, hff, -⟩ := fuzzyForm_eq hL junk _ f0.2 c.partSp (hok.partSp c hm) (by omega) htext (by
          rw [htake, ← hnorm]; exact hj rfl (by rw [hnorm]; omega))
        rw [hff]
        simp only [Option.bind_some]
        have hft : L.printed (pspMinCap c.partSp) (w.take (v.1 + 2) ++ f0.2) = fuzzyText L cs w (newLemma v) := by
          simp only [fuzzyText, newLemma, hcl, hnorm]
        rw [hft]
        have hap := Coder.appendz_eq hh (fuzzyText L cs w (newLemma v))
        have hlen2 : (fuzzyTexts L cs w (xs ++ [newLemma v])).length
            = (fuzzyTexts L cs w xs).length + (fuzzyText L cs w (newLemma v)).length + 1 := by
          rw [fuzzyTexts_concat]; simp; omega
        by_cases hb : (fuzzyTexts L cs w xs).length + (fuzzyText L cs w (newLemma v)).length + 2 ≤ B.length
        · obtain ⟨c', h1, h2⟩ := hap.1 hb
          rw [h1]
          simp only [Option.bind_some, if_true]
          refine Or.inl ⟨_, rfl, ⟨rfl, by simp, ?_, rfl, rfl⟩, by omega, ?_, ?_⟩
          · intro B' hB'
            simp only [Option.some.injEq] at hB'
            subst hB'
            rw [fuzzyTexts_concat]; exact h2
          · intro _; rw [hnorm]; omega
          · intro B' hB'
            simp only [Option.some.injEq] at hB'
            subst hB'
            omega
        · obtain ⟨c', h1, -⟩ := hap.2 (by omega)
          rw [h1]
          simp only [Option.bind_some, Bool.false_eq_true, if_false]
          refine Or.inr ⟨_, _, rfl, by simp, fun hr => ?_⟩
          have := hr.forms B rfl (by simp)
          omega

/-- What one call of the collector does: nothing for a class whose capitalization the word lacks, otherwise one more visit,
or an error when there is no room for it. -/
theorem fuzzyCall_step (hL : L = rusFuzzy ∨ L = engFuzzy) (hok : FuzzyOk R L cs) (hw : Text w) (t : PTree) {xs : List FuzzyLemma}
    {s : FuzzyState ω} (h : FuzzyInv R L cs w pforms pgrams xs s) (hr : FuzzyRoom L cs w pforms pgrams xs)
    {v : Nat × FuzzyRef} (hv : VisitOk cs w v) (scheme dwsets : Nat) (junk : List Byte) (fits : FuzzyClass → Bool)
    (hfit : ∀ c, fits c = (dwsets &&& sfIgnoreCapitals != 0 || !L.caps || isGood scheme (pspMinCap c.partSp)))
    (hj : pforms.isSome → fits (classOf cs v.2.cls) → v.1 + 2 + (classOf cs v.2.cls).normal.length < 64 →
      FuzzyStops L junk (v.1 + 2 + (classOf cs v.2.cls).normal.length)) :
    (fits (classOf cs v.2.cls) = false ∧
      fuzzyCall L (fuzzyImages cs t) R junk w scheme dwsets v.1 v.2 s = some (none, s)) ∨
    (fits (classOf cs v.2.cls) = true ∧
      ((∃ s', fuzzyCall L (fuzzyImages cs t) R junk w scheme dwsets v.1 v.2 s = some (none, s') ∧
        FuzzyInv R L cs w pforms pgrams (addVisit xs v) s' ∧ FuzzyRoom L cs w pforms pgrams (addVisit xs v)) ∨
      (∃ e s', fuzzyCall L (fuzzyImages cs t) R junk w scheme dwsets v.1 v.2 s = some (some e, s') ∧
        e ∈ [LEMMBUFF_FAILED, WORDBUFF_FAILED, GRAMBUFF_FAILED] ∧ ¬ FuzzyRoom L cs w pforms pgrams (addVisit xs v)))) := by
  obtain ⟨c, hc, f, hf, hf1, hf2⟩ := id hv
  have hm : c ∈ cs := List.mem_of_getElem? hc
  have hcl : classOf cs v.2.cls = c := by rw [classOf, hc]; rfl
  obtain ⟨tl, hcr, -⟩ := (fuzzyClass_eq cs t v.2.cls hok.flexes).1 c hc
  have hp := hok.partSp c hm
  have hgood : (if (L.caps && dwsets &&& sfIgnoreCapitals == 0) = true then (fuzzyMinCap c.partSp).map (isGood scheme) else some true)
      = some (fits c) := by
    rw [hfit, fuzzyMinCap, if_pos hp, Option.map_some]
    cases L.caps <;> by_cases hi : dwsets &&& sfIgnoreCapitals = 0 <;> simp [hi]
  have hrest : fuzzyCall L (fuzzyImages cs t) R junk w scheme dwsets v.1 v.2 s = (if (!fits c) = true then some (none, s) else do
      let (r, s) ← fuzzyOpen L R junk w v.1 v.2 c.partSp (if c.accent then 1 else 0) (c.rest ++ tl) s
      match r with
      | some r => return (some r, s)
      | none =>
        match s.grams with
        | none => return (none, s)
        | some g =>
          if s.gcur < g.length then return (none, { s with grams := some (g.set s.gcur ⟨c.partSp, v.2.form, 0, 0⟩), gcur := s.gcur + 1 })
          else return (some GRAMBUFF_FAILED, s)) := by
    rw [fuzzyCall, hcr]
    simp only [Option.bind_eq_bind, Option.bind_some]
    rw [hgood]
    simp only [Option.bind_some]
    split <;> rfl
  rw [hcl] at hj ⊢
  rw [hrest]
  cases hfc : fits c with
  | false => exact Or.inl ⟨rfl, by simp⟩
  | true =>
    refine Or.inr ⟨rfl, ?_⟩
    simp only [Bool.not_true, Bool.false_eq_true, if_false]
    -- the descriptions
    have hgram : ∀ (mid : FuzzyState ω), mid.grams = s.grams → mid.gcur = s.gcur → ∀ ys : List FuzzyLemma,
        (fuzzyGrams cs ys = fuzzyGrams cs xs ++ [⟨c.partSp, v.2.form, 0, 0⟩]) →
        (∃ s', (match mid.grams with
          | none => some (none, mid)
          | some g =>
            if mid.gcur < g.length then some (none, { mid with grams := some (g.set mid.gcur ⟨c.partSp, v.2.form, 0, 0⟩), gcur := mid.gcur + 1 })
            else some (some GRAMBUFF_FAILED, mid)) = some (none, s') ∧ s'.stems = mid.stems ∧ s'.forms = mid.forms ∧
            s'.grams = (pgrams.map fun G => fuzzyGrams cs ys ++ G.drop (fuzzyGrams cs ys).length) ∧
            s'.gcur = (if pgrams.isSome then (fuzzyGrams cs ys).length else 0) ∧
            ∀ G, pgrams = some G → (fuzzyGrams cs ys).length ≤ G.length) ∨
        (∃ s', (match mid.grams with
          | none => some (none, mid)
          | some g =>
            if mid.gcur < g.length then some (none, { mid with grams := some (g.set mid.gcur ⟨c.partSp, v.2.form, 0, 0⟩), gcur := mid.gcur + 1 })
            else some (some GRAMBUFF_FAILED, mid)) = some (some GRAMBUFF_FAILED, s') ∧
            ∃ G, pgrams = some G ∧ ¬ (fuzzyGrams cs ys).length ≤ G.length) := by
      intro mid h1 h2 ys hys
      rw [h1, h2, h.grams, h.gcur]
      cases pgrams with
      | none => exact Or.inl ⟨mid, rfl, rfl, rfl, by rw [h1, h.grams]; rfl, by rw [h2, h.gcur]; rfl, by simp⟩
      | some G =>
        have hle := hr.grams G rfl
        simp only [Option.map_some, Option.isSome_some, if_true]
        have hl : (fuzzyGrams cs xs ++ G.drop (fuzzyGrams cs xs).length).length = G.length := by simp; omega
        rw [hl, hys]
        by_cases hlt : (fuzzyGrams cs xs).length < G.length
        · rw [if_pos hlt]
          refine Or.inl ⟨_, rfl, rfl, rfl, ?_, by simp, ?_⟩
          · simp only [Option.some.injEq]
            rw [List.set_append_right _ _ (Nat.le_refl _), Nat.sub_self, List.drop_eq_getElem_cons hlt, List.set_cons_zero]
            simp
          · intro G' hG'
            simp only [Option.some.injEq] at hG'
            subst hG'
            simp; omega
        · rw [if_neg hlt]
          exact Or.inr ⟨_, rfl, G, rfl, by simp; omega⟩
    by_cases hs : ∃ y, xs.getLast? = some y ∧ y.cls = v.2.cls ∧ y.ccstem = v.1 + 2
    · have hlast := (h.last v).2 hs
      rw [fuzzyOpen, if_pos hlast]
      simp only [Option.bind_eq_bind, Option.bind_some]
      obtain ⟨y, hy, hy1⟩ := hs
      rcases List.eq_nil_or_concat xs with rfl | ⟨ys, y', rfl⟩
      · simp at hy
      · rw [List.concat_eq_append] at *
        simp only [List.getLast?_append, List.getLast?_singleton, Option.some_or, Option.some.injEq] at hy
        subst hy
        rw [addVisit_same _ _ _ hy1]
        have hcy : classOf cs y'.cls = c := by rw [hy1.1, hcl]
        have hge : fuzzyGrams cs (ys ++ [{ y' with refs := y'.refs ++ [v.2] }]) =
            fuzzyGrams cs (ys ++ [y']) ++ [⟨c.partSp, v.2.form, 0, 0⟩] := by
          rw [fuzzyGrams_concat, fuzzyGrams_concat]
          simp [hcy]
        have hte : fuzzyTexts L cs w (ys ++ [{ y' with refs := y'.refs ++ [v.2] }]) = fuzzyTexts L cs w (ys ++ [y']) := by
          rw [fuzzyTexts_concat, fuzzyTexts_concat]; rfl
        have hy0 : y'.refs ≠ [] := h.ne y' (by simp)
        have hle : openLast (fuzzyLay R L cs w pforms.isSome pgrams.isSome 0 0 (ys ++ [{ y' with refs := y'.refs ++ [v.2] }])) =
            openLast (fuzzyLay R L cs w pforms.isSome pgrams.isSome 0 0 (ys ++ [y'])) := by
          rw [fuzzyLay_concat, fuzzyLay_concat, openLast_concat, openLast_concat]
          congr 2
          obtain ⟨r0, rs, hrs⟩ := List.exists_cons_of_ne_nil hy0
          simp only [fstemOf, fuzzyWeight, hrs, List.cons_append, List.head?_cons]
        rcases hgram s rfl rfl _ hge with ⟨s', e1, e2, e3, e4, e5, e6⟩ | ⟨s', e1, G, e2, e3⟩
        · refine Or.inl ⟨s', e1, ⟨?_, by rw [e2, h.stems, hle], fun hp => by rw [e3, h.forms0 hp], fun B hB => by
            rw [e3, hte]; exact h.forms B hB, e4, e5⟩, ⟨by simpa using hr.count, ?_, ?_, e6⟩⟩
          · intro x hx
            rcases List.mem_append.1 hx with hx | hx
            · exact h.ne x (by simp [hx])
            · simp only [List.mem_singleton] at hx; subst hx; simp
          · intro hp x hx
            rcases List.mem_append.1 hx with hx | hx
            · exact hr.words hp x (by simp [hx])
            · simp only [List.mem_singleton] at hx; subst hx; exact hr.words hp y' (by simp)
          · intro B hB _; rw [hte]; exact hr.forms B hB (by simp)
        · exact Or.inr ⟨_, s', e1, by simp, fun hr' => e3 (hr'.grams G e2)⟩
    · have hn : ∀ y, xs.getLast? = some y → ¬ (y.cls = v.2.cls ∧ y.ccstem = v.1 + 2) := fun y hy hh => hs ⟨y, hy, hh⟩
      rw [addVisit_other _ _ hn]
      have hge : fuzzyGrams cs (xs ++ [newLemma v]) = fuzzyGrams cs xs ++ [⟨c.partSp, v.2.form, 0, 0⟩] := by
        rw [fuzzyGrams_concat]; simp [newLemma, hcl]
      have hnew := fuzzyOpen_new hL hok hw h hv hn hr.count junk tl
      rw [hcl] at hnew
      rcases hnew (fun hp => hj hp hfc) with ⟨s1, k1, k2, k3, k4, k5⟩ | ⟨e, s1, k1, k2, k3⟩
      · rw [k1]
        simp only [Option.bind_eq_bind, Option.bind_some]
        rcases hgram s1 k2.grams k2.gcur _ hge with ⟨s', e1, e2, e3, e4, e5, e6⟩ | ⟨s', e1, G, e2, e3⟩
        · refine Or.inl ⟨s', e1, ⟨?_, by rw [e2]; exact k2.stems, fun hp => by rw [e3]; exact k2.forms0 hp, fun B hB => by
            rw [e3]; exact k2.forms B hB, e4, e5⟩, ⟨by simp only [List.length_append, List.length_singleton]; omega, ?_, ?_, e6⟩⟩
          · intro x hx
            rcases List.mem_append.1 hx with hx | hx
            · exact h.ne x hx
            · simp only [List.mem_singleton] at hx; subst hx; simp
          · intro hp x hx
            rcases List.mem_append.1 hx with hx | hx
            · exact hr.words hp x hx
            · simp only [List.mem_singleton] at hx; subst hx; simp only [hcl]; exact k4 hp
          · intro B hB _; exact k5 B hB
        · exact Or.inr ⟨_, s', e1, by simp, fun hr' => e3 (hr'.grams G e2)⟩
      · rw [k1]
        exact Or.inr ⟨e, s1, rfl, k2, k3⟩

end

end Libmorph
