import Mathlib.Logic.Relation
import Verif.Lemmas.MakeMap
/-
Merging of classes: one class takes up another.
-/
namespace Libmorph

theorem coverForms_iff : ∀ (a b : List MForm), a.Pairwise MForm.Le → b.Pairwise MForm.Le → (coverForms a b = true ↔ b.Sublist a)
  | a, [], _, _ => by cases a <;> simp [coverForms]
  | [], b :: bs, _, _ => by simp [coverForms]
  | a :: as, b :: bs, ha, hb => by
    have ha' := List.pairwise_cons.1 ha
    simp only [coverForms]
    split
    · rename_i hlt
      rw [coverForms_iff as (b :: bs) ha'.2 hb]
      constructor
      · exact fun h => h.cons a
      · intro h
        cases h with
        | cons _ h => exact h
        | cons_cons _ h => rw [MForm.lt_irrefl] at hlt; cases hlt
    · rename_i hlt
      split
      · rename_i hlt'
        simp only [Bool.false_eq_true, false_iff]
        intro h
        have hmem : b ∈ a :: as := h.subset (by simp)
        rcases List.mem_cons.1 hmem with rfl | hmem
        · rw [MForm.lt_irrefl] at hlt'; cases hlt'
        · have := ha'.1 b hmem
          unfold MForm.Le at this
          rw [this] at hlt'; cases hlt'
      · rename_i hlt'
        have he : a = b := by
          rcases MForm.lt_tri a b with h | h | h
          · exact absurd h hlt
          · exact absurd h hlt'
          · exact h
        subst he
        rw [coverForms_iff as bs ha'.2 (List.pairwise_cons.1 hb).2, List.cons_sublist_cons]

/-! ### The choice -/

theorem mergePick_spec (key : ClassKey) : ∀ (ts : ClassMap) (sel : Option (ClassKey × ClassVal)),
    (mergePick key ts sel = none ↔ sel = none ∧ ∀ t ∈ ts, ¬ (t.1.1 = 1 ∧ coverForms key.2 t.1.2 = true)) ∧
    ∀ s, mergePick key ts sel = some s → (sel = some s ∨ s ∈ ts ∧ s.1.1 = 1 ∧ coverForms key.2 s.1.2 = true) ∧
      (∀ t ∈ ts, t.1.1 = 1 → coverForms key.2 t.1.2 = true → t.1.2.length ≤ s.1.2.length) ∧ ∀ o, sel = some o → o.1.2.length ≤ s.1.2.length
  | [], sel => by
    refine ⟨by simp [mergePick], fun s hs => ?_⟩
    simp only [mergePick] at hs
    refine ⟨.inl hs, by simp, fun o ho => ?_⟩
    rw [hs] at ho; cases ho; exact Nat.le_refl _
  | t :: ts, sel => by
    simp only [mergePick, Bool.and_eq_true, decide_eq_true_eq]
    split
    · rename_i hc
      cases sel with
      | none =>
        obtain ⟨h1, h2⟩ := mergePick_spec key ts (some t)
        constructor
        · constructor
          · intro h; exact absurd (h1.1 h).1 (by simp)
          · rintro ⟨-, h⟩; exact absurd hc (h t (by simp))
        · intro s hs
          obtain ⟨h3, h4, h5⟩ := h2 s hs
          refine ⟨.inr ?_, ?_, by simp⟩
          · rcases h3 with h3 | h3
            · cases h3; exact ⟨by simp, hc⟩
            · exact ⟨by simp [h3.1], h3.2⟩
          · intro u hu h6 h7
            rcases List.mem_cons.1 hu with rfl | hu
            · exact h5 _ rfl
            · exact h4 u hu h6 h7
      | some o =>
        simp only
        obtain ⟨h1, h2⟩ := mergePick_spec key ts (some (if o.1.2.length < t.1.2.length then t else o))
        constructor
        · constructor
          · intro h; exact absurd (h1.1 h).1 (by simp)
          · rintro ⟨h, -⟩; cases h
        · intro s hs
          obtain ⟨h3, h4, h5⟩ := h2 s hs
          have h6 := h5 _ rfl
          refine ⟨?_, ?_, ?_⟩
          · rcases h3 with h3 | h3
            · rw [Option.some.injEq] at h3
              split at h3
              · subst h3; exact .inr ⟨by simp, hc⟩
              · subst h3; exact .inl rfl
            · exact .inr ⟨by simp [h3.1], h3.2⟩
          · intro u hu h8 h9
            rcases List.mem_cons.1 hu with rfl | hu
            · split at h6 <;> omega
            · exact h4 u hu h8 h9
          · intro o' ho'
            rw [Option.some.injEq] at ho'
            subst ho'
            split at h6 <;> omega
    · rename_i hc
      obtain ⟨h1, h2⟩ := mergePick_spec key ts sel
      constructor
      · rw [h1]
        constructor
        · rintro ⟨h3, h4⟩
          refine ⟨h3, fun u hu => ?_⟩
          rcases List.mem_cons.1 hu with rfl | hu
          · exact hc
          · exact h4 u hu
        · rintro ⟨h3, h4⟩
          exact ⟨h3, fun u hu => h4 u (by simp [hu])⟩
      · intro s hs
        obtain ⟨h3, h4, h5⟩ := h2 s hs
        refine ⟨h3.imp id fun h => ⟨by simp [h.1], h.2⟩, ?_, h5⟩
        intro u hu h6 h7
        rcases List.mem_cons.1 hu with rfl | hu
        · exact absurd ⟨h6, h7⟩ hc
        · exact h4 u hu h6 h7

/-! ### The samples of the class taken up -/

/-- A value as it is to be. -/
structure ValOk (v : ClassVal) : Prop where
  order : v.charSet.Pairwise fun a b => a.suffix.Before b.suffix
  accent : ∀ s ∈ v.charSet, s.suffix.accent = v.schemeB
  total : v.modProd = (v.charSet.map (·.mdProd)).sum

theorem addSuffix_sum (suffix : ClassSuffix) (sample : List Byte) (n : Nat) (forced : Bool) (ss : List ClassSample) :
    ((addSuffix suffix sample n forced ss).map (·.mdProd)).sum = (ss.map (·.mdProd)).sum + n := by
  induction ss with
  | nil => simp [addSuffix]
  | cons x xs ih =>
    simp only [addSuffix]
    split
    · simp only [List.map_cons, List.sum_cons, ih]; omega
    · split
      · simp only [List.map_cons, List.sum_cons]; omega
      · simp only [List.map_cons, List.sum_cons]; omega

theorem addSuffix_weight (suffix : ClassSuffix) (sample : List Byte) (n : Nat) (forced : Bool) (ss : List ClassSample) (s0 s1 : Byte) :
    (((addSuffix suffix sample n forced ss).filter fun s => s.suffix.s0 = s0 ∧ s.suffix.s1 = s1).map (·.mdProd)).sum
      = ((ss.filter fun s => s.suffix.s0 = s0 ∧ s.suffix.s1 = s1).map (·.mdProd)).sum + if suffix.s0 = s0 ∧ suffix.s1 = s1 then n else 0 := by
  induction ss with
  | nil => simp only [addSuffix, List.filter_cons, List.filter_nil, decide_eq_true_eq]; split <;> simp
  | cons x xs ih =>
    simp only [addSuffix]
    split
    · simp only [List.filter_cons, decide_eq_true_eq]
      split
      · simp only [List.map_cons, List.sum_cons, ih]; omega
      · exact ih
    · split
      · rename_i hs
        simp only [ClassSuffix.same, Bool.and_eq_true, beq_iff_eq] at hs
        simp only [List.filter_cons, decide_eq_true_eq, hs.1, hs.2]
        split
        · simp only [List.map_cons, List.sum_cons]; omega
        · rfl
      · rw [List.filter_cons (xs := x :: xs)]
        simp only [decide_eq_true_eq]
        split
        · simp only [List.map_cons, List.sum_cons]; omega
        · rfl

theorem addSamples_spec : ∀ (ss : List ClassSample) (v : ClassVal), ValOk v → (∀ s ∈ ss, s.suffix.accent = v.schemeB) →
    ∃ v', addSamples v ss = .done v' ∧ ValOk v' ∧ v'.schemeB = v.schemeB ∧ v'.modProd = v.modProd + (ss.map (·.mdProd)).sum ∧
      (∀ s0 s1, v'.weight s0 s1 = v.weight s0 s1 + ((ss.filter fun s => s.suffix.s0 = s0 ∧ s.suffix.s1 = s1).map (·.mdProd)).sum) ∧
      ∀ t ∈ v'.charSet, ∃ s ∈ v.charSet ++ ss, s.suffix = t.suffix ∧ s.sample = t.sample
  | [], v, hv, _ => ⟨v, rfl, hv, rfl, by simp, by simp, fun t ht => ⟨t, by simp [ht], rfl, rfl⟩⟩
  | s :: ss, v, hv, ha => by
    have hs := ha s (by simp)
    have hadd : v.add s.suffix s.sample s.mdProd false = .done ⟨addSuffix s.suffix s.sample s.mdProd false v.charSet, v.modProd + s.mdProd, v.schemeB⟩ := by
      rw [ClassVal.add, if_neg (by simp [hs])]
    have hacc : ∀ t ∈ v.charSet, t.suffix.accent = s.suffix.accent := fun t ht => by rw [hs]; exact hv.accent t ht
    have hmem := mem_addSuffix s.suffix s.sample s.mdProd false v.charSet hv.order hacc
    have hv1 : ValOk ⟨addSuffix s.suffix s.sample s.mdProd false v.charSet, v.modProd + s.mdProd, v.schemeB⟩ := by
      refine ⟨addSuffix_order _ _ _ _ _ hv.order, fun t ht => ?_, ?_⟩
      · rcases (hmem t).1 ht with ⟨h, -⟩ | ⟨o, ho, -, rfl⟩ | ⟨-, rfl⟩
        · exact hv.accent t h
        · exact hs
        · exact hs
      · simp only [addSuffix_sum, hv.total]
    obtain ⟨v', h1, h2, h3, h4, h5, h6⟩ := addSamples_spec ss _ hv1 fun t ht => ha t (by simp [ht])
    refine ⟨v', by rw [addSamples, hadd]; exact h1, h2, h3, ?_, ?_, ?_⟩
    · rw [h4]; simp only [List.map_cons, List.sum_cons]; omega
    · intro s0 s1
      rw [h5 s0 s1]
      simp only [ClassVal.weight, addSuffix_weight, List.filter_cons (xs := ss), decide_eq_true_eq]
      split
      · simp only [List.map_cons, List.sum_cons]; omega
      · omega
    · intro t ht
      obtain ⟨u, hu, h7, h8⟩ := h6 t ht
      rcases List.mem_append.1 hu with hu | hu
      · rcases (hmem u).1 hu with ⟨h, -⟩ | ⟨o, ho, h9, rfl⟩ | ⟨-, rfl⟩
        · exact ⟨u, by simp [h], h7, h8⟩
        · exact ⟨o, by simp [ho], by rw [h9]; exact h7, by simpa using h8⟩
        · exact ⟨s, by simp, h7, h8⟩
      · exact ⟨u, by simp [hu], h7, h8⟩

/-! ### One class takes up another -/

/-- One step of the tool. -/
structure Step (m m' : ClassMap) (c s : ClassKey) (v w v' : ClassVal) : Prop where
  hc : (c, v) ∈ m
  hs : (s, w) ∈ m
  ne : s ≠ c
  one : c.1 = 1 ∧ s.1 = 1
  sub : s.2.Sublist c.2
  longest : ∀ k ∈ m.map (·.1), k.1 = 1 → k ≠ c → k.2.Sublist c.2 → k.2.length ≤ s.2.length
  add : addSamples v w.charSet = .done v'
  res : m' = (m.filter fun e => e.1 ≠ s).map fun e => if e.1 = c then (c, v') else e

theorem MapOk.val {m : ClassMap} (h : MapOk m) {e : ClassKey × ClassVal} (he : e ∈ m) : ValOk e.2 :=
  ⟨h.order e he, h.accent e he, h.total e he⟩

theorem mem_unique {m : ClassMap} (h : (m.map (·.1)).Nodup) {k : ClassKey} {v w : ClassVal} (h1 : (k, v) ∈ m) (h2 : (k, w) ∈ m) : v = w := by
  induction m with
  | nil => simp at h1
  | cons x xs ih =>
    rw [List.map_cons, List.nodup_cons] at h
    rcases List.mem_cons.1 h1 with g1 | g1 <;> rcases List.mem_cons.1 h2 with g2 | g2
    · rw [← g1] at g2; cases g2; rfl
    · exact absurd (List.mem_map.2 ⟨(k, w), g2, by rw [← g1]⟩) h.1
    · exact absurd (List.mem_map.2 ⟨(k, v), g1, by rw [← g2]⟩) h.1
    · exact ih h.2 g1 g2

variable {m m' : ClassMap} {c s : ClassKey} {v w v' : ClassVal}

theorem Step.keys (h : Step m m' c s v w v') : m'.map (·.1) = (m.map (·.1)).filter (· ≠ s) := by
  rw [h.res, List.map_map]
  have : ((fun x : ClassKey × ClassVal => x.1) ∘ fun e : ClassKey × ClassVal => if e.1 = c then (c, v') else e) = fun e : ClassKey × ClassVal => e.1 := by
    funext e
    simp only [Function.comp]
    split
    · rename_i he; exact he.symm
    · rfl
  rw [this, List.filter_map]
  rfl

theorem Step.mem (h : Step m m' c s v w v') (e : ClassKey × ClassVal) : e ∈ m' ↔ (e ∈ m ∧ e.1 ≠ s ∧ e.1 ≠ c) ∨ e = (c, v') := by
  rw [h.res, List.mem_map]
  constructor
  · rintro ⟨d, hd, rfl⟩
    rw [List.mem_filter, decide_eq_true_eq] at hd
    split
    · exact .inr rfl
    · rename_i hc; exact .inl ⟨hd.1, hd.2, hc⟩
  · rintro (⟨h1, h2, h3⟩ | rfl)
    · exact ⟨e, List.mem_filter.2 ⟨h1, by simpa using h2⟩, if_neg h3⟩
    · exact ⟨(c, v), List.mem_filter.2 ⟨h.hc, by simpa using fun h' => h.ne h'.symm⟩, if_pos rfl⟩

theorem Step.added (h : Step m m' c s v w v') (hm : MapOk m) :
    ValOk v' ∧ v'.schemeB = v.schemeB ∧ v'.modProd = v.modProd + w.modProd ∧ (∀ s0 s1, v'.weight s0 s1 = v.weight s0 s1 + w.weight s0 s1) ∧
      ∀ t ∈ v'.charSet, ∃ s ∈ v.charSet ++ w.charSet, s.suffix = t.suffix ∧ s.sample = t.sample := by
  have hacc : ∀ t ∈ w.charSet, t.suffix.accent = v.schemeB := by
    intro t ht
    rw [hm.accent _ h.hs t ht, hm.plain _ h.hs h.one.2, hm.plain _ h.hc h.one.1]
  obtain ⟨u, h1, h2, h3, h4, h5, h6⟩ := addSamples_spec w.charSet v (hm.val h.hc) hacc
  rw [h.add] at h1
  cases h1
  exact ⟨h2, h3, by rw [h4, hm.total _ h.hs], h5, h6⟩

theorem Step.ok (h : Step m m' c s v w v') (hm : MapOk m) : MapOk m' := by
  obtain ⟨a1, a2, -⟩ := h.added hm
  refine ⟨by rw [h.keys]; exact hm.once.filter _, ?_, ?_, ?_, ?_, ?_⟩
  all_goals intro e he
  all_goals rcases (h.mem e).1 he with ⟨he', -, -⟩ | rfl
  · exact hm.forms e he'
  · exact hm.forms (c, v) h.hc
  · exact hm.order e he'
  · exact a1.order
  · exact hm.accent e he'
  · exact a1.accent
  · exact hm.total e he'
  · exact a1.total
  · exact hm.plain e he'
  · intro _; rw [a2]; exact hm.plain _ h.hc h.one.1

theorem sum_filter_or {α : Type} (l : List α) (p q : α → Prop) [DecidablePred p] [DecidablePred q] (hd : ∀ a, ¬ (p a ∧ q a)) (f : α → Nat) :
    ((l.filter fun a => p a ∨ q a).map f).sum = ((l.filter fun a => p a).map f).sum + ((l.filter fun a => q a).map f).sum := by
  induction l with
  | nil => rfl
  | cons a as ih =>
    have := hd a
    simp only [List.filter_cons, decide_eq_true_eq]
    by_cases hp : p a <;> by_cases hq : q a
    · exact absurd ⟨hp, hq⟩ this
    · simp only [hp, hq, true_or, if_true, if_false, List.map_cons, List.sum_cons, ih]; omega
    · simp only [hp, hq, or_true, if_true, if_false, List.map_cons, List.sum_cons, ih]; omega
    · simp only [hp, hq, or_self, if_false, ih]

/-- The map while it is merged. -/
structure Partly (m0 m : ClassMap) (φ : ClassKey → ClassKey) : Prop where
  kept : ∀ k ∈ m.map (·.1), k ∈ m0.map (·.1) ∧ φ k = k
  into : ∀ k ∈ m0.map (·.1), φ k ∈ m.map (·.1) ∧ (φ k).1 = k.1 ∧ k.2.Sublist (φ k).2
  others : ∀ e, e.1.1 ≠ 1 → (e ∈ m ↔ e ∈ m0)
  count : ∀ e ∈ m, e.2.modProd = ((joined φ m0 e.1).map (·.2.modProd)).sum
  weight : ∀ e ∈ m, ∀ s0 s1, e.2.weight s0 s1 = ((joined φ m0 e.1).map fun d => d.2.weight s0 s1).sum
  accent : ∀ e ∈ m, ∀ d ∈ joined φ m0 e.1, d.2.schemeB = e.2.schemeB
  samples : ∀ e ∈ m, ∀ s ∈ e.2.charSet, ∃ d ∈ joined φ m0 e.1, ∃ t ∈ d.2.charSet, t.suffix = s.suffix ∧ t.sample = s.sample

theorem partly_refl (hm : MapOk m) : Partly m m id := by
  have hj : ∀ e ∈ m, joined id m e.1 = [e] := by
    intro e he
    have h1 := hm.once
    revert he
    unfold joined
    clear hm
    induction m with
    | nil => simp
    | cons x xs ih =>
      intro he
      rw [List.map_cons, List.nodup_cons] at h1
      rcases List.mem_cons.1 he with rfl | he
      · rw [List.filter_cons_of_pos (by simp), List.filter_eq_nil_iff.2]
        intro d hd
        rw [decide_eq_true_eq]
        exact fun h => h1.1 (List.mem_map.2 ⟨d, hd, h⟩)
      · rw [List.filter_cons_of_neg, ih h1.2 he]
        rw [decide_eq_true_eq]
        exact fun h => h1.1 (List.mem_map.2 ⟨e, he, h.symm⟩)
  refine ⟨fun k hk => ⟨hk, rfl⟩, fun k hk => ⟨hk, rfl, List.Sublist.refl _⟩, fun _ _ => Iff.rfl, ?_, ?_, ?_, ?_⟩
  · intro e he; simp [hj e he]
  · intro e he; simp [hj e he]
  · intro e he; simp [hj e he]
  · intro e he; rw [hj e he]; intro s hs; exact ⟨e, by simp, s, hs, rfl, rfl⟩

theorem Partly.step {m0 : ClassMap} {φ : ClassKey → ClassKey} (hp : Partly m0 m φ) (hm : MapOk m) (h : Step m m' c s v w v') :
    Partly m0 m' fun k => if φ k = s then c else φ k := by
  obtain ⟨a1, a2, a3, a4, a5⟩ := h.added hm
  have hks : s ∈ m.map (·.1) := List.mem_map.2 ⟨_, h.hs, rfl⟩
  have hkc : c ∈ m.map (·.1) := List.mem_map.2 ⟨_, h.hc, rfl⟩
  have hcm' : c ∈ m'.map (·.1) := by
    rw [h.keys]
    exact List.mem_filter.2 ⟨hkc, by simpa using fun h' => h.ne h'.symm⟩
  have hφs := (hp.kept s hks).2
  have hjc : joined (fun k => if φ k = s then c else φ k) m0 c = m0.filter fun e => φ e.1 = c ∨ φ e.1 = s := by
    unfold joined
    congr 1
    funext e
    by_cases h1 : φ e.1 = s
    · simp [h1]
    · simp [h1]
  have hjo : ∀ k, k ≠ c → k ≠ s → joined (fun k => if φ k = s then c else φ k) m0 k = joined φ m0 k := by
    intro k hk1 hk2
    unfold joined
    congr 1
    funext e
    by_cases h1 : φ e.1 = s
    · simp only [h1]
      rw [if_pos trivial, decide_eq_false (fun h => hk1 h.symm), decide_eq_false (fun h => hk2 h.symm)]
    · simp only [h1, if_false]
  have hdis : ∀ e : ClassKey × ClassVal, ¬ (φ e.1 = c ∧ φ e.1 = s) := by
    rintro e ⟨h1, h2⟩
    exact h.ne (h2.symm.trans h1)
  refine ⟨?_, ?_, ?_, ?_, ?_, ?_, ?_⟩
  · intro k hk
    rw [h.keys, List.mem_filter, decide_eq_true_eq] at hk
    obtain ⟨h1, h2⟩ := hp.kept k hk.1
    exact ⟨h1, by rw [h2, if_neg hk.2]⟩
  · intro k hk
    obtain ⟨h1, h2, h3⟩ := hp.into k hk
    split
    · rename_i h4
      rw [h4] at h2 h3
      exact ⟨hcm', by rw [← h2, h.one.1, h.one.2], h3.trans h.sub⟩
    · rename_i h4
      exact ⟨by rw [h.keys]; exact List.mem_filter.2 ⟨h1, by simpa using h4⟩, h2, h3⟩
  · intro e he
    rw [h.mem, ← hp.others e he]
    constructor
    · rintro (h1 | rfl)
      · exact h1.1
      · exact absurd h.one.1 he
    · intro h1
      refine .inl ⟨h1, fun h2 => he (by rw [h2]; exact h.one.2), fun h2 => he (by rw [h2]; exact h.one.1)⟩
  · intro e he
    rcases (h.mem e).1 he with ⟨h1, h2, h3⟩ | rfl
    · rw [hjo _ h3 h2]; exact hp.count e h1
    · simp only
      rw [hjc, a3, sum_filter_or _ _ _ hdis]
      rw [hp.count _ h.hc, hp.count _ h.hs]
      rfl
  · intro e he s0 s1
    rcases (h.mem e).1 he with ⟨h1, h2, h3⟩ | rfl
    · rw [hjo _ h3 h2]; exact hp.weight e h1 s0 s1
    · simp only
      rw [hjc, a4, sum_filter_or _ _ _ hdis]
      rw [hp.weight _ h.hc, hp.weight _ h.hs]
      rfl
  · intro e he d hd
    rcases (h.mem e).1 he with ⟨h1, h2, h3⟩ | rfl
    · rw [hjo _ h3 h2] at hd; exact hp.accent e h1 d hd
    · simp only at hd ⊢
      rw [hjc, List.mem_filter, decide_eq_true_eq] at hd
      rw [a2]
      rcases hd.2 with h1 | h1
      · exact hp.accent _ h.hc d (List.mem_filter.2 ⟨hd.1, by simpa using h1⟩)
      · rw [hp.accent _ h.hs d (List.mem_filter.2 ⟨hd.1, by simpa using h1⟩), hm.plain _ h.hs h.one.2, hm.plain _ h.hc h.one.1]
  · intro e he t ht
    rcases (h.mem e).1 he with ⟨h1, h2, h3⟩ | rfl
    · rw [hjo _ h3 h2]; exact hp.samples e h1 t ht
    · simp only at ht ⊢
      rw [hjc]
      obtain ⟨u, hu, h1, h2⟩ := a5 t ht
      rcases List.mem_append.1 hu with hu | hu
      · obtain ⟨d, hd, x, hx, h3, h4⟩ := hp.samples _ h.hc u hu
        rw [joined, List.mem_filter, decide_eq_true_eq] at hd
        exact ⟨d, List.mem_filter.2 ⟨hd.1, by simp [hd.2]⟩, x, hx, h3.trans h1, h4.trans h2⟩
      · obtain ⟨d, hd, x, hx, h3, h4⟩ := hp.samples _ h.hs u hu
        rw [joined, List.mem_filter, decide_eq_true_eq] at hd
        exact ⟨d, List.mem_filter.2 ⟨hd.1, by simp [hd.2]⟩, x, hx, h3.trans h1, h4.trans h2⟩

end Libmorph
