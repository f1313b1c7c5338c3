import Verif.Lemmas.MakePlans
/-
C70: the class derived from a lexeme.
-/
namespace Libmorph

theorem packed_length_sum (xs : List (List Byte)) : (packed xs).length = (xs.map fun x => x.length + 1).sum := by
  induction xs with
  | nil => rfl
  | cons x xs ih => simp [packed] at ih ⊢; omega

theorem sum_perm {u v : List Nat} (h : u.Perm v) : u.sum = v.sum := by
  induction h with
  | nil => rfl
  | cons x _ ih => simp only [List.sum_cons]; omega
  | swap x y l => simp only [List.sum_cons]; omega
  | trans _ _ h1 h2 => omega

theorem le_sum {u : List Nat} {x : Nat} (h : x ∈ u) : x ≤ u.sum := by
  induction u with
  | nil => simp at h
  | cons y u ih =>
    simp only [List.mem_cons, List.sum_cons] at h ⊢
    rcases h with rfl | h
    · omega
    · have := ih h; omega

theorem sublist_flatMapF (F : Nat → List (List Byte)) {u v : List Nat} (h : u.Sublist v) : (u.flatMap F).Sublist (v.flatMap F) := by
  induction h with
  | slnil => simp
  | cons x _ ih => rw [List.flatMap_cons]; exact ih.trans (List.sublist_append_right _ _)
  | cons_cons x _ ih => rw [List.flatMap_cons, List.flatMap_cons]; exact ih.append_left _

theorem wanted_asIs_length (low : Byte → Byte) (F : Nat → List (List Byte)) {a : List Nat} {b : List (Nat × Nat)}
    (h : a.Subperm (b.map (·.2))) :
    (packed (a.flatMap F)).length ≤ (packed ((wantedForms low F b).map (·.2))).length ∧
    (a.flatMap F).length ≤ (wantedForms low F b).length := by
  obtain ⟨l, hl, hs⟩ := h
  have e1 : (wantedForms low F b).map (·.2) = (b.map (·.2)).flatMap fun i => (F i).map (·.map low) := by
    simp [wantedForms, List.map_flatMap, List.flatMap_map, Function.comp_def]
  have e2 : (wantedForms low F b).length = ((b.map (·.2)).flatMap F).length := by
    rw [← List.length_map (f := Prod.snd), e1]; simp [List.length_flatMap]
  have e3 : ∀ c : List Nat, (packed (c.flatMap fun i => (F i).map (·.map low))).length = (packed (c.flatMap F)).length := by
    intro c
    rw [packed_length_sum, packed_length_sum]
    congr 1
    simp [List.map_flatMap, List.flatMap_map, Function.comp_def]
  have hp : (a.flatMap F).Perm (l.flatMap F) := (hl.flatMap_right F).symm
  have hsub : (l.flatMap F).Sublist ((b.map (·.2)).flatMap F) := sublist_flatMapF F hs
  constructor
  · rw [e1, e3, packed_length_sum, packed_length_sum]
    have h1 := sum_perm (hp.map fun x : List Byte => x.length + 1)
    have h2 : ((l.flatMap F).map fun x => x.length + 1).Sublist (((b.map (·.2)).flatMap F).map fun x => x.length + 1) := hsub.map _
    rw [h1]
    have : ∀ {u v : List Nat}, u.Sublist v → u.sum ≤ v.sum := by
      intro u v h
      induction h with
      | slnil => simp
      | cons x _ ih => simp only [List.sum_cons]; omega
      | cons_cons x _ ih => simp only [List.sum_cons]; omega
    exact this h2
  · rw [e2, hp.length_eq]
    exact hsub.length_le

theorem length_flatMap_ge (F : Nat → List (List Byte)) (ids : List Nat) (h : ∀ i ∈ ids, F i ≠ []) : ids.length ≤ (ids.flatMap F).length := by
  induction ids with
  | nil => simp
  | cons i ids ih =>
    have h1 := List.length_pos_iff.2 (h i (by simp))
    have h2 := ih fun j hj => h j (by simp [hj])
    simp only [List.flatMap_cons, List.length_cons, List.length_append]
    omega

theorem askOrder_head (n : Nat) (fo al : List Nat) (h : fo.length + al.length ≤ n) (h0 : fo.head? = some 0) (ha : ∀ a ∈ al, 0 < a) :
    (askOrder n fo al).head? = some (0, true) := by
  cases fo with
  | nil => simp at h0
  | cons a fo =>
    simp only [List.head?_cons, Option.some.injEq] at h0
    subst h0
    cases n with
    | zero => simp at h
    | succ n =>
      cases al with
      | nil => simp [askOrder]
      | cons b al => simp [askOrder, ha b (by simp)]

/-- What a tool with a table makes of a lexeme. -/
theorem lexClass_spec {T : ClassTool} {low : Byte → Byte} (hl : LowOk low) {M : Morpho} {x : Nat} {F : Nat → List (List Byte)}
    {n : Int} {p : Byte} (hinfo : M.info x = some (n, some p)) (hn : 0 < n)
    {req : List Nat} {pairs : List (Nat × Nat)} {psp : Nat} (hfit : PlanFits low (T.plan p) (some (req, pairs, psp)))
    (htwo : T.checksCount = true ∨ 2 ≤ req.length)
    (hg : M.Gives x (pairs.map (·.2)) F) (buffer : List Byte) (hbuf : buffer.length < 2 ^ 32)
    (hroom : ToolRoom buffer (wantedForms low F pairs)) :
    ((∃ i ∈ req, F i = []) ∨ Hyphened low F pairs → lexClass T low M buffer x = .done none) ∧
    (¬ ((∃ i ∈ req, F i = []) ∨ Hyphened low F pairs) →
      (∃ stem es s0 s1 sample, 2 ≤ (wantedForms low F pairs).length ∧ ClassIs (wantedForms low F pairs) stem es ∧ (∃ q, stem = q ++ [s0, s1]) ∧
        (0, sample) ∈ wantedForms low F pairs ∧
        lexClass T low M buffer x = .done (some ⟨(psp, es), ⟨s0, s1, T.accent psp (sortForms (wantedForms low F pairs))⟩, sample⟩)) ∨
      (((wantedForms low F pairs).length ≤ 1 ∨ ∀ s, (∀ f ∈ wantedForms low F pairs, s <+: f.2) → s.length < 2) ∧
        lexClass T low M buffer x = .done none)) := by
  rcases hfit with ⟨-, h⟩ | ⟨fo, al, change, psp', pairs', h1, h2, hdis, ⟨hh0, hnod, hal⟩, hids, hsub, hhead, hch⟩
  · cases h
  simp only [Option.some.injEq, Prod.mk.injEq] at h2
  obtain ⟨rfl, rfl, rfl⟩ := h2
  have hask := askOrder_perm (req.length + al.length) req al (Nat.le_refl _) hdis
  have hhd := askOrder_head (req.length + al.length) req al (Nat.le_refl _) hh0 hal
  have hmemid : ∀ e ∈ askOrder (req.length + al.length) req al, e.1 ∈ req ++ al := by
    intro e he
    have := hask.mem_iff.1 he
    simp only [List.mem_append, List.mem_map] at this ⊢
    rcases this with ⟨a, ha, rfl⟩ | ⟨a, ha, rfl⟩
    · exact .inl ha
    · exact .inr ha
  have hg' : M.Gives x ((askOrder (req.length + al.length) req al).map (·.1)) F := by
    intro i hi
    obtain ⟨e, he, rfl⟩ := List.mem_map.1 hi
    obtain ⟨j, hj⟩ := (hids e.1).1 (hmemid e he)
    exact hg e.1 (List.mem_map.2 ⟨_, hj, rfl⟩)
  have hperm1 : ((askOrder (req.length + al.length) req al).flatMap fun e => F e.1).Perm ((req ++ al).flatMap F) := by
    have := hask.flatMap_right fun e => F e.1
    simpa [List.flatMap_append, List.flatMap_map] using this
  have hperm2 : ((askOrder (req.length + al.length) req al).flatMap fun e => (F e.1).map fun f => (e.1, f.map low)).Perm
      (wantedForms low F (asIs (req ++ al))) := by
    have := hask.flatMap_right fun e => (F e.1).map fun f => (e.1, f.map low)
    simpa [List.flatMap_append, List.flatMap_map, wantedForms, asIs] using this
  obtain ⟨hb1, hb2⟩ := wanted_asIs_length low F hsub
  have hlen1 : (packed ((askOrder (req.length + al.length) req al).flatMap fun e => F e.1)).length + 1 ≤ buffer.length := by
    have h3 : (packed ((askOrder (req.length + al.length) req al).flatMap fun e => F e.1)).length = (packed ((req ++ al).flatMap F)).length := by
      rw [packed_length_sum, packed_length_sum]; exact sum_perm (hperm1.map _)
    have := hroom.text
    omega
  have hlen2 : ([] : List MForm).length + ((askOrder (req.length + al.length) req al).flatMap fun e => F e.1).length ≤ 512 := by
    have := hroom.count
    rw [hperm1.length_eq]
    simp only [List.length_nil]; omega
  have hloop := buildLoop_spec hl (askOrder (req.length + al.length) req al) buffer [] hg' hlen1 hlen2
  have hunfit : (∃ e ∈ askOrder (req.length + al.length) req al, Unfit low F e) ↔ (∃ i ∈ req, F i = []) ∨ Hyphened low F pairs := by
    constructor
    · rintro ⟨e, he, ⟨h3, h4⟩ | ⟨f, h3, h4⟩⟩
      · left
        have := hask.mem_iff.1 he
        simp only [List.mem_append, List.mem_map] at this
        rcases this with ⟨a, ha, rfl⟩ | ⟨a, ha, rfl⟩
        · exact ⟨a, ha, h4⟩
        · simp at h3
      · right
        obtain ⟨j, hj⟩ := (hids e.1).1 (hmemid e he)
        exact ⟨_, hj, f, h3, h4⟩
    · rintro (⟨i, hi, h3⟩ | ⟨e, he, f, h3, h4⟩)
      · exact ⟨(i, true), hask.mem_iff.2 (List.mem_append_left _ (List.mem_map.2 ⟨i, hi, rfl⟩)), .inl ⟨rfl, h3⟩⟩
      · have := (hids e.2).2 ⟨e.1, he⟩
        rcases List.mem_append.1 this with h5 | h5
        · exact ⟨(e.2, true), hask.mem_iff.2 (List.mem_append_left _ (List.mem_map.2 ⟨_, h5, rfl⟩)), .inr ⟨f, h3, h4⟩⟩
        · exact ⟨(e.2, false), hask.mem_iff.2 (List.mem_append_right _ (List.mem_map.2 ⟨_, h5, rfl⟩)), .inr ⟨f, h3, h4⟩⟩
  have hlex : lexClass T low M buffer x =
      (buildLoop low M x (askOrder (req.length + al.length) req al) buffer []).bind fun r =>
        match r with
        | none => .done none
        | some fs =>
          (classForms T psp (change fs)).bind fun c =>
            match c with
            | none => .done none
            | some (es, sx) => .done (some ⟨(psp, es), sx, lemmaOf (change fs)⟩) := by
    simp only [lexClass, allForms, hinfo, Option.getD_some, h1]
    rw [if_neg (by omega), if_pos hn]
    rfl
  rw [hlex]
  constructor
  · intro h
    rw [hloop.1 (hunfit.2 h)]
    rfl
  · intro h
    rw [hloop.2 (fun h' => h (hunfit.1 h')), List.nil_append]
    generalize hfs : ((askOrder (req.length + al.length) req al).flatMap fun e => (F e.1).map fun f => (e.1, f.map low)) = fs at *
    have hW := hch F fs hperm2
    have h0 : F 0 ≠ [] := fun h3 => h (.inl ⟨0, by cases req <;> simp_all, h3⟩)
    have hfh : fs.head?.map (·.1) = some 0 := by
      rw [← hfs]
      cases ha : askOrder (req.length + al.length) req al with
      | nil => rw [ha] at hhd; simp at hhd
      | cons e es =>
        rw [ha] at hhd
        simp only [List.head?_cons, Option.some.injEq] at hhd
        subst hhd
        cases hF : F 0 with
        | nil => exact absurd hF h0
        | cons f l => simp [hF]
    have hsample : (0, lemmaOf (change fs)) ∈ wantedForms low F pairs := by
      have := hhead fs hfh
      cases hcf : change fs with
      | nil => rw [hcf] at this; simp at this
      | cons g gs =>
        rw [hcf] at this
        simp only [List.head?_cons, Option.map_some, Option.some.injEq] at this
        rw [← hW.mem_iff, hcf]
        simp only [lemmaOf, List.head?_cons, Option.map_some, Option.getD_some, List.mem_cons]
        left
        exact Prod.ext this.symm rfl
    have hsort : sortForms (change fs) = sortForms (wantedForms low F pairs) :=
      List.Perm.eq_of_pairwise (fun a b _ _ h1 h2 => MForm.le_antisymm h1 h2) (sortForms_sorted _) (sortForms_sorted _)
        ((sortForms_perm _).trans (hW.trans (sortForms_perm _).symm))
    by_cases hcnt : (wantedForms low F pairs).length ≤ 1
    · right
      refine ⟨.inl hcnt, ?_⟩
      have hcheck : T.checksCount = true := by
        rcases htwo with h3 | h3
        · exact h3
        · have h4 := length_flatMap_ge F req fun i hi h5 => h (.inl ⟨i, hi, h5⟩)
          have h5 : (req.flatMap F).length ≤ ((req ++ al).flatMap F).length := by simp
          omega
      simp only [Ran.bind, classForms]
      rw [if_pos (by rw [hW.length_eq]; exact hcnt), if_pos hcheck]
    · have hlens : ∀ f ∈ change fs, f.2.length < 2 ^ 32 := by
        intro f hf
        have hf' := hW.mem_iff.1 hf
        have h3 : f.2.length + 1 ≤ (packed ((wantedForms low F pairs).map (·.2))).length := by
          rw [packed_length_sum]
          exact le_sum (List.mem_map.2 ⟨f.2, List.mem_map.2 ⟨f, hf', rfl⟩, rfl⟩)
        have := hroom.text
        omega
      rcases classForms_spec T psp (change fs) (by rw [hW.length_eq]; omega) hlens with ⟨stem, es, s0, s1, c1, c2, c3⟩ | ⟨c1, c2⟩
      · left
        refine ⟨stem, es, s0, s1, lemmaOf (change fs), by omega, ⟨c1.forms.trans hW, c1.order, fun s hs => c1.longest s fun f hf => hs f (hW.mem_iff.1 hf)⟩,
          c2, hsample, ?_⟩
        simp only [Ran.bind, c3, hsort]
      · right
        refine ⟨.inr fun s hs => c1 s fun f hf => hs f (hW.mem_iff.1 hf), ?_⟩
        simp only [Ran.bind, c2]

/-! ### The accent scheme -/

theorem lastChar_eq {w : List Byte} {k : Nat} {c : Byte} (hc : c ≠ 0) : lastChar w k = c ↔ 1 ≤ k ∧ k ≤ w.length ∧ w[w.length - k]? = some c := by
  unfold lastChar
  split
  · rename_i h
    rw [List.getD_eq_getElem?_getD]
    constructor
    · intro h1
      cases hw : w[w.length - k]? with
      | none => rw [hw] at h1; simp at h1; omega
      | some d =>
        rw [hw] at h1
        simp only [Option.getD_some] at h1
        refine ⟨?_, h, by rw [h1]⟩
        have := (List.getElem?_eq_some_iff.1 hw).1
        omega
    · rintro ⟨_, _, h1⟩; rw [h1]; rfl
  · rename_i h
    constructor
    · intro h1; omega
    · rintro ⟨_, h1, _⟩; omega

theorem ends_two {w : List Byte} {a b : Byte} (ha : a ≠ 0) (hb : b ≠ 0) : lastChar w 1 = b ∧ lastChar w 2 = a ↔ ∃ q, w = q ++ [a, b] := by
  rw [lastChar_eq hb, lastChar_eq ha]
  constructor
  · rintro ⟨⟨-, h1, h2⟩, -, h3, h4⟩
    refine ⟨w.take (w.length - 2), ?_⟩
    obtain ⟨l2, h2⟩ := List.getElem?_eq_some_iff.1 h2
    obtain ⟨l4, h4⟩ := List.getElem?_eq_some_iff.1 h4
    have e1 := List.take_append_getElem (l := w) (i := w.length - 2) l4
    have e2 := List.take_append_getElem (l := w) (i := w.length - 2 + 1) (by omega)
    have e3 : w.take (w.length - 2 + 1 + 1) = w := List.take_of_length_le (by omega)
    have e4 : w[w.length - 2 + 1]'(by omega) = b := by rw [← h2]; congr 1; omega
    rw [← e1, h4, e3, e4, List.append_assoc] at e2
    exact e2.symm
  · rintro ⟨q, rfl⟩
    refine ⟨⟨by omega, by simp, ?_⟩, by omega, by simp, ?_⟩
    · simp
    · simp

theorem ends_three {w : List Byte} {z o : Byte} (hz : z ≠ 0) (ho : o ≠ 0) : lastChar w 2 = o ∧ lastChar w 3 = z ↔ ∃ q c, w = q ++ [z, o, c] := by
  rw [lastChar_eq ho, lastChar_eq hz]
  constructor
  · rintro ⟨⟨-, h1, h2⟩, -, h3, h4⟩
    obtain ⟨l2, h2⟩ := List.getElem?_eq_some_iff.1 h2
    obtain ⟨l4, h4⟩ := List.getElem?_eq_some_iff.1 h4
    refine ⟨w.take (w.length - 3), w[w.length - 1]'(by omega), ?_⟩
    have e1 := List.take_append_getElem (l := w) (i := w.length - 3) l4
    have e2 := List.take_append_getElem (l := w) (i := w.length - 3 + 1) (by omega)
    have e3 := List.take_append_getElem (l := w) (i := w.length - 3 + 1 + 1) (by omega)
    have e5 : w.take (w.length - 3 + 1 + 1 + 1) = w := List.take_of_length_le (by omega)
    have e4 : w[w.length - 3 + 1]'(by omega) = o := by rw [← h2]; congr 1; omega
    have e6 : w[w.length - 3 + 1 + 1]'(by omega) = w[w.length - 1]'(by omega) := by congr 1; omega
    rw [← e2, ← e1, h4, e5, e4, e6, List.append_assoc, List.append_assoc] at e3
    exact e3.symm
  · rintro ⟨q, c, rfl⟩
    refine ⟨⟨by omega, by simp, ?_⟩, by omega, by simp, ?_⟩
    · simp
    · simp

theorem lastChar_mem {w : List Byte} {k : Nat} {l : List Byte} : l.contains (lastChar w k) = true ↔ ∃ v ∈ l, lastChar w k = v := by
  rw [List.contains_iff_mem]
  constructor
  · exact fun h => ⟨_, h, rfl⟩
  · rintro ⟨v, hv, h⟩; rw [h]; exact hv

theorem rusAccent_iff (p : Nat) (W V : List MForm) (h : ∀ f, f ∈ V ↔ f ∈ W) : rusAccent p V = true ↔ AccentB p W := by
  unfold rusAccent AccentB
  simp only [List.mem_cons, List.not_mem_nil, or_false]
  have hvow : ∀ v ∈ rusAccentVow, v ≠ 0 := by decide
  have hsiz : ∀ v ∈ rusSizzlings, v ≠ 0 := by decide
  have hcon : ∀ v ∈ rusConsonant, v ≠ 0 := by decide
  split
  · rename_i hp
    have hp25 : p ≠ 25 := by omega
    simp only [hp, true_and, hp25, false_and, or_false, List.any_eq_true]
    constructor
    · rintro ⟨⟨i, w⟩, hf, ht⟩
      rw [h] at hf
      simp only at ht
      split at ht
      · rename_i h0; subst h0
        simp only [Bool.and_eq_true, beq_iff_eq, lastChar_mem] at ht
        obtain ⟨h1, v, hv, h2⟩ := ht
        obtain ⟨q, rfl⟩ := (ends_two (hvow v hv) (by decide)).1 ⟨h1, h2⟩
        exact .inl ⟨q, v, hf, by simpa [rusAccentVow] using hv⟩
      · split at ht
        · rename_i h0; subst h0
          simp only [Bool.and_eq_true, beq_iff_eq, lastChar_mem] at ht
          obtain ⟨h1, v, hv, h2⟩ := ht
          obtain ⟨q, c, rfl⟩ := (ends_three (hsiz v hv) (by decide)).1 ⟨h1, h2⟩
          exact .inr (.inl ⟨q, v, c, hf, by simpa [rusSizzlings] using hv⟩)
        · split at ht
          · rename_i h0; subst h0
            simp only [Bool.and_eq_true, beq_iff_eq, lastChar_mem] at ht
            obtain ⟨h1, v, hv, h2⟩ := ht
            obtain ⟨q, rfl⟩ := (ends_two (hcon v hv) (by decide)).1 ⟨h1, h2⟩
            exact .inr (.inr ⟨q, v, hf, by simpa [rusConsonant] using hv⟩)
          · simp at ht
    · rintro (⟨q, v, hf, hv⟩ | ⟨q, v, c, hf, hv⟩ | ⟨q, v, hf, hv⟩)
      · have hv : v ∈ rusAccentVow := by simpa [rusAccentVow] using hv
        obtain ⟨h1, h2⟩ := (ends_two (w := q ++ [v, 233]) (hvow v hv) (by decide)).2 ⟨q, rfl⟩
        refine ⟨_, (h _).2 hf, ?_⟩
        simp only [if_true, Bool.and_eq_true, beq_iff_eq, lastChar_mem]
        exact ⟨h1, v, hv, h2⟩
      · have hv : v ∈ rusSizzlings := by simpa [rusSizzlings] using hv
        obtain ⟨h1, h2⟩ := (ends_three (w := q ++ [v, 238, c]) (hsiz v hv) (by decide)).2 ⟨q, c, rfl⟩
        refine ⟨_, (h _).2 hf, ?_⟩
        simp only [Nat.reduceEqDiff, if_false, if_true, Bool.and_eq_true, beq_iff_eq, lastChar_mem]
        exact ⟨h1, v, hv, h2⟩
      · have hv : v ∈ rusConsonant := by simpa [rusConsonant] using hv
        obtain ⟨h1, h2⟩ := (ends_two (w := q ++ [v, 224]) (hcon v hv) (by decide)).2 ⟨q, rfl⟩
        refine ⟨_, (h _).2 hf, ?_⟩
        simp only [Nat.reduceEqDiff, if_false, if_true, Bool.and_eq_true, beq_iff_eq, lastChar_mem]
        exact ⟨h1, v, hv, h2⟩
  · rename_i hp
    simp only [hp, false_and, false_or]
    split
    · rename_i h25
      simp only [h25, true_and, List.any_eq_true, Bool.and_eq_true, beq_iff_eq]
      constructor
      · rintro ⟨⟨i, w⟩, hf, h0, h1, h2⟩
        simp only at h0 h1 h2
        subst h0
        obtain ⟨q, rfl⟩ := (ends_two (by decide) (by decide)).1 ⟨h2, h1⟩
        exact ⟨q, (h _).1 hf⟩
      · rintro ⟨q, hf⟩
        obtain ⟨h1, h2⟩ := (ends_two (w := q ++ [238, 233]) (by decide) (by decide)).2 ⟨q, rfl⟩
        exact ⟨_, (h _).2 hf, rfl, h2, h1⟩
    · rename_i h25
      simp [h25]

/-! ### C70 -/

theorem derived_of_spec {T : ClassTool} {low : Byte → Byte} (hl : LowOk low) {M : Morpho} {x : Nat} {F : Nat → List (List Byte)}
    {n : Int} {p : Byte} (hinfo : M.info x = some (n, some p)) (hn : 0 < n)
    {req : List Nat} {pairs : List (Nat × Nat)} {psp : Nat} (hfit : PlanFits low (T.plan p) (some (req, pairs, psp)))
    (htwo : T.checksCount = true ∨ 2 ≤ req.length)
    (hg : M.Gives x (pairs.map (·.2)) F) (buffer : List Byte) (hbuf : buffer.length < 2 ^ 32)
    (hroom : ToolRoom buffer (wantedForms low F pairs)) (accent : List MForm → Prop)
    (hacc : T.accent psp (sortForms (wantedForms low F pairs)) = true ↔ accent (wantedForms low F pairs)) :
    Derived low F req pairs psp accent (lexClass T low M buffer x) := by
  obtain ⟨h1, h2⟩ := lexClass_spec hl hinfo hn hfit htwo hg buffer hbuf hroom
  unfold Derived
  simp only
  constructor
  · rintro (h | h | h)
    · exact h1 (.inl h)
    · exact h1 (.inr h)
    · by_cases hu : (∃ i ∈ req, F i = []) ∨ Hyphened low F pairs
      · exact h1 hu
      · rcases h2 hu with ⟨stem, es, s0, s1, sample, hW, c1, ⟨q, c2⟩, -, -⟩ | ⟨-, c⟩
        · rcases h with h | h
          · omega
          · have := h stem fun f hf => by
              obtain ⟨e, he, rfl⟩ := List.mem_map.1 (c1.forms.mem_iff.2 hf)
              exact List.prefix_append _ _
            rw [c2] at this
            simp at this
        · exact c
  · intro h
    simp only [not_or] at h
    rcases h2 (by rintro (h' | h'); exacts [h.1 h', h.2.1 h']) with ⟨stem, es, s0, s1, sample, hW, c1, c2, c3, c4⟩ | ⟨c | c, -⟩
    · exact ⟨stem, es, s0, s1, _, sample, c1, c2, hacc, c3, c4⟩
    · exact absurd c h.2.2.1
    · exact absurd c h.2.2.2

/-- **C70** the English tool, of any dictionary: the class of a lexeme. -/
theorem C70_english {low : Byte → Byte} (hl : LowOk low) (M : Morpho) (x : Nat) (F : Nat → List (List Byte)) (n : Int) (p : Byte)
    (hinfo : M.info x = some (n, some p)) (hn : 0 < n) (req : List Nat) (pairs : List (Nat × Nat)) (psp : Nat)
    (ht : engTaken p = some (req, pairs, psp)) (hg : M.Gives x (pairs.map (·.2)) F) (buffer : List Byte) (hbuf : buffer.length = 0x4000)
    (hroom : ToolRoom buffer (wantedForms low F pairs)) :
    Derived low F req pairs psp (fun _ => False) (lexClass engTool low M buffer x) := by
  have hfit := engPlan_fits low p
  rw [ht] at hfit
  exact derived_of_spec hl hinfo hn hfit (.inl rfl) hg buffer (by omega) hroom _ (by simp [engTool])

theorem rusTaken_two (p : Nat) (req : List Nat) (pairs : List (Nat × Nat)) (psp : Nat) (h : rusTaken p = some (req, pairs, psp)) : 2 ≤ req.length := by
  unfold rusTaken at h
  simp only at h
  repeat' split at h
  all_goals (try cases h)
  all_goals decide

/-- **C70** the Russian tool, of any dictionary: the class of a lexeme.  Missing for the full claim: in verbs the forms with the
number 202 are left out and those with the number 201 come twice (`C70_slip`); the table is `slipped`. -/
theorem C70_russian_partial {low : Byte → Byte} (hl : LowOk low) (M : Morpho) (x : Nat) (F : Nat → List (List Byte)) (n : Int) (p : Byte)
    (hinfo : M.info x = some (n, some p)) (hn : 0 < n) (req : List Nat) (pairs : List (Nat × Nat)) (psp : Nat)
    (ht : rusTaken p = some (req, pairs, psp)) (hg : M.Gives x ((slipped pairs).map (·.2)) F) (buffer : List Byte) (hbuf : buffer.length = 0x4000)
    (hroom : ToolRoom buffer (wantedForms low F (slipped pairs))) :
    Derived low F req (slipped pairs) psp (AccentB psp) (lexClass rusTool low M buffer x) := by
  have hfit := rusPlan_fits low p
  rw [rusTakenActual, ht] at hfit
  exact derived_of_spec hl hinfo hn hfit (.inr (rusTaken_two p _ _ _ ht)) hg buffer (by omega) hroom _
    (rusAccent_iff psp _ _ fun f => (sortForms_perm _).mem_iff)

/-- The slip concerns verbs only. -/
theorem slipped_others (p : Nat) (req : List Nat) (pairs : List (Nat × Nat)) (psp : Nat) (h : rusTaken p = some (req, pairs, psp))
    (hv : p % 64 ∉ [1, 2, 3, 4, 5, 6]) : slipped pairs = pairs := by
  simp only [List.mem_cons, List.not_mem_nil, or_false, not_or] at hv
  unfold rusTaken at h
  simp only [List.mem_cons, List.not_mem_nil, or_false] at h
  repeat' split at h
  all_goals (try omega)
  all_goals (try cases h)
  all_goals decide

/-- **C70** the Russian tool, lexemes that are not verbs. -/
theorem C70_russian_not_verbs {low : Byte → Byte} (hl : LowOk low) (M : Morpho) (x : Nat) (F : Nat → List (List Byte)) (n : Int) (p : Byte)
    (hinfo : M.info x = some (n, some p)) (hn : 0 < n) (req : List Nat) (pairs : List (Nat × Nat)) (psp : Nat)
    (ht : rusTaken p = some (req, pairs, psp)) (hv : p % 64 ∉ [1, 2, 3, 4, 5, 6]) (hg : M.Gives x (pairs.map (·.2)) F)
    (buffer : List Byte) (hbuf : buffer.length = 0x4000) (hroom : ToolRoom buffer (wantedForms low F pairs)) :
    Derived low F req pairs psp (AccentB psp) (lexClass rusTool low M buffer x) := by
  have hs := slipped_others p req pairs psp ht hv
  have := C70_russian_partial hl M x F n p hinfo hn req pairs psp ht (by rw [hs]; exact hg) buffer hbuf (by rw [hs]; exact hroom)
  rwa [hs] at this

/-- Lexemes of other parts of speech, and ids that are not in the dictionary, have no class. -/
theorem C70_others (low : Byte → Byte) (M : Morpho) (buffer : List Byte) (x : Nat) (n : Int) (p : Option Byte) (hinfo : M.info x = some (n, p))
    (h : n ≤ 0 ∨ ∃ k, p = some k ∧ rusTaken k = none) : lexClass rusTool low M buffer x = .done none := by
  unfold lexClass
  rw [hinfo]
  simp only
  split
  · rfl
  · rcases h with h | ⟨k, rfl, h⟩
    · contradiction
    · have hfit := rusPlan_fits low k
      rw [rusTakenActual, h] at hfit
      rcases hfit with ⟨h1, -⟩ | ⟨_, _, _, _, _, _, h2, _⟩
      · simp only [Option.getD_some, show rusTool.plan k = rusPlan k from rfl, h1]
      · cases h2

theorem C70_others_english (low : Byte → Byte) (M : Morpho) (buffer : List Byte) (x : Nat) (n : Int) (p : Option Byte) (hinfo : M.info x = some (n, p))
    (h : n ≤ 0 ∨ ∃ k, p = some k ∧ engTaken k = none) : lexClass engTool low M buffer x = .done none := by
  unfold lexClass
  rw [hinfo]
  simp only
  split
  · rfl
  · rcases h with h | ⟨k, rfl, h⟩
    · contradiction
    · have hfit := engPlan_fits low k
      rw [h] at hfit
      rcases hfit with ⟨h1, -⟩ | ⟨_, _, _, _, _, _, h2, _⟩
      · simp only [Option.getD_some, show engTool.plan k = engPlan k from rfl, h1]
      · cases h2

theorem refused_of {T : ClassTool} {low : Byte → Byte} {M : Morpho} {buffer : List Byte} {x : Nat} {n : Int} {p : Byte} (hinfo : M.info x = some (n, some p))
    (hn : 0 < n) {taken : Option (List Nat × List (Nat × Nat) × Nat)} (hfit : PlanFits low (T.plan p) taken) (ht : taken ≠ none) {k : Int} {out : Option (List Byte)}
    (hb : M.build buffer x 0 = some (k, out)) (hk : k < 0) : lexClass T low M buffer x = .threw := by
  rcases hfit with ⟨-, h2⟩ | ⟨fo, al, change, psp, pairs, h1, -, -, ⟨h4, -, h6⟩, -⟩
  · exact absurd h2 ht
  · unfold lexClass
    rw [hinfo]
    simp only [if_neg (by omega : ¬ n ≤ 0), Option.getD_some, h1, allForms, hinfo, if_pos hn]
    cases fo with
    | nil => cases h4
    | cons a fo =>
      simp only [List.head?_cons, Option.some.injEq] at h4
      subst h4
      have hask : ∃ rest, askOrder ((0 :: fo).length + al.length) (0 :: fo) al = (0, true) :: rest := by
        cases al with
        | nil => exact ⟨_, rfl⟩
        | cons b al =>
          have := h6 b (by simp)
          rw [show (0 :: fo).length + (b :: al).length = (fo.length + (b :: al).length) + 1 by simp only [List.length_cons]; omega, askOrder, if_pos this]
          exact ⟨_, rfl⟩
      obtain ⟨rest, hask⟩ := hask
      rw [hask, buildLoop, hb]
      simp only [if_pos hk]
      rfl

/-- **C70** when the dictionary refuses the request for the forms of the headword, the tool stops with an exception. -/
theorem C70_refused (low : Byte → Byte) (M : Morpho) (buffer : List Byte) (x : Nat) (n : Int) (p : Byte) (hinfo : M.info x = some (n, some p))
    (hn : 0 < n) (k : Int) (out : Option (List Byte)) (hb : M.build buffer x 0 = some (k, out)) (hk : k < 0) :
    (rusTaken p ≠ none → lexClass rusTool low M buffer x = .threw) ∧ (engTaken p ≠ none → lexClass engTool low M buffer x = .threw) := by
  refine ⟨fun h => refused_of hinfo hn (rusPlan_fits low p) ?_ hb hk, fun h => refused_of hinfo hn (engPlan_fits low p) h hb hk⟩
  rw [rusTakenActual]
  intro e
  exact h (Option.map_eq_none_iff.1 e)

example : lexClass rusTool id ⟨fun _ => some (1, some 7), fun _ _ _ => some (-4, none)⟩ [] 5 = .threw :=
  (C70_refused id ⟨fun _ => some (1, some 7), fun _ _ _ => some (-4, none)⟩ [] 5 1 7 rfl (by decide) (-4) none rfl (by decide)).1 (by decide)

/-- The specification leaves no choice but of the sample among the forms with the number 0: stem and endings are determined. -/
theorem C70_determined {W : List MForm} (hne : W ≠ []) {stem stem' : List Byte} {es es' : List MForm} (h : ClassIs W stem es) (h' : ClassIs W stem' es') :
    stem = stem' ∧ es = es' := by
  have hc : ∀ f ∈ W, stem <+: f.2 := fun f hf => by
    obtain ⟨e, _, rfl⟩ := List.mem_map.1 (h.forms.mem_iff.2 hf); exact List.prefix_append _ _
  have hc' : ∀ f ∈ W, stem' <+: f.2 := fun f hf => by
    obtain ⟨e, _, rfl⟩ := List.mem_map.1 (h'.forms.mem_iff.2 hf); exact List.prefix_append _ _
  have hst : stem = stem' := by
    have h1 := h'.longest stem hc
    have h2 := h.longest stem' hc'
    exact h1.eq_of_length (Nat.le_antisymm h1.length_le h2.length_le)
  subst hst
  refine ⟨rfl, ?_⟩
  have hp : es.Perm es' := by
    have h1 := h.forms.trans h'.forms.symm
    have h2 := h1.map fun e : MForm => (e.1, e.2.drop stem.length)
    simpa [List.map_map, Function.comp_def] using h2
  refine List.Perm.eq_of_pairwise (le := MForm.Le) (fun a b _ _ h1 h2 => MForm.le_antisymm h1 h2) ?_ ?_ hp
  · exact h.order.imp fun h => MForm.le_iff.2 h
  · exact h'.order.imp fun h => MForm.le_iff.2 h

/-- The slip: the class of a verb has no form with the number 202, whatever the dictionary has; a form with the number 201 comes
twice as often as the dictionary builds it. -/
theorem C70_slip (low : Byte → Byte) (F : Nat → List (List Byte)) (p : Nat) (req : List Nat) (pairs : List (Nat × Nat)) (psp : Nat)
    (ht : rusTaken p = some (req, pairs, psp)) (hv : p % 64 ∈ [1, 2, 3, 4, 5, 6]) :
    (202, 202) ∈ pairs ∧ (∀ w, (202, w) ∉ wantedForms low F (slipped pairs)) ∧
    ∀ w, (wantedForms low F (slipped pairs)).count (201, w) = 2 * ((F 201).map (·.map low)).count w := by
  have key : ∀ pairs : List (Nat × Nat), (202, 202) ∈ pairs ∧ (∀ e ∈ slipped pairs, e.1 ≠ 202) ∧
      (∃ a b c, slipped pairs = a ++ [(201, 201)] ++ b ++ [(201, 201)] ++ c ∧ ∀ e ∈ a ++ b ++ c, e.1 ≠ 201) →
      (202, 202) ∈ pairs ∧ (∀ w, (202, w) ∉ wantedForms low F (slipped pairs)) ∧
      ∀ w, (wantedForms low F (slipped pairs)).count (201, w) = 2 * ((F 201).map (·.map low)).count w := by
    rintro pairs ⟨h1, h2, a, b, c, h3, h4⟩
    refine ⟨h1, fun w hw => ?_, fun w => ?_⟩
    · simp only [wantedForms, List.mem_flatMap, List.mem_map, Prod.mk.injEq] at hw
      obtain ⟨e, he, f, -, h5, -⟩ := hw
      exact h2 e he h5
    · have hz : ∀ l : List (Nat × Nat), (∀ e ∈ l, e.1 ≠ 201) → (wantedForms low F l).count (201, w) = 0 := by
        intro l hl
        rw [List.count_eq_zero]
        simp only [wantedForms, List.mem_flatMap, List.mem_map, Prod.mk.injEq]
        rintro ⟨e, he, f, -, h5, -⟩
        exact hl e he h5
      have h201 : (wantedForms low F [(201, 201)]).count (201, w) = ((F 201).map (·.map low)).count w := by
        simp only [wantedForms, List.flatMap_cons, List.flatMap_nil, List.append_nil]
        generalize F 201 = fs
        induction fs with
        | nil => rfl
        | cons f fs ih =>
          simp only [List.map_cons, List.count_cons, ih, beq_iff_eq, Prod.mk.injEq, true_and]
      rw [h3]
      simp only [wantedForms_append, List.count_append, h201]
      rw [hz a fun e he => h4 e (by simp [he]), hz b fun e he => h4 e (by simp [he]), hz c fun e he => h4 e (by simp [he])]
      omega
  have cut : ∀ L : List (Nat × Nat), slipped L = (slipped L).take 71 ++ [(201, 201)] ++ [] ++ [(201, 201)] ++ (slipped L).drop 73 →
      (∀ e ∈ (slipped L).take 71 ++ [] ++ (slipped L).drop 73, e.1 ≠ 201) →
      ∃ a b c, slipped L = a ++ [(201, 201)] ++ b ++ [(201, 201)] ++ c ∧ ∀ e ∈ a ++ b ++ c, e.1 ≠ 201 :=
    fun L h1 h2 => ⟨_, _, _, h1, h2⟩
  apply key
  simp only [List.mem_cons, List.not_mem_nil, or_false] at hv
  unfold rusTaken at ht
  simp only [List.mem_cons, List.not_mem_nil, or_false] at ht
  split at ht
  · cases ht
    exact ⟨by decide +kernel, by decide +kernel, cut _ (by decide +kernel) (by decide +kernel)⟩
  · split at ht
    · cases ht
      exact ⟨by decide +kernel, by decide +kernel, cut _ (by decide +kernel) (by decide +kernel)⟩
    · omega

end Libmorph
