import Verif.Lemmas.MakeMap
import Verif.Props.C70Dict
/-
C71: the class generator collects the classes of the lexemes.
-/
namespace Libmorph

theorem groupSample_snoc (l : List (LexClass × Bool)) (c : LexClass) (f : Bool) (hl : l ≠ []) :
    groupSample (l ++ [(c, f)]) = if f then c.sample else groupSample l := by
  unfold groupSample
  cases f
  · simp only [List.filter_append, List.filter_cons, List.filter_nil, Bool.false_eq_true, if_false, List.append_nil]
    cases l with
    | nil => exact absurd rfl hl
    | cons a as => rfl
  · simp [List.filter_append]

theorem groupSample_one (c : LexClass) (f : Bool) : groupSample [(c, f)] = c.sample := by
  cases f <;> rfl

theorem groupVal_new (c : LexClass) (f : Bool) : GroupVal [(c, f)] ⟨[⟨c.suffix, c.sample, 1⟩], 1, c.suffix.accent⟩ := by
  refine ⟨rfl, by simp, by simp, fun s => ?_⟩
  simp only [List.mem_singleton, exists_eq_left]
  constructor
  · rintro rfl
    simp [groupSample_one]
  · rintro ⟨h1, h2, h3⟩
    rw [List.filter_cons_of_pos (by simpa using h1), List.filter_nil] at h2 h3
    rw [groupSample_one] at h3
    obtain ⟨su, sa, n⟩ := s
    simp only at h1 h2 h3
    subst h1 h2 h3
    rfl

/-- One more lexeme of a class. -/
theorem groupVal_add {cs : List (LexClass × Bool)} {v : ClassVal} (h : GroupVal cs v) (hne : cs ≠ []) (c : LexClass) (f : Bool) :
    (c.suffix.accent ≠ v.schemeB → v.add c.suffix c.sample 1 f = .threw) ∧
    (c.suffix.accent = v.schemeB → ∃ v', v.add c.suffix c.sample 1 f = .done v' ∧ v'.schemeB = v.schemeB ∧ GroupVal (cs ++ [(c, f)]) v') := by
  have hn : v.charSet.length ≠ 0 := by
    obtain ⟨d, ds, rfl⟩ := List.exists_cons_of_ne_nil hne
    have := (h.samples ⟨d.1.suffix, groupSample ((d :: ds).filter fun c => c.1.suffix = d.1.suffix),
      ((d :: ds).filter fun c => c.1.suffix = d.1.suffix).length⟩).2 ⟨⟨d, by simp, rfl⟩, rfl, rfl⟩
    intro h0
    rw [List.length_eq_zero_iff.1 h0] at this
    simp at this
  constructor
  · intro ha
    rw [ClassVal.add, if_pos ⟨hn, ha⟩]
  · intro ha
    refine ⟨⟨addSuffix c.suffix c.sample 1 f v.charSet, v.modProd + 1, v.schemeB⟩, by rw [ClassVal.add, if_neg (by simp [ha])], rfl, ?_⟩
    have hord : v.charSet.Pairwise fun a b => a.suffix.Before b.suffix := h.order
    have hacc : ∀ s ∈ v.charSet, s.suffix.accent = c.suffix.accent := by
      intro s hs
      obtain ⟨⟨d, hd, h1⟩, -⟩ := (h.samples s).1 hs
      rw [← h1, h.accent d hd, ha]
    refine ⟨by simp [h.count], ?_, addSuffix_order _ _ _ _ _ hord, fun s => ?_⟩
    · intro d hd
      rcases List.mem_append.1 hd with hd | hd
      · exact h.accent d hd
      · simp only [List.mem_singleton] at hd
        subst hd; exact ha
    · rw [mem_addSuffix _ _ _ _ _ hord hacc]
      by_cases hs : s.suffix = c.suffix
      · have hfil : ((cs ++ [(c, f)]).filter fun d => d.1.suffix = s.suffix) = (cs.filter fun d => d.1.suffix = s.suffix) ++ [(c, f)] := by
          rw [List.filter_append, List.filter_cons_of_pos (by simp [hs]), List.filter_nil]
        rw [hfil]
        rw [hs]
        have hex : ∃ d ∈ cs ++ [(c, f)], d.1.suffix = c.suffix := ⟨(c, f), by simp, rfl⟩
        rw [and_iff_right (a := ∃ d ∈ cs ++ [(c, f)], d.1.suffix = c.suffix) hex]
        clear hex hfil
        simp only [ ne_eq, not_true_eq_false, and_false, false_or, List.length_append, List.length_singleton]
        by_cases hold : ∃ d ∈ cs, d.1.suffix = c.suffix
        · have hne' : (cs.filter fun d => d.1.suffix = c.suffix) ≠ [] := by
            obtain ⟨d, hd, h1⟩ := hold
            exact List.ne_nil_of_mem (List.mem_filter.2 ⟨hd, by simpa using h1⟩)
          rw [groupSample_snoc _ _ _ hne']
          have hmem := (h.samples ⟨c.suffix, groupSample (cs.filter fun d => d.1.suffix = c.suffix),
            (cs.filter fun d => d.1.suffix = c.suffix).length⟩).2 ⟨hold, rfl, rfl⟩
          constructor
          · rintro (⟨o, ho, h1, rfl⟩ | ⟨h1, -⟩)
            · obtain ⟨-, h2, h3⟩ := (h.samples o).1 ho
              rw [h1] at h2 h3
              exact ⟨by simp [h2], by simp [h3]⟩
            · exact absurd rfl (h1 _ hmem)
          · rintro ⟨h1, h2⟩
            left
            refine ⟨_, hmem, rfl, ?_⟩
            obtain ⟨su, sa, n⟩ := s
            simp only at h1 h2 hs ⊢
            subst h1 h2 hs
            rfl
        · have hnil : (cs.filter fun d => d.1.suffix = c.suffix) = [] := by
            rw [List.filter_eq_nil_iff]
            intro d hd
            simpa using fun h1 => hold ⟨d, hd, h1⟩
          rw [hnil]
          simp only [List.nil_append, groupSample_one, List.length_nil]
          constructor
          · rintro (⟨o, ho, h1, -⟩ | ⟨-, rfl⟩)
            · obtain ⟨⟨d, hd, h2⟩, -⟩ := (h.samples o).1 ho
              exact absurd ⟨d, hd, h2.trans h1⟩ hold
            · exact ⟨rfl, rfl⟩
          · rintro ⟨h1, h2⟩
            right
            refine ⟨fun o ho h1 => ?_, ?_⟩
            · obtain ⟨⟨d, hd, h2⟩, -⟩ := (h.samples o).1 ho
              exact hold ⟨d, hd, h2.trans h1⟩
            · obtain ⟨su, sa, n⟩ := s
              simp only at h1 h2 hs ⊢
              subst h1 h2 hs
              rfl
      · have hfil : ((cs ++ [(c, f)]).filter fun d => d.1.suffix = s.suffix) = (cs.filter fun d => d.1.suffix = s.suffix) := by
          rw [List.filter_append, List.filter_cons_of_neg (by simpa using fun h => hs h.symm), List.filter_nil, List.append_nil]
        rw [hfil]
        have hex : (∃ d ∈ cs ++ [(c, f)], d.1.suffix = s.suffix) ↔ ∃ d ∈ cs, d.1.suffix = s.suffix := by
          constructor
          · rintro ⟨d, hd, h1⟩
            rcases List.mem_append.1 hd with hd | hd
            · exact ⟨d, hd, h1⟩
            · simp only [List.mem_singleton] at hd
              subst hd
              exact absurd h1.symm hs
          · rintro ⟨d, hd, h1⟩
            exact ⟨d, by simp [hd], h1⟩
        rw [hex, ← h.samples]
        constructor
        · rintro (⟨h1, -⟩ | ⟨o, ho, h1, rfl⟩ | ⟨h1, rfl⟩)
          · exact h1
          · exact absurd rfl hs
          · exact absurd rfl hs
        · intro h1
          exact .inl ⟨h1, hs⟩

/-- The map while it is filled. -/
structure Filling (cs : List (LexClass × Bool)) (m : ClassMap) : Prop where
  order : m.Pairwise fun a b => ClassKey.lt a.1 b.1 = true
  keys : ∀ k, k ∈ m.map (·.1) ↔ ∃ c ∈ cs, c.1.key = k
  vals : ∀ e ∈ m, GroupVal (cs.filter fun c => c.1.key = e.1) e.2

theorem Filling.collects {cs : List (LexClass × Bool)} {m : ClassMap} (h : Filling cs m) : Collects cs m := by
  refine ⟨?_, h.keys, h.vals⟩
  rw [List.Nodup, List.pairwise_map]
  exact h.order.imp fun h => ClassKey.lt_ne h

theorem filter_ne_nil {cs : List (LexClass × Bool)} {k : ClassKey} : (cs.filter fun c => c.1.key = k) ≠ [] ↔ ∃ c ∈ cs, c.1.key = k := by
  rw [ne_eq, List.filter_eq_nil_iff]
  constructor
  · intro h
    by_contra hn
    exact h fun c hc => by simpa using fun h1 => hn ⟨c, hc, h1⟩
  · rintro ⟨c, hc, h1⟩ h
    exact h c hc (by simpa using h1)

theorem filling_put {cs : List (LexClass × Bool)} {m : ClassMap} (h : Filling cs m) (c : LexClass) (f : Bool) :
    ((∃ d ∈ cs, d.1.key = c.key ∧ d.1.suffix.accent ≠ c.suffix.accent) → m.put c.key c.suffix c.sample f = .threw) ∧
    ((∀ d ∈ cs, d.1.key = c.key → d.1.suffix.accent = c.suffix.accent) →
      ∃ m', m.put c.key c.suffix c.sample f = .done m' ∧ Filling (cs ++ [(c, f)]) m') := by
  obtain ⟨p1, p2⟩ := put_spec c.key c.suffix c.sample f m h.order
  constructor
  · rintro ⟨d, hd, h1, h2⟩
    obtain ⟨⟨k, v⟩, he, h3⟩ := List.mem_map.1 ((h.keys c.key).2 ⟨d, hd, h1⟩)
    simp only at h3
    subst h3
    refine p1 ⟨v, he, (groupVal_add (h.vals _ he) (filter_ne_nil.2 ⟨d, hd, h1⟩) c f).1 ?_⟩
    rw [← (h.vals _ he).accent d (List.mem_filter.2 ⟨hd, by simpa using h1⟩)]
    exact fun h => h2 h.symm
  · intro hall
    have hadd : ∀ v, (c.key, v) ∈ m → ∃ v', v.add c.suffix c.sample 1 f = .done v' ∧ GroupVal ((cs.filter fun d => d.1.key = c.key) ++ [(c, f)]) v' := by
      intro v hv
      obtain ⟨d, hd, h1⟩ := (h.keys c.key).1 (List.mem_map.2 ⟨_, hv, rfl⟩)
      obtain ⟨v', h2, -, h3⟩ := (groupVal_add (h.vals _ hv) (filter_ne_nil.2 ⟨d, hd, h1⟩) c f).2 (by
        rw [← (h.vals _ hv).accent d (List.mem_filter.2 ⟨hd, by simpa using h1⟩)]
        exact (hall d hd h1).symm)
      exact ⟨v', h2, h3⟩
    obtain ⟨m', h1, h2, -, h4⟩ := p2 fun v hv => (hadd v hv).imp fun _ h => h.1
    refine ⟨m', h1, h2, fun k => ?_, fun e he => ?_⟩
    · constructor
      · intro hk
        obtain ⟨e, he, rfl⟩ := List.mem_map.1 hk
        rcases (h4 e).1 he with ⟨h5, -⟩ | ⟨v, h5, h6, -⟩ | ⟨-, rfl⟩
        · obtain ⟨d, hd, h6⟩ := (h.keys e.1).1 (List.mem_map.2 ⟨_, h5, rfl⟩)
          exact ⟨d, by simp [hd], h6⟩
        · exact ⟨(c, f), by simp, h6.symm⟩
        · exact ⟨(c, f), by simp, rfl⟩
      · rintro ⟨d, hd, h5⟩
        by_cases hk : k = c.key
        · subst hk
          by_cases hex : c.key ∈ m.map (·.1)
          · obtain ⟨⟨k, v⟩, he, h6⟩ := List.mem_map.1 hex
            simp only at h6
            subst h6
            obtain ⟨v', h7, -⟩ := hadd v he
            exact List.mem_map.2 ⟨(c.key, v'), (h4 _).2 (.inr (.inl ⟨v, he, rfl, h7⟩)), rfl⟩
          · refine List.mem_map.2 ⟨_, (h4 _).2 (.inr (.inr ⟨fun e he h6 => hex (List.mem_map.2 ⟨e, he, h6⟩), rfl⟩)), rfl⟩
        · rcases List.mem_append.1 hd with hd | hd
          · obtain ⟨e, he, h6⟩ := List.mem_map.1 ((h.keys k).2 ⟨d, hd, h5⟩)
            exact List.mem_map.2 ⟨e, (h4 _).2 (.inl ⟨he, by rw [h6]; exact hk⟩), h6⟩
          · simp only [List.mem_singleton] at hd
            subst hd
            exact absurd h5.symm hk
    · rw [List.filter_append]
      rcases (h4 e).1 he with ⟨h5, h6⟩ | ⟨v, h5, h6, h7⟩ | ⟨h5, rfl⟩
      · rw [List.filter_cons_of_neg (by simpa using fun h => h6 h.symm), List.filter_nil, List.append_nil]
        exact h.vals e h5
      · rw [List.filter_cons_of_pos (by simpa using h6.symm), List.filter_nil]
        obtain ⟨v', h8, h9⟩ := hadd v h5
        rw [h7] at h8
        cases h8
        rw [h6]; exact h9
      · rw [List.filter_cons_of_pos (by simp), List.filter_nil]
        have hnil : (cs.filter fun d => d.1.key = c.key) = [] := by
          rw [← not_ne_iff, filter_ne_nil]
          intro hd
          obtain ⟨e, he, h6⟩ := List.mem_map.1 ((h.keys c.key).2 hd)
          exact h5 e he h6
        rw [hnil]
        exact groupVal_new c f

theorem loadAll_spec (T : ClassTool) (low : Byte → Byte) (M : Morpho) (buffer : List Byte) (sel ban : Nat → Bool) :
    ∀ (xs : List Nat) (cs : List (LexClass × Bool)), TakenAs T low M buffer sel ban xs cs → ∀ (pre : List (LexClass × Bool)) (m : ClassMap), Filling pre m →
      (¬ AccentsClash pre) →
      (AccentsClash (pre ++ cs) → loadAll T low M buffer sel ban xs m = .threw) ∧
      (¬ AccentsClash (pre ++ cs) → ∃ m', loadAll T low M buffer sel ban xs m = .done m' ∧ Filling (pre ++ cs) m')
  | [], cs, ht, pre, m, hm, hc => by
    simp only [TakenAs] at ht
    subst ht
    rw [List.append_nil]
    exact ⟨fun h => absurd h hc, fun _ => ⟨m, rfl, hm⟩⟩
  | x :: xs, cs, ht, pre, m, hm, hc => by
    simp only [TakenAs] at ht
    rcases ht with ⟨h1, ht⟩ | ⟨h1, h2, ht⟩ | ⟨h1, c, cs', h2, rfl, ht⟩
    · have := loadAll_spec T low M buffer sel ban xs cs ht pre m hm hc
      simpa [loadAll, loadLexeme, h1, Ran.bind] using this
    · have := loadAll_spec T low M buffer sel ban xs cs ht pre m hm hc
      simpa [loadAll, loadLexeme, h1, h2, Ran.bind] using this
    · obtain ⟨p1, p2⟩ := filling_put hm c (sel x)
      by_cases hcl : ∃ d ∈ pre, d.1.key = c.key ∧ d.1.suffix.accent ≠ c.suffix.accent
      · constructor
        · intro _
          simp [loadAll, loadLexeme, h1, h2, Ran.bind, p1 hcl]
        · intro hno
          obtain ⟨d, hd, h3, h4⟩ := hcl
          exact absurd ⟨d, by simp [hd], (c, sel x), by simp, h3, h4⟩ hno
      · have hall : ∀ d ∈ pre, d.1.key = c.key → d.1.suffix.accent = c.suffix.accent := by
          intro d hd h3
          by_contra h4
          exact hcl ⟨d, hd, h3, h4⟩
        obtain ⟨m', h3, h4⟩ := p2 hall
        have hc' : ¬ AccentsClash (pre ++ [(c, sel x)]) := by
          rintro ⟨d, hd, e, he, h5, h6⟩
          rcases List.mem_append.1 hd with hd | hd <;> rcases List.mem_append.1 he with he | he
          · exact hc ⟨d, hd, e, he, h5, h6⟩
          · simp only [List.mem_singleton] at he
            subst he
            exact h6 (hall d hd h5)
          · simp only [List.mem_singleton] at hd
            subst hd
            exact h6 (hall e he h5.symm).symm
          · simp only [List.mem_singleton] at hd he
            subst hd he
            exact h6 rfl
        have := loadAll_spec T low M buffer sel ban xs cs' ht (pre ++ [(c, sel x)]) m' h4 hc'
        rw [List.append_assoc, List.singleton_append] at this
        simpa [loadAll, loadLexeme, h1, h2, Ran.bind, h3] using this

/-- **C71** when every lexeme that is not banned has a class or none, the tool either throws, exactly if two lexemes with the same endings
differ in the accent scheme, or makes the map of the lexemes. -/
theorem C71_collects (T : ClassTool) (low : Byte → Byte) (M : Morpho) (buffer : List Byte) (sel ban : Nat → Bool) (xs : List Nat)
    (cs : List (LexClass × Bool)) (ht : TakenAs T low M buffer sel ban xs cs) :
    (AccentsClash cs → loadAll T low M buffer sel ban xs [] = .threw) ∧
    (¬ AccentsClash cs → ∃ m, loadAll T low M buffer sel ban xs [] = .done m ∧ Collects cs m) := by
  have h := loadAll_spec T low M buffer sel ban xs cs ht [] [] ⟨by simp, by simp, by simp⟩ (by rintro ⟨c, hc, -⟩; simp at hc)
  rw [List.nil_append] at h
  exact ⟨h.1, fun hc => (h.2 hc).imp fun m hm => ⟨hm.1, hm.2.collects⟩⟩

/-- Such a list of classes there is, and one only, when no lexeme makes the tool fail. -/
theorem C71_taken (T : ClassTool) (low : Byte → Byte) (M : Morpho) (buffer : List Byte) (sel ban : Nat → Bool) : ∀ (xs : List Nat),
    (∀ x ∈ xs, ban x = false → ∃ c, lexClass T low M buffer x = .done c) → ∃! cs, TakenAs T low M buffer sel ban xs cs
  | [], _ => ⟨[], rfl, fun _ h => h⟩
  | x :: xs, h => by
    obtain ⟨cs, h1, h2⟩ := C71_taken T low M buffer sel ban xs fun y hy => h y (by simp [hy])
    cases hb : ban x with
    | true =>
      refine ⟨cs, .inl ⟨hb, h1⟩, ?_⟩
      rintro ds (⟨-, hd⟩ | ⟨hd, -⟩ | ⟨hd, -⟩)
      · exact h2 _ hd
      · rw [hb] at hd; cases hd
      · rw [hb] at hd; cases hd
    | false =>
      obtain ⟨c, hc⟩ := h x (by simp) hb
      cases c with
      | none =>
        refine ⟨cs, .inr (.inl ⟨hb, hc, h1⟩), ?_⟩
        rintro ds (⟨hd, -⟩ | ⟨-, -, hd⟩ | ⟨-, c, cs', hd, -⟩)
        · rw [hb] at hd; cases hd
        · exact h2 _ hd
        · rw [hc] at hd; cases hd
      | some c =>
        refine ⟨(c, sel x) :: cs, .inr (.inr ⟨hb, c, cs, hc, rfl, h1⟩), ?_⟩
        rintro ds (⟨hd, -⟩ | ⟨-, hd, -⟩ | ⟨-, c', cs', hd, rfl, h3⟩)
        · rw [hb] at hd; cases hd
        · rw [hc] at hd; cases hd
        · rw [hc] at hd; cases hd
          rw [h2 _ h3]

/-- A class is that of forms. -/
theorem lexClass_from {T : ClassTool} {low : Byte → Byte} {M : Morpho} {buffer : List Byte} {x : Nat} {d : LexClass}
    (hd : lexClass T low M buffer x = .done (some d)) : ∃ fs, classForms T d.key.1 fs = .done (some (d.key.2, d.suffix)) := by
  unfold lexClass at hd
  split at hd
  · cases hd
  · split at hd
    · cases hd
    · split at hd
      · cases hd
      · rename_i fo al ch psp _
        cases ha : allForms low M buffer x fo al with
        | ub => simp [ha, Ran.bind] at hd
        | threw => simp [ha, Ran.bind] at hd
        | done r =>
          simp only [ha, Ran.bind] at hd
          cases r with
          | none => simp at hd
          | some fs =>
            simp only at hd
            cases hcf : classForms T psp (ch fs) with
            | ub => simp [hcf] at hd
            | threw => simp [hcf] at hd
            | done r =>
              simp only [hcf] at hd
              cases r with
              | none => simp at hd
              | some p =>
                simp only [Ran.done.injEq, Option.some.injEq] at hd
                subst hd
                exact ⟨_, hcf⟩

/-- The accent of a class is what the tool says of its part of speech and forms. -/
theorem lexClass_accent {T : ClassTool} {low : Byte → Byte} {M : Morpho} {buffer : List Byte} {x : Nat} {d : LexClass}
    (hd : lexClass T low M buffer x = .done (some d)) : ∃ fs, d.suffix.accent = T.accent d.key.1 fs := by
  obtain ⟨fs, h⟩ := lexClass_from hd
  obtain ⟨_, -, -, -, h⟩ := classForms_some h
  exact ⟨_, h⟩

/-- Every class taken is that of a lexeme. -/
theorem takenAs_mem {T : ClassTool} {low : Byte → Byte} {M : Morpho} {buffer : List Byte} {sel ban : Nat → Bool} : ∀ (xs : List Nat)
    (cs : List (LexClass × Bool)), TakenAs T low M buffer sel ban xs cs →
    ∀ c, c ∈ cs ↔ ∃ x ∈ xs, ban x = false ∧ lexClass T low M buffer x = .done (some c.1) ∧ c.2 = sel x
  | [], cs, h, c => by simp only [TakenAs] at h; subst h; simp
  | x :: xs, cs, h, c => by
    rcases h with ⟨h0, h⟩ | ⟨h0, h1, h⟩ | ⟨h0, d, ds, h1, rfl, h⟩
    · rw [takenAs_mem xs cs h c]
      constructor
      · rintro ⟨y, hy, h2⟩; exact ⟨y, by simp [hy], h2⟩
      · rintro ⟨y, hy, h2, h3⟩
        rcases List.mem_cons.1 hy with rfl | hy
        · rw [h0] at h2; cases h2
        · exact ⟨y, hy, h2, h3⟩
    · rw [takenAs_mem xs cs h c]
      constructor
      · rintro ⟨y, hy, h2⟩; exact ⟨y, by simp [hy], h2⟩
      · rintro ⟨y, hy, h2, h3, h4⟩
        rcases List.mem_cons.1 hy with rfl | hy
        · rw [h1] at h3; cases h3
        · exact ⟨y, hy, h2, h3, h4⟩
    · rw [List.mem_cons, takenAs_mem xs ds h c]
      constructor
      · rintro (rfl | ⟨y, hy, h2⟩)
        · exact ⟨x, by simp, h0, h1, rfl⟩
        · exact ⟨y, by simp [hy], h2⟩
      · rintro ⟨y, hy, h2, h3, h4⟩
        rcases List.mem_cons.1 hy with rfl | hy
        · rw [h1] at h3
          simp only [Ran.done.injEq, Option.some.injEq] at h3
          exact .inl (Prod.ext h3.symm h4)
        · exact .inr ⟨y, hy, h2, h3, h4⟩

/-- The classes the map is made of are those of the lexemes that are not banned. -/
theorem C71_classes {T : ClassTool} {low : Byte → Byte} {M : Morpho} {buffer : List Byte} {sel ban : Nat → Bool} (xs : List Nat)
    (cs : List (LexClass × Bool)) (h : TakenAs T low M buffer sel ban xs cs) (c : LexClass × Bool) :
    c ∈ cs ↔ ∃ x ∈ xs, ban x = false ∧ lexClass T low M buffer x = .done (some c.1) ∧ c.2 = sel x := takenAs_mem xs cs h c

/-- The English tool never throws for the accents. -/
theorem C71_english (low : Byte → Byte) (M : Morpho) (buffer : List Byte) (sel ban : Nat → Bool) (xs : List Nat)
    (cs : List (LexClass × Bool)) (ht : TakenAs engTool low M buffer sel ban xs cs) :
    ∃ m, loadAll engTool low M buffer sel ban xs [] = .done m ∧ Collects cs m := by
  refine (C71_collects _ _ _ _ _ _ _ _ ht).2 ?_
  have : ∀ c ∈ cs, c.1.suffix.accent = false := by
    intro c hc
    obtain ⟨x, -, -, h, -⟩ := (takenAs_mem xs cs ht c).1 hc
    obtain ⟨fs, h⟩ := lexClass_accent h
    rw [h]; rfl
  rintro ⟨c, hc, d, hd, -, h⟩
  exact h (by rw [this c hc, this d hd])

/-! ### Examples -/

/-- A dictionary of nouns: a stem for every lexeme, the same endings. -/
def nounMorpho (stem : Nat → List Byte) (ends : Nat → List (List Byte)) : Morpho where
  info := fun _ => some (1, some 7)
  build := fun B x i => (oneLexeme 7 fun i => (ends i).map (stem x ++ ·)).build B x i

/-- й я ю ем е, и ев ям ями ях. -/
def boyEnds : Nat → List (List Byte)
  | 0 => [[233]] | 1 => [[255]] | 2 => [[254]] | 5 => [[229, 236]] | 6 => [[229]]
  | 10 => [[232]] | 11 => [[229, 226]] | 12 => [[255, 236]] | 15 => [[255, 236, 232]] | 16 => [[255, 245]] | _ => []

/-- 1: "бо", 2: "ки", 3: "стро", 4: "сло". -/
def boyStems : Nat → List Byte
  | 1 => [225, 238] | 2 => [234, 232] | 3 => [241, 242, 240, 238] | _ => [241, 235, 238]

/-- "бой" and "кий" have the same endings but, by the rule, different accent schemes: the tool ends with an exception. -/
theorem C71_clash : loadAll rusTool asciiLow (nounMorpho boyStems boyEnds) (List.replicate 100 0) (fun _ => false) (fun _ => false) [1, 2] [] = .threw := by
  decide +kernel

/-- "бой", "строй" (selected), "слой", and "кий" banned: one class with three lexemes; the ends of the stems "ло", "ро", "бо" in the order
of the last letter, then the one before. -/
theorem C71_example : loadAll rusTool asciiLow (nounMorpho boyStems boyEnds) (List.replicate 100 0) (fun x => x == 3) (fun x => x == 2) [1, 2, 3, 4] [] =
    .done [((7, [(0, [233]), (1, [255]), (2, [254]), (3, [233]), (4, [255]), (5, [229, 236]), (6, [229]), (10, [232]), (11, [229, 226]),
        (12, [255, 236]), (13, [232]), (14, [229, 226]), (15, [255, 236, 232]), (16, [255, 245])]),
      ⟨[⟨⟨225, 238, true⟩, [225, 238, 233], 1⟩, ⟨⟨235, 238, true⟩, [241, 235, 238, 233], 1⟩, ⟨⟨240, 238, true⟩, [241, 242, 240, 238, 233], 1⟩], 3, true⟩)] := by
  decide +kernel

theorem boy_classes : (∀ x ∈ [1, 3, 4], ∃ c, lexClass rusTool asciiLow (nounMorpho boyStems boyEnds) (List.replicate 100 0) x = .done (some c)) := by
  have h : ∀ x ∈ [1, 3, 4], (match lexClass rusTool asciiLow (nounMorpho boyStems boyEnds) (List.replicate 100 0) x with
      | .done (some _) => true | _ => false) = true := by decide +kernel
  intro x hx
  have := h x hx
  split at this
  · rename_i c hc; exact ⟨c, hc⟩
  · cases this

/-- The hypotheses are met. -/
example : ∃! cs, TakenAs rusTool asciiLow (nounMorpho boyStems boyEnds) (List.replicate 100 0) (fun x => x == 3) (fun x => x == 2) [1, 2, 3, 4] cs := by
  refine C71_taken _ _ _ _ _ _ _ ?_
  intro x hx hb
  have : x ∈ [1, 3, 4] := by
    simp only [List.mem_cons, List.not_mem_nil, or_false] at hx ⊢
    simp at hb
    omega
  obtain ⟨c, hc⟩ := boy_classes x this
  exact ⟨some c, hc⟩

end Libmorph
