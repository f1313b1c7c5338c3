import Verif.Lemmas.MakeMerge
import Verif.Props.C71
/-
C72: merging of the classes of part of speech 1.
-/
namespace Libmorph

/-- Steps of the tool. -/
def Steps : ClassMap → ClassMap → Prop := Relation.ReflTransGen fun a b => ∃ c s v w v', Step a b c s v w v'

theorem Steps.ok {m m' : ClassMap} (h : Steps m m') (hm : MapOk m) : MapOk m' := by
  induction h with
  | refl => exact hm
  | tail _ h ih => obtain ⟨c, s, v, w, v', h⟩ := h; exact h.ok ih

theorem Steps.partly {m m' : ClassMap} (h : Steps m m') (hm : MapOk m) : ∃ φ, Partly m m' φ := by
  induction h with
  | refl => exact ⟨_, partly_refl hm⟩
  | tail h1 h ih =>
    obtain ⟨c, s, v, w, v', h⟩ := h
    obtain ⟨φ, hp⟩ := ih
    exact ⟨_, hp.step (Steps.ok h1 hm) h⟩

theorem Step.takesUp {m m' : ClassMap} {c s : ClassKey} {v w v' : ClassVal} (h : Step m m' c s v w v') : TakesUp (m.map (·.1)) (m'.map (·.1)) c s :=
  ⟨⟨List.mem_map.2 ⟨_, h.hc, rfl⟩, h.one.1⟩, ⟨List.mem_map.2 ⟨_, h.hs, rfl⟩, h.one.2, h.ne, h.sub⟩, h.longest, h.keys⟩

theorem Steps.takesUp {m m' : ClassMap} (h : Steps m m') :
    Relation.ReflTransGen (fun ks ks' => ∃ c s, TakesUp ks ks' c s) (m.map (·.1)) (m'.map (·.1)) := by
  induction h with
  | refl => exact .refl
  | tail _ h ih => obtain ⟨c, s, v, w, v', h⟩ := h; exact ih.tail ⟨c, s, h.takesUp⟩

theorem Step.shorter {m m' : ClassMap} {c s : ClassKey} {v w v' : ClassVal} (h : Step m m' c s v w v') : m'.length < m.length := by
  have h1 : m'.length = ((m.map (·.1)).filter (· ≠ s)).length := by rw [← h.keys, List.length_map]
  have h2 : ((m.map (·.1)).filter (· ≠ s)).length < (m.map (·.1)).length :=
    List.length_filter_lt_length_iff_exists.2 ⟨s, List.mem_map.2 ⟨_, h.hs, rfl⟩, by simp⟩
  rw [List.length_map] at h2
  omega

/-- One turn of the loop that takes up a class is a step. -/
theorem turn_step {pre post : ClassMap} {c sel : ClassKey × ClassVal} (hm : MapOk (pre ++ c :: post)) (hc : c.1.1 = 1)
    (hp : mergePick c.1 (pre ++ post) none = some sel) :
    ∃ v, addSamples c.2 sel.2.charSet = .done v ∧
      Step (pre ++ c :: post) (pre.filter (fun x => x.1 ≠ sel.1) ++ [(c.1, v)] ++ post.filter fun x => x.1 ≠ sel.1) c.1 sel.1 c.2 sel.2 v := by
  have hforms : ∀ e ∈ pre ++ c :: post, e.1.2.Pairwise MForm.Le := fun e he => (hm.forms e he).imp fun h => MForm.le_iff.2 h
  obtain ⟨h1, h2, -⟩ := (mergePick_spec c.1 (pre ++ post) none).2 sel hp
  rcases h1 with h1 | ⟨h1, h3, h4⟩
  · cases h1
  have hin : ∀ t ∈ pre ++ post, t ∈ pre ++ c :: post := by
    intro t ht
    rcases List.mem_append.1 ht with ht | ht <;> simp [ht]
  have hcin : c ∈ pre ++ c :: post := by simp
  have hnd := hm.once
  rw [List.map_append, List.map_cons, List.nodup_middle, List.nodup_cons, ← List.map_append] at hnd
  have hne : ∀ t ∈ pre ++ post, t.1 ≠ c.1 := fun t ht h => hnd.1 (List.mem_map.2 ⟨t, ht, h⟩)
  have hsub := (coverForms_iff _ _ (hforms c hcin) (hforms sel (hin sel h1))).1 h4
  have hacc : ∀ t ∈ sel.2.charSet, t.suffix.accent = c.2.schemeB := by
    intro t ht
    rw [hm.accent _ (hin sel h1) t ht, hm.plain _ (hin sel h1) h3, hm.plain _ hcin hc]
  obtain ⟨v, hv, -⟩ := addSamples_spec sel.2.charSet c.2 (hm.val hcin) hacc
  refine ⟨v, hv, hcin, hin sel h1, hne sel h1, ⟨hc, h3⟩, hsub, ?_, hv, ?_⟩
  · intro k hk h5 h6 h7
    obtain ⟨t, ht, rfl⟩ := List.mem_map.1 hk
    have ht' : t ∈ pre ++ post := by
      rcases List.mem_append.1 ht with ht | ht
      · simp [ht]
      · rcases List.mem_cons.1 ht with rfl | ht
        · exact absurd rfl h6
        · simp [ht]
    exact h2 t ht' h5 ((coverForms_iff _ _ (hforms c hcin) (hforms t ht)).2 h7)
  · rw [List.filter_append, List.filter_cons_of_pos (by simpa using fun h => hne sel h1 h.symm), List.map_append, List.map_cons]
    have hid : ∀ l : ClassMap, (∀ t ∈ l, t ∈ pre ++ post) → ((l.filter fun x => x.1 ≠ sel.1).map fun e => if e.1 = c.1 then (c.1, v) else e)
        = l.filter fun x => x.1 ≠ sel.1 := by
      intro l hl
      conv_rhs => rw [← List.map_id (l.filter fun x => x.1 ≠ sel.1)]
      refine List.map_congr_left fun t ht => ?_
      rw [if_neg (hne t (hl t (List.mem_filter.1 ht).1))]; rfl
    rw [hid pre fun t ht => by simp [ht], hid post fun t ht => by simp [ht]]
    simp

theorem mergePass_spec : ∀ (n : Nat) (pre post : ClassMap) (merged : Bool), post.length ≤ n → MapOk (pre ++ post) →
    ∃ L b, mergePass n pre post merged = .done (L, b) ∧ Steps (pre ++ post) L ∧ (merged = true → b = true) ∧
      (b = true → merged = true ∨ L.length < (pre ++ post).length) ∧ L.length ≤ (pre ++ post).length ∧
      (b = false → L = pre ++ post ∧ ∀ c ∈ post, c.1.1 = 1 → ∀ t ∈ pre ++ post, t.1 ≠ c.1 → t.1.1 = 1 → ¬ t.1.2.Sublist c.1.2)
  | n, pre, [], merged, _, hm => by
    refine ⟨pre, merged, by cases n <;> rfl, ?_, id, fun h => .inl h, by simp, fun h => ⟨by simp, by simp⟩⟩
    rw [List.append_nil]; exact .refl
  | 0, _, _ :: _, _, h, _ => by simp at h
  | n + 1, pre, c :: post, merged, h, hm => by
    have hlen : post.length ≤ n := by simpa using h
    have happ : pre ++ [c] ++ post = pre ++ c :: post := by simp
    have hgo : ∀ (_ : c.1.1 = 1 → ∀ t ∈ pre ++ c :: post, t.1 ≠ c.1 → t.1.1 = 1 → ¬ t.1.2.Sublist c.1.2),
        ∃ L b, mergePass n (pre ++ [c]) post merged = .done (L, b) ∧ Steps (pre ++ c :: post) L ∧ (merged = true → b = true) ∧
          (b = true → merged = true ∨ L.length < (pre ++ c :: post).length) ∧ L.length ≤ (pre ++ c :: post).length ∧
          (b = false → L = pre ++ c :: post ∧ ∀ d ∈ c :: post, d.1.1 = 1 → ∀ t ∈ pre ++ c :: post, t.1 ≠ d.1 → t.1.1 = 1 → ¬ t.1.2.Sublist d.1.2) := by
      intro hno
      obtain ⟨L, b, h1, h2, h3, h4, h5, h6⟩ := mergePass_spec n (pre ++ [c]) post merged hlen (by rw [happ]; exact hm)
      rw [happ] at h2 h4 h5 h6
      refine ⟨L, b, h1, h2, h3, h4, h5, fun hb => ⟨(h6 hb).1, fun d hd => ?_⟩⟩
      rcases List.mem_cons.1 hd with rfl | hd
      · exact hno
      · exact (h6 hb).2 d hd
    simp only [mergePass]
    by_cases hc : c.1.1 = 1
    · rw [if_pos hc]
      cases hp : mergePick c.1 (pre ++ post) none with
      | none =>
        simp only
        refine hgo fun _ t ht hne h1 hsub => ?_
        have hforms : ∀ e ∈ pre ++ c :: post, e.1.2.Pairwise MForm.Le := fun e he => (hm.forms e he).imp fun h => MForm.le_iff.2 h
        have ht' : t ∈ pre ++ post := by
          rcases List.mem_append.1 ht with ht | ht
          · simp [ht]
          · rcases List.mem_cons.1 ht with rfl | ht
            · exact absurd rfl hne
            · simp [ht]
        exact ((mergePick_spec c.1 (pre ++ post) none).1.1 hp).2 t ht' ⟨h1, (coverForms_iff _ _ (hforms c (by simp)) (hforms t ht)).2 hsub⟩
      | some sel =>
        obtain ⟨v, hv, hstep⟩ := turn_step hm hc hp
        simp only [hv, Ran.bind]
        obtain ⟨L, b, h1, h2, h3, h4, h5, h6⟩ := mergePass_spec n (pre.filter (fun x => x.1 ≠ sel.1) ++ [(c.1, v)]) (post.filter fun x => x.1 ≠ sel.1) true
          (Nat.le_trans (List.length_filter_le _ _) hlen) (hstep.ok hm)
        have hsh := hstep.shorter
        refine ⟨L, b, h1, .head ⟨_, _, _, _, _, hstep⟩ h2, fun _ => h3 rfl, fun _ => .inr (by omega), by omega, fun hb => ?_⟩
        rw [h3 rfl] at hb; cases hb
    · rw [if_neg hc]
      exact hgo fun h => absurd h hc

theorem mergeLoop_spec : ∀ (n : Nat) (m : ClassMap), m.length < n → MapOk m →
    ∃ L, mergeLoop n m = .done L ∧ Steps m L ∧ ∀ c ∈ L, c.1.1 = 1 → ∀ t ∈ L, t.1 ≠ c.1 → t.1.1 = 1 → ¬ t.1.2.Sublist c.1.2
  | 0, _, h, _ => by simp at h
  | n + 1, m, h, hm => by
    obtain ⟨L, b, h1, h2, -, h4, h5, h6⟩ := mergePass_spec m.length [] m false (Nat.le_refl _) (by simpa using hm)
    simp only [List.nil_append] at h2 h4 h5 h6
    rw [mergeLoop, h1]
    simp only [Ran.bind]
    cases b with
    | false =>
      obtain ⟨rfl, h7⟩ := h6 rfl
      exact ⟨L, by simp, .refl, h7⟩
    | true =>
      have hlt : L.length < m.length := by
        rcases h4 rfl with h | h
        · cases h
        · exact h
      obtain ⟨L', h7, h8, h9⟩ := mergeLoop_spec n L (by omega) (h2.ok hm)
      exact ⟨L', by simpa using h7, h2.trans h8, h9⟩

/-- **C72** merging ends, without an exception, for every map the tool can have made, and is what it is to be. -/
theorem C72_merges (m : ClassMap) (hm : MapOk m) : ∃ m' φ, mergeMap m = .done m' ∧ Merged m m' φ ∧ MapOk m' := by
  obtain ⟨L, h1, h2, h3⟩ := mergeLoop_spec (m.length + 1) m (by omega) hm
  obtain ⟨φ, hp⟩ := h2.partly hm
  have hok := h2.ok hm
  refine ⟨L, φ, h1, ⟨hok.once, hp.kept, hp.into, hp.others, hp.count, hp.weight, hp.accent, hok.order, hp.samples, ?_⟩, hok⟩
  intro k hk k' hk' h4 h5 h6
  obtain ⟨e, he, rfl⟩ := List.mem_map.1 hk
  obtain ⟨e', he', rfl⟩ := List.mem_map.1 hk'
  by_contra hne
  exact h3 e he h4 e' he' hne h5 h6

/-- The classes are taken up one after another, each time one of the longest. -/
theorem C72_longest (m m' : ClassMap) (hm : MapOk m) (h : mergeMap m = .done m') :
    Relation.ReflTransGen (fun ks ks' => ∃ c s, TakesUp ks ks' c s) (m.map (·.1)) (m'.map (·.1)) := by
  obtain ⟨L, h1, h2, -⟩ := mergeLoop_spec (m.length + 1) m (by omega) hm
  rw [mergeMap, h1] at h
  cases h
  exact h2.takesUp

theorem sum_map_add' {α : Type} (l : List α) (f g : α → Nat) : (l.map fun a => f a + g a).sum = (l.map f).sum + (l.map g).sum := by
  induction l with
  | nil => rfl
  | cons a as ih => simp only [List.map_cons, List.sum_cons, ih]; omega

theorem sum_one {β : Type} [DecidableEq β] (ks : List β) (hn : ks.Nodup) (b : β) (hb : b ∈ ks) (n : Nat) :
    (ks.map fun k => if k = b then n else 0).sum = n := by
  induction ks with
  | nil => simp at hb
  | cons k ks ih =>
    rw [List.nodup_cons] at hn
    simp only [List.map_cons, List.sum_cons]
    by_cases h : k = b
    · rw [if_pos h]
      have : ∀ l : List β, b ∉ l → (l.map fun k => if k = b then n else 0).sum = 0 := by
        intro l hl
        induction l with
        | nil => rfl
        | cons x xs ih =>
          simp only [List.mem_cons, not_or] at hl
          rw [List.map_cons, List.sum_cons, ih hl.2, if_neg (fun h => hl.1 h.symm)]
      rw [this ks (h ▸ hn.1)]; omega
    · rw [if_neg h, ih hn.2 (by rcases List.mem_cons.1 hb with h' | h'; exact absurd h'.symm h; exact h')]
      omega

/-- Sum over groups. -/
theorem sum_groups {α β : Type} [DecidableEq β] (ks : List β) (hn : ks.Nodup) (l : List α) (g : α → β) (hg : ∀ a ∈ l, g a ∈ ks) (f : α → Nat) :
    (ks.map fun k => ((l.filter fun a => g a = k).map f).sum).sum = (l.map f).sum := by
  induction l with
  | nil => simp
  | cons a as ih =>
    have ih := ih fun b hb => hg b (by simp [hb])
    have h1 : (ks.map fun k => (((a :: as).filter fun a => g a = k).map f).sum)
        = ks.map fun k => (if k = g a then f a else 0) + ((as.filter fun a => g a = k).map f).sum := by
      refine List.map_congr_left fun k _ => ?_
      simp only [List.filter_cons, decide_eq_true_eq]
      by_cases h : g a = k
      · simp [h]
      · rw [if_neg h, if_neg (fun h' => h h'.symm)]; omega
    rw [h1, sum_map_add', ih, List.map_cons, List.sum_cons]
    congr 1
    exact sum_one ks hn (g a) (hg a (by simp)) (f a)

/-- No lexeme is lost: the weight of all classes together stays. -/
theorem C72_total (m m' : ClassMap) (φ : ClassKey → ClassKey) (h : Merged m m' φ) : mapWeight m' = mapWeight m := by
  have h1 : (m'.map fun e => e.2.modProd) = (m'.map (·.1)).map fun k => ((m.filter fun e => φ e.1 = k).map fun e => e.2.modProd).sum := by
    rw [List.map_map]
    exact List.map_congr_left fun e he => h.count e he
  unfold mapWeight
  rw [h1]
  exact sum_groups _ h.once m (fun e => φ e.1) (fun e he => (h.into e.1 (List.mem_map.2 ⟨e, he, rfl⟩)).1) _

/-- What was collected can be merged: classes of part of speech 1 never have the scheme "b". -/
theorem C72_collected {T : ClassTool} (hT : T = rusTool ∨ T = engTool) {low : Byte → Byte} {M : Morpho} {buffer : List Byte} {sel ban : Nat → Bool}
    {xs : List Nat} {cs : List (LexClass × Bool)} (ht : TakenAs T low M buffer sel ban xs cs) {m : ClassMap} (hc : Collects cs m) : MapOk m := by
  have hkey : ∀ e ∈ m, ∃ c ∈ cs, c.1.key = e.1 := fun e he => (hc.keys e.1).1 (List.mem_map.2 ⟨e, he, rfl⟩)
  refine ⟨hc.once, ?_, fun e he => (hc.vals e he).order, ?_, ?_, ?_⟩
  · intro e he
    obtain ⟨c, h1, h2⟩ := hkey e he
    rw [← h2]
    obtain ⟨x, -, -, h4, -⟩ := (takenAs_mem xs cs ht c).1 h1
    obtain ⟨fs, h5⟩ := lexClass_from h4
    obtain ⟨_, -, h6, -⟩ := classForms_some h5
    exact h6.imp fun h => MForm.le_iff.1 h
  · intro e he s hs
    obtain ⟨⟨c, h1, h2⟩, -⟩ := ((hc.vals e he).samples s).1 hs
    rw [← h2]; exact (hc.vals e he).accent c h1
  · intro e he
    have hv := hc.vals e he
    rw [hv.count]
    have h1 : (e.2.charSet.map fun s => s.mdProd)
        = (e.2.charSet.map (·.suffix)).map fun u => (((cs.filter fun c => c.1.key = e.1).filter fun c => c.1.suffix = u).map fun _ => 1).sum := by
      rw [List.map_map]
      refine List.map_congr_left fun s hs => ?_
      rw [((hv.samples s).1 hs).2.1]
      simp
    rw [h1, sum_groups]
    · simp
    · rw [List.Nodup, List.pairwise_map]
      exact (show e.2.charSet.Pairwise fun a b => a.suffix.Before b.suffix from hv.order).imp fun h => h.ne
    · intro c hc'
      have := (hv.samples ⟨c.1.suffix, groupSample ((cs.filter fun d => d.1.key = e.1).filter fun d => d.1.suffix = c.1.suffix),
        ((cs.filter fun d => d.1.key = e.1).filter fun d => d.1.suffix = c.1.suffix).length⟩).2 ⟨⟨c, hc', rfl⟩, rfl, rfl⟩
      exact List.mem_map.2 ⟨_, this, rfl⟩
  · intro e he h1
    obtain ⟨c, h2, h3⟩ := hkey e he
    rw [← (hc.vals e he).accent c (List.mem_filter.2 ⟨h2, by simpa using h3⟩)]
    obtain ⟨x, -, -, h4, -⟩ := (takenAs_mem xs cs ht c).1 h2
    obtain ⟨fs, h5⟩ := lexClass_accent h4
    rw [h5, h3, h1]
    rcases hT with rfl | rfl
    · rfl
    · rfl

/-! ### Example -/

/-- Three classes of part of speech 1 -- the endings of the second and the third are among those of the first -- and one of part of speech 7. -/
def mergeSample : ClassMap :=
  [((1, [(0, [252]), (2, [108])]), ⟨[⟨⟨200, 201, false⟩, [200, 201, 252], 2⟩], 2, false⟩),
   ((1, [(0, [252]), (2, [108]), (3, [99])]), ⟨[⟨⟨200, 201, false⟩, [199, 200, 201, 252], 1⟩, ⟨⟨200, 203, false⟩, [200, 203, 252], 4⟩], 5, false⟩),
   ((1, [(0, [252]), (3, [99])]), ⟨[⟨⟨210, 202, false⟩, [210, 202, 252], 7⟩], 7, false⟩),
   ((7, [(0, [252]), (2, [108])]), ⟨[⟨⟨200, 201, true⟩, [200, 201, 252], 2⟩], 2, true⟩)]

theorem mergeSample_ok : MapOk mergeSample :=
  ⟨by decide, by decide, by decide, by decide, by decide, by decide⟩

theorem C72_example : mergeMap mergeSample =
    .done [((1, [(0, [252]), (2, [108]), (3, [99])]), ⟨[⟨⟨200, 201, false⟩, [199, 200, 201, 252], 3⟩, ⟨⟨210, 202, false⟩, [210, 202, 252], 7⟩,
        ⟨⟨200, 203, false⟩, [200, 203, 252], 4⟩], 14, false⟩),
      ((7, [(0, [252]), (2, [108])]), ⟨[⟨⟨200, 201, true⟩, [200, 201, 252], 2⟩], 2, true⟩)] := by decide +kernel

end Libmorph
