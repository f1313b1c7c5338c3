import Verif.Lemmas.Ich
import Verif.Props.C56
/-
C57: the compiler of alternation tables.
-/
namespace Libmorph
open Spec

theorem mixSer_length (m : List Mix) : (mixSer m).length = 1 + (m.map fun x => 1 + x.str.length).sum := by
  rw [mixSer, List.length_cons, List.length_flatten, List.map_map, Nat.add_comm]
  congr 2
  exact List.map_congr_left fun x _ => by simp [Nat.add_comm]

theorem ichOffsets_length : ∀ (ms : List (List Mix)) (o : Nat), (ichOffsets o ms).length = ms.length
  | [], _ => rfl
  | m :: ms, o => by simp [ichOffsets, ichOffsets_length ms]

theorem ichOffsets_spec : ∀ (ms : List (List Mix)) (o n : Nat) (m : List Mix), ms[n]? = some m → o + (ms.map fun m => (mixSer m).length).sum < 65536 →
    (ichOffsets o ms)[n]? = some (o + ((ms.take n).map fun m => (mixSer m).length).sum)
  | [], o, n, m, h, _ => by simp at h
  | x :: ms, o, 0, m, h, _ => by simp [ichOffsets]
  | x :: ms, o, n + 1, m, h, hlt => by
    simp only [List.map_cons, List.sum_cons] at hlt
    have hx : mixLen x = (mixSer x).length := by rw [mixLen, mixSer_length, Nat.mod_eq_of_lt]; rw [mixSer_length] at hlt; omega
    rw [ichOffsets, List.getElem?_cons_succ, hx, Nat.mod_eq_of_lt (by omega), ichOffsets_spec ms _ n m (by simpa using h) (by omega)]
    simp; omega

theorem sum_addStep (s : List Byte) (step : Nat) : ∀ m : List Mix, ((addStep s step m).map fun x => 1 + x.str.length).sum ≤ (m.map fun x => 1 + x.str.length).sum + (1 + s.length)
  | [] => by simp [addStep]
  | x :: m => by
    rw [addStep]
    have := sum_addStep s step m
    split
    · simp only [List.map_cons, List.sum_cons]; omega
    · split
      · simp
      · simp; omega

theorem sum_mix (hist : List (List Byte × Nat)) : ∀ m : List Mix, ((hist.foldl (fun m p => addStep p.1 p.2 m) m).map fun x => 1 + x.str.length).sum ≤
    (m.map fun x => 1 + x.str.length).sum + (hist.map fun p => 1 + p.1.length).sum := by
  induction hist with
  | nil => intro m; simp
  | cons p hist ih =>
    intro m
    rw [List.foldl_cons]
    have := ih (addStep p.1 p.2 m)
    have := sum_addStep p.1 p.2 m
    simp only [List.map_cons, List.sum_cons]; omega

theorem mix_length (l : IchLine) : (mixSer l.mix).length ≤ 1 + (l.steps.map fun s => 1 + s.length).sum := by
  rw [mixSer_length, IchLine.mix]
  have := sum_mix l.steps.zipIdx []
  have e : (l.steps.zipIdx.map fun p => 1 + p.1.length) = l.steps.map fun s => 1 + s.length := by
    conv_rhs => rw [← List.zipIdx_map_fst 0 l.steps]
    rw [List.map_map]; rfl
  rw [e] at this
  simp only [List.map_nil, List.sum_nil] at this
  omega

theorem ich_space (src : List IchLine) : ∀ s, src.foldlM (fun (s : IchSet) l => s.add l) {} = some s →
    (s.inter.map fun m => (mixSer m).length).sum ≤ ichSpace src := by
  induction src using List.reverseRecOn with
  | nil =>
    intro s h
    simp only [List.foldlM_nil, pure, Option.some.injEq] at h
    subst h; simp
  | append_singleton src l ih =>
    intro s' h
    rw [List.foldlM_append] at h
    simp only [bind, Option.bind_eq_some_iff] at h
    obtain ⟨s, hs, h⟩ := h
    simp only [List.foldlM_cons, List.foldlM_nil, bind, pure, Option.bind_fun_some] at h
    have i := ih s hs
    obtain ⟨s1, c, hc, e1, e2, e3⟩ := add_spec s s' l h
    obtain ⟨c1, _⟩ := conditions_spec _ _ _ _ _ hc (by simp) (ich_inv src s hs).lt
    obtain ⟨_, _, _, _, gro⟩ := interchange_spec s1 l.mix
    have hl := mix_length l
    have e : ichSpace (src ++ [l]) = ichSpace src + (1 + (l.steps.map fun s => 1 + s.length).sum) := by simp [ichSpace]
    rw [e, e2]
    rw [c1] at gro
    rcases gro with gro | gro <;> rw [gro]
    · omega
    · simp only [List.map_append, List.sum_append, List.map_cons, List.map_nil, List.sum_cons, List.sum_nil]; omega

/-- What a successful compilation made. -/
structure IchImage (src : List IchLine) (img : List Byte) (idx : List (List Byte × List (List Byte × Nat))) (s : IchSet)
    (tabs : List (List (List Byte × Nat))) : Prop where
  set : src.foldlM (fun (s : IchSet) l => s.add l) {} = some s
  htabs : List.Forall₂ (fun c t => List.Forall₂ (fun p q => (ichOffsets 6 s.inter)[p.2]?.map (p.1, ·) = some q) c t) s.condi tabs
  hidx : List.Forall₂ (fun p q => tabs[p.2]?.map (p.1, ·) = some q) s.index idx
  himg : img = [105, 110, 116, 101, 114, 99] ++ (s.inter.map mixSer).flatten

theorem ichCompile_some {src : List IchLine} {img : List Byte} {idx : List (List Byte × List (List Byte × Nat))} (h : ichCompile src = some (img, idx)) :
    ∃ s tabs, IchImage src img idx s tabs := by
  rw [ichCompile, Option.bind_eq_some_iff] at h
  obtain ⟨s, hs, h⟩ := h
  rw [IchSet.store] at h
  split at h
  · simp at h
  simp only [bind, Option.bind_eq_some_iff, pure, Option.some.injEq, Prod.mk.injEq, mapM_forall₂] at h
  obtain ⟨tabs, h1, i, h2, rfl, rfl⟩ := h
  exact ⟨s, tabs, hs, h1, h2, rfl⟩

theorem IchImage.stands {src : List IchLine} {img : List Byte} {idx : List (List Byte × List (List Byte × Nat))} {s : IchSet}
    {tabs : List (List (List Byte × Nat))} (h : IchImage src img idx s tabs) (hs : ichSpace src < 65530) {p q : List Byte × Nat} {l : IchLine}
    (he : Entered s p l) (hq : (ichOffsets 6 s.inter)[p.2]?.map (p.1, ·) = some q) : q.1 = l.cond ∧ StandsAt img q.2 l := by
  obtain ⟨e1, e2⟩ := he
  have hsp := ich_space src s h.set
  have ho := ichOffsets_spec s.inter 6 p.2 l.mix e2 (by omega)
  rw [ho] at hq
  simp only [Option.map_some, Option.some.injEq] at hq
  subst hq
  obtain ⟨rest, hr⟩ := drop_flatten mixSer s.inter p.2 l.mix e2
  refine ⟨e1, rest, ?_⟩
  rw [h.himg, List.drop_append, List.drop_eq_nil_of_le (by simp), List.nil_append]
  have e : l.mix = mixOf l.steps.zipIdx := rfl
  rw [← e]
  simpa using hr

theorem IchImage.entry {src : List IchLine} {img : List Byte} {idx : List (List Byte × List (List Byte × Nat))} {s : IchSet}
    {tabs : List (List (List Byte × Nat))} (h : IchImage src img idx s tabs) {name : List Byte} {es : List (List Byte × Nat)} (he : (name, es) ∈ idx) :
    ∃ g c, mapFind s.index name = some g ∧ s.condi[g]? = some c ∧
      List.Forall₂ (fun p q => (ichOffsets 6 s.inter)[p.2]?.map (p.1, ·) = some q) c es := by
  obtain ⟨p, hp, e⟩ := forall₂_mem_right h.hidx he
  rw [Option.map_eq_some_iff] at e
  obtain ⟨t, e1, e2⟩ := e
  cases e2
  have I := ich_inv src s h.set
  have hf := (mapFind_mem _ _ _ I.nodup).1 hp
  have hl := I.lt _ _ hf
  obtain ⟨t', h1, h2⟩ := forall₂_getElem? h.htabs (List.getElem?_eq_getElem hl)
  rw [e1] at h1
  cases h1
  exact ⟨p.2, _, hf, List.getElem?_eq_getElem hl, h2⟩

/-- C57.  Every line of a table is in the index under every name of the table, with its condition, and its reference leads to its
alternation table. -/
theorem C57_own {src : List IchLine} {img : List Byte} {idx : List (List Byte × List (List Byte × Nat))} (h : ichCompile src = some (img, idx))
    (hs : ichSpace src < 65530) {name : List Byte} {es : List (List Byte × Nat)} (he : (name, es) ∈ idx) :
    ∀ l ∈ src, Named l.header name → ∃ o, (l.cond, o) ∈ es ∧ StandsAt img o l := by
  obtain ⟨s, tabs, hi⟩ := ichCompile_some h
  obtain ⟨g, c, h1, h2, h3⟩ := hi.entry he
  intro l hl hn
  obtain ⟨p, hp, hent⟩ := (ich_inv src s hi.set).own name g c h1 h2 l hl hn
  obtain ⟨q, hq, hpq⟩ := forall₂_mem_left h3 hp
  obtain ⟨e, st⟩ := hi.stands hs hent hpq
  exact ⟨q.2, by rw [← e]; exact hq, st⟩

/-- C57.  When headers that share a name have the same names, a name's entry is exactly the lines of its table, in order. -/
theorem C57_exact {src : List IchLine} {img : List Byte} {idx : List (List Byte × List (List Byte × Nat))} (h : ichCompile src = some (img, idx))
    (hs : ichSpace src < 65530) (hn : SameNames src) {name : List Byte} {es : List (List Byte × Nat)} (he : (name, es) ∈ idx) :
    List.Forall₂ (fun e l => e.1 = l.cond ∧ StandsAt img e.2 l) es (linesOf src name) := by
  obtain ⟨s, tabs, hi⟩ := ichCompile_some h
  obtain ⟨g, c, h1, h2, h3⟩ := hi.entry he
  have h4 := (ich_inv src s hi.set).all hn name g c h1 h2
  generalize linesOf src name = ls at h4
  clear h2 he
  induction h3 generalizing ls with
  | nil => cases h4; exact .nil
  | cons a _ ih =>
    cases h4 with
    | cons b hb => exact .cons (hi.stands hs b a) (ih _ hb)

/-- C57.  The index has exactly the names of the source, each once. -/
theorem C57_names {src : List IchLine} {img : List Byte} {idx : List (List Byte × List (List Byte × Nat))} (h : ichCompile src = some (img, idx))
    (name : List Byte) : ((∃ es, (name, es) ∈ idx) ↔ ∃ l ∈ src, Named l.header name) ∧ ∀ es es', (name, es) ∈ idx → (name, es') ∈ idx → es = es' := by
  obtain ⟨s, tabs, hi⟩ := ichCompile_some h
  have I := ich_inv src s hi.set
  refine ⟨?_, ?_⟩
  · rw [← I.names name]
    constructor
    · rintro ⟨es, he⟩
      obtain ⟨g, _, h1, _⟩ := hi.entry he
      exact ⟨g, h1⟩
    · rintro ⟨g, hg⟩
      obtain ⟨q, hq, e⟩ := forall₂_mem_left hi.hidx ((mapFind_mem _ _ _ I.nodup).2 hg)
      rw [Option.map_eq_some_iff] at e
      obtain ⟨t, _, e2⟩ := e
      exact ⟨t, by rw [e2]; exact hq⟩
  · intro es es' h1 h2
    obtain ⟨p, hp, e⟩ := forall₂_mem_right hi.hidx h1
    obtain ⟨p', hp', e'⟩ := forall₂_mem_right hi.hidx h2
    rw [Option.map_eq_some_iff] at e e'
    obtain ⟨t, e1, e2⟩ := e
    obtain ⟨t', e1', e2'⟩ := e'
    obtain ⟨k, v⟩ := p
    obtain ⟨k', v'⟩ := p'
    simp only [Prod.mk.injEq] at e2 e2'
    obtain ⟨rfl, rfl⟩ := e2
    obtain ⟨rfl, rfl⟩ := e2'
    have a := (mapFind_mem _ _ _ I.nodup).1 hp
    have b := (mapFind_mem _ _ _ I.nodup).1 hp'
    rw [a] at b
    cases b
    rw [e1] at e1'
    cases e1'
    rfl

theorem conditions_ok : ∀ (ks : List (List Byte)) (s : IchSet) (c : Option Nat), (∀ k ∈ ks, mapFind s.index k = none ∨ mapFind s.index k = c) →
    ∃ s' c', s.conditions c ks = some (s', c')
  | [], s, c, _ => ⟨s, c, rfl⟩
  | k :: ks, s, c, h => by
    simp only [IchSet.conditions]
    have put : ∀ v k', mapFind s.index k = none → mapFind (mapEmplace s.index k v) k' = if k' = k then some v else mapFind s.index k' := by
      intro v k' hk
      rw [mapFind_emplace]
      by_cases e : k' = k
      · subst e; simp [hk]
      · have : ¬ k = k' := fun e' => e e'.symm
        simp [e, this]
    cases hk : mapFind s.index k with
    | none =>
      cases c with
      | none =>
        refine conditions_ok ks _ _ fun k' hk' => ?_
        simp only [put _ _ hk]
        split
        · exact Or.inr rfl
        · rcases h k' (by simp [hk']) with h | h <;> exact Or.inl h
      | some x =>
        refine conditions_ok ks _ _ fun k' hk' => ?_
        simp only [put _ _ hk]
        split
        · exact Or.inr rfl
        · exact h k' (by simp [hk'])
    | some g =>
      cases c with
      | none =>
        rcases h k (by simp) with h1 | h1 <;> rw [hk] at h1 <;> cases h1
      | some x =>
        have e : g = x := by
          rcases h k (by simp) with h1 | h1 <;> rw [hk] at h1 <;> cases h1
          rfl
        subst e
        simp only [ne_eq, not_true_eq_false, if_false]
        exact conditions_ok ks _ _ fun k' hk' => h k' (by simp [hk'])

theorem conditions_ok' (ks : List (List Byte)) (s : IchSet) (hne : ks ≠ []) (c : Option Nat) (h : ∀ k ∈ ks, mapFind s.index k = c)
    (hi : ∀ k g, mapFind s.index k = some g → g < s.condi.length) : ∃ s' x, s.conditions none ks = some (s', some x) := by
  have : ∃ s' c', s.conditions none ks = some (s', c') := by
    cases c with
    | none => exact conditions_ok ks s none fun k hk => Or.inl (h k hk)
    | some g =>
      cases ks with
      | nil => exact (hne rfl).elim
      | cons k ks =>
        simp only [IchSet.conditions, h k (by simp)]
        exact conditions_ok ks s _ fun k' hk' => Or.inr (h k' (by simp [hk']))
  obtain ⟨s', c', e⟩ := this
  obtain ⟨_, _, h3, _⟩ := conditions_spec _ _ _ _ _ e (by simp) hi
  have := h3 hne
  cases c' with
  | none => simp at this
  | some x => exact ⟨s', x, e⟩

/-- C57.  Such a source is compiled, if every header has a name and the conditions are shorter than 16 letters. -/
theorem C57_compiles (src : List IchLine) (hn : SameNames src) (hh : ∀ l ∈ src, ∃ k, Named l.header k) (hc : ∀ l ∈ src, l.cond.length < 16) :
    ∃ img idx, ichCompile src = some (img, idx) := by
  have hset : ∃ s, src.foldlM (fun (s : IchSet) l => s.add l) {} = some s ∧ ∀ c ∈ s.condi, ∀ p ∈ c, p.1.length < 16 := by
    induction src using List.reverseRecOn with
    | nil => exact ⟨{}, rfl, by simp⟩
    | append_singleton src l ih =>
      obtain ⟨s, hs, hcond⟩ := ih (fun a ha b hb => hn a (by simp [ha]) b (by simp [hb])) (fun a ha => hh a (by simp [ha])) (fun a ha => hc a (by simp [ha]))
      have I := ich_inv src s hs
      obtain ⟨k0, hk0⟩ := hh l (by simp)
      have hne : tabNames l.header ≠ [] := by
        intro e
        have := (mem_tabNames _ _).2 hk0
        rw [e] at this; simp at this
      obtain ⟨s1, x, hx⟩ := conditions_ok' (tabNames l.header) s hne (mapFind s.index k0) (by
        intro k hk
        rw [mem_tabNames] at hk
        cases h1 : mapFind s.index k with
        | some g =>
          obtain ⟨l', hl', hn'⟩ := (I.names k).1 ⟨g, h1⟩
          rw [← h1]
          exact I.conv l' hl' k k0 hn' ((hn l (by simp) l' (by simp [hl']) k hk hn' k0).1 hk0)
        | none =>
          cases h2 : mapFind s.index k0 with
          | none => rfl
          | some g =>
            obtain ⟨l', hl', hn'⟩ := (I.names k0).1 ⟨g, h2⟩
            obtain ⟨g', hg'⟩ := (I.names k).2 ⟨l', hl', (hn l (by simp) l' (by simp [hl']) k0 hk0 hn' k).1 hk⟩
            rw [h1] at hg'; cases hg') I.lt
      have hadd : ∃ s', s.add l = some s' := by rw [IchSet.add, hx]; exact ⟨_, rfl⟩
      obtain ⟨s', hs'⟩ := hadd
      refine ⟨s', ?_, ?_⟩
      · rw [List.foldlM_append, hs]
        simp [bind, hs']
      · obtain ⟨s2, c, hc2, _, _, e3⟩ := add_spec s s' l hs'
        have c7 := conditions_none hc2 I.lt
        intro t ht p hp
        obtain ⟨g, hg⟩ := List.getElem?_of_mem ht
        rw [e3, List.getElem?_modify] at hg
        simp only [Option.map_eq_map, Option.map_eq_some_iff] at hg
        obtain ⟨x0, h0, rfl⟩ := hg
        have old : ∀ q ∈ x0, q.1.length < 16 := by
          intro q hq
          have hm := List.mem_of_getElem? h0
          rcases c7 with ⟨c7, _⟩ | ⟨c7, _⟩ <;> rw [c7] at hm
          · exact hcond x0 hm q hq
          · rcases List.mem_append.1 hm with hm | hm
            · exact hcond x0 hm q hq
            · simp only [List.mem_singleton] at hm; subst hm; simp at hq
        split at hp
        · rcases List.mem_append.1 hp with hp | hp
          · exact old p hp
          · simp only [List.mem_singleton] at hp; subst hp; exact hc l (by simp)
        · exact old p hp
  obtain ⟨s, hs, hcond⟩ := hset
  have I := ich_inv src s hs
  have htab : ∃ tabs, (s.condi.mapM fun c => c.mapM fun p => (ichOffsets 6 s.inter)[p.2]?.map (p.1, ·)) = some tabs := by
    refine mapM_isSome _ _ fun c hc => mapM_isSome _ _ fun p hp => ?_
    have := I.refs c hc p hp
    rw [List.getElem?_eq_getElem (by rw [ichOffsets_length]; exact this)]
    exact ⟨_, rfl⟩
  obtain ⟨tabs, htab⟩ := htab
  have hl : tabs.length = s.condi.length := ((mapM_forall₂ _ _ _).1 htab).length_eq.symm
  have hidx : ∃ idx, (s.index.mapM fun p => tabs[p.2]?.map (p.1, ·)) = some idx := by
    refine mapM_isSome _ _ fun p hp => ?_
    have := I.lt p.1 p.2 ((mapFind_mem _ _ _ I.nodup).1 hp)
    rw [List.getElem?_eq_getElem (by rw [hl]; exact this)]
    exact ⟨_, rfl⟩
  obtain ⟨idx, hidx⟩ := hidx
  refine ⟨[105, 110, 116, 101, 114, 99] ++ (s.inter.map mixSer).flatten, idx, ?_⟩
  rw [ichCompile, hs, Option.bind_some, IchSet.store]
  rw [if_neg]
  · simp only [bind, htab, hidx, Option.bind_some, pure]
  · simp only [List.any_eq_true, decide_eq_true_eq, not_exists, not_and]
    intro c hc p hp
    have := hcond c hc p hp
    omega

/-- C57, headers that share some names: the line of the table A becomes a line of the table B as well, ... -/
theorem C57_alias_counterexample : ichCompile [⟨[65], [111], [[97], [98]]⟩, ⟨[65, 44, 66], [111], [[99], [100]]⟩] =
    some ([105, 110, 116, 101, 114, 99, 2, 0x51, 97, 0x21, 98, 2, 0x51, 99, 0x21, 100],
      [([65], [([111], 6), ([111], 11)]), ([66], [([111], 6), ([111], 11)])]) := by decide

/-- ... and with the names in the other order nothing is compiled. -/
theorem C57_order_counterexample : ichCompile [⟨[65], [111], [[97], [98]]⟩, ⟨[66, 44, 65], [111], [[99], [100]]⟩] = none := by decide

/-! ### A case: "м 1*a, мо 1*a" with one line, and another table -/

def ichSample : List IchLine := [⟨[236, 44, 32, 237], [238], [[229, 242], [242]]⟩, ⟨[239], [252], [[252, 237], [229, 237]]⟩, ⟨[239], [238], [[237], [229, 237]]⟩]

example : ichCompile ichSample = some
    ([105, 110, 116, 101, 114, 99, 2, 0x52, 229, 242, 0x21, 242, 2, 0x22, 229, 237, 0x52, 252, 237, 2, 0x22, 229, 237, 0x51, 237],
      [([236], [([238], 6)]), ([237], [([238], 6)]), ([239], [([252], 12), ([238], 19)])]) := by decide

example : SameNames ichSample ∧ ichSpace ichSample < 65530 := by
  refine ⟨?_, by decide⟩
  intro l hl l' hl' n h h' m
  rw [← mem_tabNames] at h h' ⊢
  rw [← mem_tabNames]
  simp only [ichSample, List.mem_cons, List.not_mem_nil, or_false] at hl hl'
  have e1 : tabNames [236, 44, 32, 237] = [[236], [237]] := by decide
  have e2 : tabNames [239] = [[239]] := by decide
  rcases hl with rfl | rfl | rfl <;> rcases hl' with rfl | rfl | rfl <;> simp only [e1, e2, List.mem_cons, List.not_mem_nil, or_false] at h h' ⊢ <;>
    (first | (subst h; simp at h') | (subst h'; simp at h))

end Libmorph
