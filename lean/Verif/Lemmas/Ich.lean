import Verif.Lemmas.TfcImage
import Verif.Spec.Ich
/-
The compiler of alternation tables.
-/
namespace Libmorph
open Spec

/-! ### Conditions -/

/-- What the loop over the names does. -/
theorem conditions_spec : ∀ (ks : List (List Byte)) (s s' : IchSet) (c c' : Option Nat), s.conditions c ks = some (s', c') →
    (∀ x, c = some x → x < s.condi.length) → (∀ k g, mapFind s.index k = some g → g < s.condi.length) →
    s'.inter = s.inter ∧ (∀ x, c = some x → c' = some x) ∧ (ks ≠ [] → c'.isSome) ∧
    (∀ k g, mapFind s.index k = some g → mapFind s'.index k = some g) ∧
    (∀ k, k ∈ ks → mapFind s'.index k = c') ∧ (∀ k, k ∉ ks → mapFind s'.index k = mapFind s.index k) ∧
    ((s'.condi = s.condi ∧ (c = none → ∀ k, ks.head? = some k → mapFind s.index k = c')) ∨
      (c = none ∧ s'.condi = s.condi ++ [[]] ∧ c' = some s.condi.length)) ∧
    (∀ x, c' = some x → x < s'.condi.length) ∧ ((s.index.map (·.1)).Nodup → (s'.index.map (·.1)).Nodup)
  | [], s, s', c, c', h, hc, hi => by
    simp only [IchSet.conditions, Option.some.injEq, Prod.mk.injEq] at h
    obtain ⟨rfl, rfl⟩ := h
    exact ⟨rfl, fun x h => h, by simp, fun _ _ h => h, by simp, by simp, Or.inl ⟨rfl, by simp⟩, hc, fun h => h⟩
  | k :: ks, s, s', c, c', h, hc, hi => by
    simp only [IchSet.conditions] at h
    cases hk : mapFind s.index k with
    | none =>
      rw [hk] at h
      have put : ∀ v k', mapFind (mapEmplace s.index k v) k' = if k' = k then some v else mapFind s.index k' := by
        intro v k'
        rw [mapFind_emplace]
        by_cases e : k' = k
        · subst e; simp [hk]
        · have : ¬ k = k' := fun e' => e e'.symm
          simp [e, this]
      cases c with
      | none =>
        simp only at h
        obtain ⟨i1, i2, i3, i4, i5, i6, i7, i8, i9⟩ := conditions_spec ks _ _ _ _ h
          (by simp) (by
            intro k' g hg
            simp only [put] at hg
            split at hg
            · simp only [Option.some.injEq] at hg; subst hg; simp
            · have := hi k' g hg; simp; omega)
        have e : c' = some s.condi.length := i2 _ rfl
        refine ⟨i1, by simp, fun _ => by simp [e], ?_, ?_, ?_, ?_, i8, fun hn => i9 (mapEmplace_nodup _ _ _ hn)⟩
        · intro k' g hg
          refine i4 k' g ?_
          simp only [put]
          rw [if_neg (by rintro rfl; rw [hk] at hg; cases hg)]
          exact hg
        · intro k' hk'
          rcases List.mem_cons.1 hk' with rfl | hk'
          · rw [e]; exact i4 k' _ (by simp [put])
          · exact i5 k' hk'
        · intro k' hk'
          simp only [List.mem_cons, not_or] at hk'
          rw [i6 k' hk'.2]
          simp only [put]
          rw [if_neg hk'.1]
        · right
          rcases i7 with i7 | ⟨h0, _⟩
          · exact ⟨rfl, i7.1, e⟩
          · simp at h0
      | some x =>
        simp only at h
        obtain ⟨i1, i2, i3, i4, i5, i6, i7, i8, i9⟩ := conditions_spec ks _ _ _ _ h
          (by simpa using hc) (by
            intro k' g hg
            simp only [put] at hg
            split at hg
            · simp only [Option.some.injEq] at hg; subst hg; exact hc _ rfl
            · exact hi k' g hg)
        have e : c' = some x := i2 _ rfl
        refine ⟨i1, i2, fun _ => by simp [e], ?_, ?_, ?_, ?_, i8, fun hn => i9 (mapEmplace_nodup _ _ _ hn)⟩
        · intro k' g hg
          refine i4 k' g ?_
          simp only [put]
          rw [if_neg (by rintro rfl; rw [hk] at hg; cases hg)]
          exact hg
        · intro k' hk'
          rcases List.mem_cons.1 hk' with rfl | hk'
          · rw [e]; exact i4 k' _ (by simp [put])
          · exact i5 k' hk'
        · intro k' hk'
          simp only [List.mem_cons, not_or] at hk'
          rw [i6 k' hk'.2]
          simp only [put]
          rw [if_neg hk'.1]
        · rcases i7 with i7 | ⟨h0, _⟩
          · exact Or.inl ⟨i7.1, by simp⟩
          · simp at h0
    | some g =>
      rw [hk] at h
      cases c with
      | none =>
        simp only at h
        obtain ⟨i1, i2, i3, i4, i5, i6, i7, i8, i9⟩ := conditions_spec ks _ _ _ _ h (by intro x hx; cases hx; exact hi k g hk) hi
        have e : c' = some g := i2 _ rfl
        refine ⟨i1, by simp, fun _ => by simp [e], i4, ?_, fun k' hk' => i6 k' fun hm => hk' (by simp [hm]), ?_, i8, i9⟩
        · intro k' hk'
          rcases List.mem_cons.1 hk' with rfl | hk'
          · rw [e]; exact i4 _ _ hk
          · exact i5 k' hk'
        · rcases i7 with i7 | ⟨h0, _⟩
          · exact Or.inl ⟨i7.1, fun _ k' h' => by simp at h'; subst h'; rw [e]; exact hk⟩
          · simp at h0
      | some x =>
        simp only at h
        split at h
        · simp at h
        rename_i hx
        have hx : x = g := Classical.byContradiction hx
        subst hx
        obtain ⟨i1, i2, i3, i4, i5, i6, i7, i8, i9⟩ := conditions_spec ks _ _ _ _ h hc hi
        have e : c' = some x := i2 _ rfl
        refine ⟨i1, i2, fun _ => by simp [e], i4, ?_, fun k' hk' => i6 k' fun hm => hk' (by simp [hm]), ?_, i8, i9⟩
        · intro k' hk'
          rcases List.mem_cons.1 hk' with rfl | hk'
          · rw [e]; exact i4 _ _ hk
          · exact i5 k' hk'
        · rcases i7 with i7 | ⟨h0, _⟩
          · exact Or.inl ⟨i7.1, by simp⟩
          · simp at h0

theorem conditions_none {ks : List (List Byte)} {s s1 : IchSet} {c : Nat} (h : s.conditions none ks = some (s1, some c))
    (hi : ∀ k g, mapFind s.index k = some g → g < s.condi.length) :
    (s1.condi = s.condi ∧ ∃ k ∈ ks, mapFind s.index k = some c) ∨ (s1.condi = s.condi ++ [[]] ∧ c = s.condi.length ∧ ∀ k ∈ ks, mapFind s.index k = none) := by
  obtain ⟨_, _, _, c4, c5, _, c7, _⟩ := conditions_spec ks _ _ _ _ h (by simp) hi
  rcases c7 with ⟨h1, h2⟩ | ⟨_, h1, h2⟩
  · cases ks with
    | nil => simp [IchSet.conditions] at h
    | cons k ks => exact Or.inl ⟨h1, k, by simp, h2 rfl k rfl⟩
  · right
    simp only [Option.some.injEq] at h2
    refine ⟨h1, h2, fun k hk => ?_⟩
    cases hm : mapFind s.index k with
    | none => rfl
    | some g =>
      have := c4 k g hm
      rw [c5 k hk] at this
      cases this
      have := hi k c hm
      omega

/-! ### Alternations -/

theorem interchange_spec (s : IchSet) (m : List Mix) : (s.interchange m).1.condi = s.condi ∧ (s.interchange m).1.index = s.index ∧
    s.inter <+: (s.interchange m).1.inter ∧ (s.interchange m).1.inter[(s.interchange m).2]? = some m ∧
    ((s.interchange m).1.inter = s.inter ∨ (s.interchange m).1.inter = s.inter ++ [m]) := by
  rw [IchSet.interchange]
  cases h : s.inter.findIdx? (fun x => decide (x = m)) with
  | some n =>
    obtain ⟨h1, h2, _⟩ := List.findIdx?_eq_some_iff_getElem.1 h
    refine ⟨rfl, rfl, List.prefix_rfl, ?_, Or.inl rfl⟩
    simp only
    rw [List.getElem?_eq_getElem h1]
    simpa using h2
  | none => exact ⟨rfl, rfl, by simp, by simp, Or.inr rfl⟩

/-- The line is entered in the set of conditions. -/
def Entered (s : IchSet) (p : List Byte × Nat) (l : IchLine) : Prop := p.1 = l.cond ∧ s.inter[p.2]? = some l.mix

/-- The invariant of the collector. -/
structure IchInv (s : IchSet) (src : List IchLine) : Prop where
  nodup : (s.index.map (·.1)).Nodup
  lt : ∀ k g, mapFind s.index k = some g → g < s.condi.length
  names : ∀ k, (∃ g, mapFind s.index k = some g) ↔ ∃ l ∈ src, Named l.header k
  refs : ∀ c ∈ s.condi, ∀ p ∈ c, p.2 < s.inter.length
  own : ∀ k g c, mapFind s.index k = some g → s.condi[g]? = some c → ∀ l ∈ src, Named l.header k → ∃ p ∈ c, Entered s p l
  all : SameNames src → ∀ k g c, mapFind s.index k = some g → s.condi[g]? = some c → List.Forall₂ (Entered s) c (linesOf src k)
  share : SameNames src → ∀ k k' g, mapFind s.index k = some g → mapFind s.index k' = some g → ∃ l ∈ src, Named l.header k ∧ Named l.header k'
  conv : ∀ l ∈ src, ∀ k k', Named l.header k → Named l.header k' → mapFind s.index k = mapFind s.index k'

theorem linesOf_concat_pos {src : List IchLine} {l : IchLine} {k : List Byte} (h : Named l.header k) : linesOf (src ++ [l]) k = linesOf src k ++ [l] := by
  simp [linesOf, List.filter_append, h]

theorem linesOf_concat_neg {src : List IchLine} {l : IchLine} {k : List Byte} (h : ¬ Named l.header k) : linesOf (src ++ [l]) k = linesOf src k := by
  simp [linesOf, List.filter_append, h]

theorem add_spec (s s' : IchSet) (l : IchLine) (h : s.add l = some s') : ∃ s1 c,
    s.conditions none (tabNames l.header) = some (s1, some c) ∧ s'.index = s1.index ∧ s'.inter = (s1.interchange l.mix).1.inter ∧
    s'.condi = s1.condi.modify c (· ++ [(l.cond, (s1.interchange l.mix).2)]) := by
  rw [IchSet.add] at h
  split at h
  · simp at h
  · simp at h
  · rename_i s1 c hs
    simp only [Option.some.injEq] at h
    subst h
    obtain ⟨h1, h2, _⟩ := interchange_spec s1 l.mix
    exact ⟨s1, c, hs, h2, rfl, by rw [← h1]⟩

theorem ich_inv (src : List IchLine) : ∀ s, src.foldlM (fun (s : IchSet) l => s.add l) {} = some s → IchInv s src := by
  induction src using List.reverseRecOn with
  | nil =>
    intro s h
    simp only [List.foldlM_nil, pure, Option.some.injEq] at h
    subst h
    exact ⟨by simp, by simp [mapFind], by simp [mapFind], by simp, by simp, by simp [mapFind], by simp [mapFind], by simp⟩
  | append_singleton src l ih =>
    intro s' h
    rw [List.foldlM_append] at h
    simp only [bind, Option.bind_eq_some_iff] at h
    obtain ⟨s, hs, h⟩ := h
    simp only [List.foldlM_cons, List.foldlM_nil, bind, pure, Option.bind_fun_some] at h
    have I := ih s hs
    obtain ⟨s1, c, hc, e1, e2, e3⟩ := add_spec s s' l h
    have c7 := conditions_none hc I.lt
    obtain ⟨c1, _, _, c4, c5, c6, _, c8, c9⟩ := conditions_spec _ _ _ _ _ hc (by simp) I.lt
    obtain ⟨_, _, pre, at_, gro⟩ := interchange_spec s1 l.mix
    rw [c1] at pre gro
    generalize hn : (s1.interchange l.mix).2 = n at e3 at_
    have hpre : s.inter <+: s'.inter := by rw [e2]; exact pre
    have hat : s'.inter[n]? = some l.mix := by rw [e2]; exact at_
    have hlen : s'.condi.length = s1.condi.length := by rw [e3]; simp
    have hin : ∀ k, k ∈ tabNames l.header ↔ Named l.header k := fun k => mem_tabNames _ _
    have hclt : c < s1.condi.length := c8 c rfl
    have hgrow : s.condi.length ≤ s1.condi.length := by rcases c7 with ⟨c7, _⟩ | ⟨c7, _⟩ <;> rw [c7] <;> simp
    have hlt : ∀ k g, mapFind s1.index k = some g → g < s1.condi.length := by
      intro k g hg
      by_cases hk : k ∈ tabNames l.header
      · rw [c5 k hk] at hg; cases hg; exact hclt
      · rw [c6 k hk] at hg; have := I.lt k g hg; omega
    have hold : ∀ g : Nat, g < s.condi.length → s1.condi[g]? = s.condi[g]? := by
      intro g hg
      rcases c7 with ⟨c7, _⟩ | ⟨c7, _⟩ <;> rw [c7]
      rw [List.getElem?_append_left hg]
    have hent : ∀ {p l'}, Entered s p l' → Entered s' p l' := by
      rintro p l' ⟨a, b⟩
      obtain ⟨r, hr⟩ := hpre
      refine ⟨a, ?_⟩
      rw [← hr, List.getElem?_append_left (List.getElem?_eq_some_iff.1 b).1]
      exact b
    have hget : ∀ g x, s'.condi[g]? = some x → ∃ x0, s1.condi[g]? = some x0 ∧ x = if c = g then x0 ++ [(l.cond, n)] else x0 := by
      intro g x hx
      rw [e3, List.getElem?_modify] at hx
      simp only [Option.map_eq_map, Option.map_eq_some_iff] at hx
      obtain ⟨x0, h0, rfl⟩ := hx
      exact ⟨x0, h0, rfl⟩
    have hsame : SameNames (src ++ [l]) → SameNames src := fun hS a ha b hb => hS a (by simp [ha]) b (by simp [hb])
    -- a name outside the line does not share the set of the line
    have hother : SameNames (src ++ [l]) → ∀ k, ¬ Named l.header k → mapFind s.index k ≠ some c := by
      intro hS k hk hg
      rcases c7 with ⟨_, k0, hk0, hg0⟩ | ⟨_, e, _⟩
      · obtain ⟨l', hl', a, b⟩ := I.share (hsame hS) k0 k c hg0 hg
        exact hk ((hS l' (by simp [hl']) l (by simp) k0 a ((hin k0).1 hk0) k).1 b)
      · have := I.lt k c hg; omega
    refine ⟨?_, ?_, ?_, ?_, ?_, ?_, ?_, ?_⟩
    · rw [e1]; exact c9 I.nodup
    · intro k g hg
      rw [hlen]; rw [e1] at hg; exact hlt k g hg
    · intro k
      rw [e1]
      by_cases hk : k ∈ tabNames l.header
      · rw [c5 k hk]
        exact ⟨fun _ => ⟨l, by simp, (hin k).1 hk⟩, fun _ => ⟨c, rfl⟩⟩
      · rw [c6 k hk, I.names k]
        constructor
        · rintro ⟨l', h1, h2⟩; exact ⟨l', by simp [h1], h2⟩
        · rintro ⟨l', h1, h2⟩
          rcases List.mem_append.1 h1 with h1 | h1
          · exact ⟨l', h1, h2⟩
          · simp only [List.mem_singleton] at h1; subst h1; exact (hk ((hin k).2 h2)).elim
    · intro x hx p hp
      obtain ⟨g, hg⟩ := List.getElem?_of_mem hx
      obtain ⟨x0, h0, rfl⟩ := hget g x hg
      have hle : s.inter.length ≤ s'.inter.length := hpre.length_le
      have old : ∀ q ∈ x0, q.2 < s'.inter.length := by
        intro q hq
        rcases c7 with ⟨c7, _⟩ | ⟨c7, _⟩
        · rw [c7] at h0
          exact Nat.lt_of_lt_of_le (I.refs x0 (List.mem_of_getElem? h0) q hq) hle
        · rw [c7] at h0
          rcases List.mem_append.1 (List.mem_of_getElem? h0) with h1 | h1
          · exact Nat.lt_of_lt_of_le (I.refs x0 h1 q hq) hle
          · simp only [List.mem_singleton] at h1; subst h1; simp at hq
      split at hp
      · rcases List.mem_append.1 hp with hp | hp
        · exact old p hp
        · simp only [List.mem_singleton] at hp; subst hp
          exact (List.getElem?_eq_some_iff.1 hat).1
      · exact old p hp
    · intro k g x hg hx l' hl' hn'
      rw [e1] at hg
      obtain ⟨x0, h0, rfl⟩ := hget g x hx
      rcases List.mem_append.1 hl' with hl' | hl'
      · obtain ⟨g0, hg0⟩ := (I.names k).2 ⟨l', hl', hn'⟩
        have e : g0 = g := by have := c4 k g0 hg0; rw [hg] at this; cases this; rfl
        subst e
        rw [hold _ (I.lt k _ hg0)] at h0
        obtain ⟨p, hp, he⟩ := I.own k _ x0 hg0 h0 l' hl' hn'
        exact ⟨p, by split <;> simp [hp], hent he⟩
      · simp only [List.mem_singleton] at hl'; subst hl'
        rw [c5 k ((hin k).2 hn')] at hg; cases hg
        exact ⟨(l'.cond, n), by simp, rfl, hat⟩
    · intro hS k g x hg hx
      rw [e1] at hg
      obtain ⟨x0, h0, rfl⟩ := hget g x hx
      by_cases hk : Named l.header k
      · rw [linesOf_concat_pos hk]
        rw [c5 k ((hin k).2 hk)] at hg
        cases hg
        rw [if_pos rfl]
        refine List.rel_append ?_ (List.Forall₂.cons ⟨rfl, hat⟩ List.Forall₂.nil)
        rcases c7 with ⟨c7, k0, hk0, hg0⟩ | ⟨c7, e, hno⟩
        · -- a name of the line is known, then all are
          obtain ⟨l', hl', hn'⟩ := (I.names k0).1 ⟨c, hg0⟩
          have hk' : Named l'.header k := (hS l (by simp) l' (by simp [hl']) k0 ((hin k0).1 hk0) hn' k).1 hk
          have hgk : mapFind s.index k = some c := by rw [← I.conv l' hl' k0 k hn' hk']; exact hg0
          rw [hold _ (I.lt k _ hgk)] at h0
          exact (I.all (hsame hS) k _ x0 hgk h0).imp fun p l' => hent
        · have hl0 : linesOf src k = [] := by
            rw [linesOf, List.filter_eq_nil_iff]
            intro l' hl'
            simp only [decide_eq_true_eq]
            intro hn'
            obtain ⟨g, hg⟩ := (I.names k).2 ⟨l', hl', hn'⟩
            rw [hno k ((hin k).2 hk)] at hg; cases hg
          have hx0 : x0 = [] := by
            subst e
            rw [c7] at h0
            simpa using h0.symm
          rw [hl0, hx0]
          exact .nil
      · rw [linesOf_concat_neg hk]
        rw [c6 k (fun h => hk ((hin k).1 h))] at hg
        have hgl := I.lt k g hg
        rw [hold g hgl] at h0
        have hne : c ≠ g := by rintro rfl; exact hother hS k hk hg
        rw [if_neg hne]
        exact (I.all (hsame hS) k g x0 hg h0).imp fun p l' => hent
    · intro hS k k' g hg hg'
      rw [e1] at hg hg'
      by_cases hk : Named l.header k <;> by_cases hk' : Named l.header k'
      · exact ⟨l, by simp, hk, hk'⟩
      · rw [c5 k ((hin k).2 hk)] at hg
        cases hg
        rw [c6 k' (fun h => hk' ((hin k').1 h))] at hg'
        exact (hother hS k' hk' hg').elim
      · rw [c5 k' ((hin k').2 hk')] at hg'
        cases hg'
        rw [c6 k (fun h => hk ((hin k).1 h))] at hg
        exact (hother hS k hk hg).elim
      · rw [c6 k (fun h => hk ((hin k).1 h))] at hg
        rw [c6 k' (fun h => hk' ((hin k').1 h))] at hg'
        obtain ⟨l', hl', a, b⟩ := I.share (hsame hS) k k' g hg hg'
        exact ⟨l', by simp [hl'], a, b⟩
    · intro l' hl' k k' a b
      rw [e1]
      rcases List.mem_append.1 hl' with hl' | hl'
      · obtain ⟨g, hg⟩ := (I.names k).2 ⟨l', hl', a⟩
        have hg' : mapFind s.index k' = some g := by rw [← I.conv l' hl' k k' a b]; exact hg
        rw [c4 k g hg, c4 k' g hg']
      · simp only [List.mem_singleton] at hl'; subst hl'
        rw [c5 k ((hin k).2 a), c5 k' ((hin k').2 b)]

end Libmorph
