import Verif.Lemmas.Holes
namespace Libmorph

theorem nextHoleFrom_spec : ∀ (l : List Nat) (k : Nat),
    (nextHoleFrom l k = noLexId ∧ ∀ (j v : Nat), l[j]? = some v → ∀ t, t < 32 → v.testBit t = true) ∨
    ∃ j v s : Nat, l[j]? = some v ∧ s < 32 ∧ v.testBit s = false ∧ (∀ t, t < s → v.testBit t = true) ∧
      (∀ (i w : Nat), i < j → l[i]? = some w → ∀ t, t < 32 → w.testBit t = true) ∧
      nextHoleFrom l k = (s + (k + j) * 32) % 2 ^ 32 := by
  intro l
  induction l with
  | nil => intro k; left; exact ⟨rfl, by simp⟩
  | cons v l ih =>
    intro k
    have step : (∀ t, t < 32 → v.testBit t = true) → nextHoleFrom (v :: l) k = nextHoleFrom l (k + 1) →
      (nextHoleFrom (v :: l) k = noLexId ∧ ∀ (j w : Nat), (v :: l)[j]? = some w → ∀ t, t < 32 → w.testBit t = true) ∨
      ∃ j w s : Nat, (v :: l)[j]? = some w ∧ s < 32 ∧ w.testBit s = false ∧ (∀ t, t < s → w.testBit t = true) ∧
        (∀ (i w : Nat), i < j → (v :: l)[i]? = some w → ∀ t, t < 32 → w.testBit t = true) ∧
        nextHoleFrom (v :: l) k = (s + (k + j) * 32) % 2 ^ 32 := by
      intro hv he
      rw [he]
      rcases ih (k + 1) with ⟨h1, h2⟩ | ⟨j, w, s, h1, h2, h3, h4, h5, h6⟩
      · left
        refine ⟨h1, ?_⟩
        intro j w hj t ht
        cases j with
        | zero => simp only [List.getElem?_cons_zero, Option.some.injEq] at hj; exact hj ▸ hv t ht
        | succ j => exact h2 j w (by simpa using hj) t ht
      · right
        refine ⟨j + 1, w, s, by simpa using h1, h2, h3, h4, ?_, ?_⟩
        · intro i w' hi hw' t ht
          cases i with
          | zero => simp only [List.getElem?_cons_zero, Option.some.injEq] at hw'; exact hw' ▸ hv t ht
          | succ i => exact h5 i w' (by omega) (by simpa using hw') t ht
        · rw [h6, show k + 1 + j = k + (j + 1) by omega]
    by_cases hv : v = noLexId
    · apply step
      · intro t ht
        rw [hv, show noLexId = 2 ^ 32 - 1 by decide, Nat.testBit_two_pow_sub_one]
        simpa using ht
      · rw [nextHoleFrom]; simp [hv]
    · cases hz : zeroBit v 0 with
      | none =>
        apply step
        · intro t ht; exact zeroBit_none hz t (Nat.zero_le _) ht
        · rw [nextHoleFrom]; simp [hv, hz]
      | some s =>
        obtain ⟨_, h2, h3, h4⟩ := zeroBit_some hz
        right
        refine ⟨0, v, s, rfl, h2, h3, fun t ht => h4 t (Nat.zero_le _) ht, by omega, ?_⟩
        rw [nextHoleFrom]; simp [hv, hz]

/-- The first unused number from `lex` on, below the end of the map. -/
theorem getNextHole_spec {map : List Nat} {lex : Nat} (hl : lex / 32 < map.length) (hc : map.length ≤ 2 ^ 27) :
    ∃ r, getNextHole map lex = some r ∧
      ((r = noLexId ∧ ∀ n, lex ≤ n → n < 32 * map.length → bitAt map n = true) ∨
       (lex ≤ r ∧ r < 32 * map.length ∧ bitAt map r = false ∧ ∀ n, lex ≤ n → n < r → bitAt map n = true)) := by
  have hg : map[lex / 32]? = some map[lex / 32] := List.getElem?_eq_getElem hl
  rw [getNextHole]
  simp only [hg]
  cases hz : zeroBit map[lex / 32] (lex % 32) with
  | some s =>
    obtain ⟨h1, h2, h3, h4⟩ := zeroBit_some hz
    refine ⟨_, rfl, Or.inr ?_⟩
    have e : (s + lex / 32 * 32) % 2 ^ 32 = lex / 32 * 32 + s := by omega
    rw [e]
    refine ⟨by omega, by omega, by rw [bitAt_mk hg h2]; exact h3, ?_⟩
    intro n g1 g2
    rw [show n = lex / 32 * 32 + (n - lex / 32 * 32) by omega, bitAt_mk hg (by omega)]
    exact h4 _ (by omega) (by omega)
  | none =>
    have h0 := zeroBit_none hz
    have first : ∀ n, lex ≤ n → n < (lex / 32 + 1) * 32 → bitAt map n = true := by
      intro n g1 g2
      rw [show n = lex / 32 * 32 + (n - lex / 32 * 32) by omega, bitAt_mk hg (by omega)]
      exact h0 _ (by omega) (by omega)
    have hd : ∀ j, (map.drop (lex / 32 + 1))[j]? = map[lex / 32 + 1 + j]? := fun j => List.getElem?_drop
    refine ⟨_, rfl, ?_⟩
    rcases nextHoleFrom_spec (map.drop (lex / 32 + 1)) (lex / 32 + 1) with ⟨h1, h2⟩ | ⟨j, v, s, h1, h2, h3, h4, h5, h6⟩
    · left
      refine ⟨h1, ?_⟩
      intro n g1 g2
      by_cases hn : n < (lex / 32 + 1) * 32
      · exact first n g1 hn
      · have hlt : n / 32 < map.length := by omega
        have e := h2 (n / 32 - (lex / 32 + 1)) map[n / 32]
          (by rw [hd, show lex / 32 + 1 + (n / 32 - (lex / 32 + 1)) = n / 32 by omega]; exact List.getElem?_eq_getElem hlt)
          (n % 32) (by omega)
        rw [show n = n / 32 * 32 + n % 32 by omega, bitAt_mk (List.getElem?_eq_getElem hlt) (by omega)]
        exact e
    · right
      rw [hd] at h1
      have hlt : lex / 32 + 1 + j < map.length := by
        rcases Nat.lt_or_ge (lex / 32 + 1 + j) map.length with h | h
        · exact h
        · rw [List.getElem?_eq_none h] at h1; exact absurd h1 (by simp)
      have e : nextHoleFrom (map.drop (lex / 32 + 1)) (lex / 32 + 1) = (lex / 32 + 1 + j) * 32 + s := by
        rw [h6]; omega
      rw [e]
      refine ⟨by omega, by omega, by rw [bitAt_mk h1 h2]; exact h3, ?_⟩
      intro n g1 g2
      by_cases hn : n < (lex / 32 + 1) * 32
      · exact first n g1 hn
      · by_cases hj : n / 32 = lex / 32 + 1 + j
        · rw [show n = (lex / 32 + 1 + j) * 32 + (n - (lex / 32 + 1 + j) * 32) by omega, bitAt_mk h1 (by omega)]
          exact h4 _ (by omega)
        · have hlt' : n / 32 < map.length := by omega
          have e := h5 (n / 32 - (lex / 32 + 1)) map[n / 32] (by omega)
            (by rw [hd, show lex / 32 + 1 + (n / 32 - (lex / 32 + 1)) = n / 32 by omega]
                exact List.getElem?_eq_getElem hlt')
            (n % 32) (by omega)
          rw [show n = n / 32 * 32 + n % 32 by omega, bitAt_mk (List.getElem?_eq_getElem hlt') (by omega)]
          exact e

theorem holeEnd_fuel (map : List Nat) (maxlex : Nat) : ∀ (fuel h : Nat), maxlex - h ≤ fuel →
    h ≤ holeEnd map maxlex fuel h ∧ (h ≤ maxlex → holeEnd map maxlex fuel h ≤ maxlex) ∧
    (maxlex ≤ holeEnd map maxlex fuel h ∨ bitAt map (holeEnd map maxlex fuel h) = true) ∧
    (maxlex ≤ h → holeEnd map maxlex fuel h = h) ∧
    ∀ n, h ≤ n → n < holeEnd map maxlex fuel h → bitAt map n = false := by
  intro fuel
  induction fuel with
  | zero =>
    intro h hf
    rw [holeEnd]
    exact ⟨Nat.le_refl _, id, Or.inl (by omega), fun _ => rfl, by intro n h1 h2; omega⟩
  | succ fuel ih =>
    intro h hf
    rw [holeEnd]
    by_cases hc : h < maxlex ∧ testIfLexId map h = false
    · rw [if_pos hc]
      obtain ⟨h1, h2, h3, _, h5⟩ := ih (h + 1) (by omega)
      refine ⟨by omega, fun _ => h2 (by omega), h3, by omega, ?_⟩
      intro n g1 g2
      by_cases e : n = h
      · rw [e, ← testIfLexId_eq]; exact hc.2
      · exact h5 n (by omega) g2
    · rw [if_neg hc]
      refine ⟨Nat.le_refl _, id, ?_, fun _ => rfl, by intro n h1 h2; omega⟩
      rw [testIfLexId_eq] at hc
      by_cases hm : maxlex ≤ h
      · exact Or.inl hm
      · right
        cases hb : bitAt map h with
        | true => rfl
        | false => exact absurd ⟨by omega, hb⟩ hc

/-- The hole printed after the largest number. -/
def extraHole (ids : List Nat) (least largest : Nat) : List (Nat × Nat) :=
  if least < largest ∧ largest - 1 ∈ ids ∧ largest % 32 ≠ 31 ∧ largest + 1 ≠ noLexId then [(largest + 1, largest + 1)] else []

theorem printHoles_spec {map ids : List Nat} (hm : MapOf map ids) {M : Nat} (hM : Spec.IsLargest ids M)
    (hlt : M < noLexId) : ∀ (fuel minlex : Nat), M - minlex ≤ fuel → (minlex < M → minlex ∈ ids) →
    ∃ hs, printHoles map M fuel minlex = some (hs ++ extraHole ids minlex M) ∧ Spec.HolesBetween ids minlex M hs := by
  have hlen := hm.length hM
  have hno : noLexId = 4294967295 := rfl
  have hcap : map.length ≤ 2 ^ 27 := by omega
  have hnil : ∀ m, M ≤ m → Spec.HolesBetween ids m M [] := fun m hm' =>
    ⟨by simp, List.Pairwise.nil, by intro n h1 h2; omega⟩
  have hexNil : ∀ m, M ≤ m → extraHole ids m M = [] := by
    intro m hm'; rw [extraHole, if_neg]; omega
  have used : ∀ n, bitAt map n = true ↔ n ∈ ids := hm.bits
  have unused : ∀ n, bitAt map n = false ↔ n ∉ ids := by
    intro n; rw [← used n]; cases bitAt map n <;> simp
  intro fuel
  induction fuel with
  | zero =>
    intro m hf _
    exact ⟨[], by rw [printHoles, hexNil m (by omega)]; rfl, hnil m (by omega)⟩
  | succ fuel ih =>
    intro m hf hu
    by_cases hmM : m < M
    swap
    · refine ⟨[], ?_, hnil m (by omega)⟩
      rw [printHoles, if_neg hmM, hexNil m (by omega)]; rfl
    rw [printHoles, if_pos hmM]
    obtain ⟨r, hr, hcase⟩ := getNextHole_spec (map := map) (lex := m + 1) (by omega) hcap
    rw [hr]
    have hMnext : M + 1 ∉ ids := fun h => by have := hM.2 _ h; omega
    -- all numbers from m to M are used
    have noHoles : (∀ n, m + 1 ≤ n → n ≤ M → n ∈ ids) → Spec.HolesBetween ids m M [] ∧ M - 1 ∈ ids := by
      intro hall
      refine ⟨⟨by simp, List.Pairwise.nil, ?_⟩, ?_⟩
      · intro n h1 h2
        have := hall n (by omega) (by omega)
        simp [this]
      · by_cases e : m = M - 1
        · exact e ▸ hu hmM
        · exact hall _ (by omega) (by omega)
    rcases hcase with ⟨h1, h2⟩ | ⟨h1, h2, h3, h4⟩
    · obtain ⟨hb, _⟩ := noHoles fun n g1 g2 => (used n).1 (h2 n g1 (by omega))
      refine ⟨[], ?_, hb⟩
      rw [extraHole, if_neg]
      · simp [h1]
      · rintro ⟨_, _, h5, _⟩
        apply hMnext
        exact (used _).1 (h2 (M + 1) (by omega) (by omega))
    · have hrM : r ≠ M := fun e => by
        have := (unused r).1 h3
        exact this (e ▸ hM.1)
      by_cases hrlt : r < M
      swap
      · obtain ⟨hb, hM1⟩ := noHoles fun n g1 g2 => (used n).1 (h4 n g1 (by omega))
        have hr1 : r = M + 1 := by
          by_contra hc
          exact hMnext ((used _).1 (h4 (M + 1) (by omega) (by omega)))
        refine ⟨[], ?_, hb⟩
        by_cases hn : r = noLexId
        · rw [extraHole, if_neg]
          · simp [hn]
          · rintro ⟨_, _, _, h5⟩; omega
        · rw [extraHole, if_pos ⟨hmM, hM1, by omega, by omega⟩]
          have he : holeEnd map M M (r + 1) = r + 1 := (holeEnd_fuel map M M (r + 1) (by omega)).2.2.2.1 (by omega)
          have hp : printHoles map M fuel (r + 1) = some [] := by
            cases fuel with
            | zero => rfl
            | succ f => rw [printHoles, if_neg (by omega)]
          simp only [hn, if_false, he, hp, Option.map_some]
          rw [show r + 1 - 1 = M + 1 by omega, hr1]
          rfl
      · have hn : r ≠ noLexId := by omega
        obtain ⟨e1, e2, e3, _, e5⟩ := holeEnd_fuel map M M (r + 1) (by omega)
        generalize hE : holeEnd map M M (r + 1) = e at *
        have e2 := e2 (by omega)
        have hue : e ∈ ids := by
          rcases e3 with h | h
          · have : e = M := by omega
            exact this ▸ hM.1
          · exact (used _).1 h
        obtain ⟨hs, p1, p2⟩ := ih e (by omega) (fun _ => hue)
        refine ⟨(r, e - 1) :: hs, ?_, ?_⟩
        · simp only [hn, if_false, hE, p1, Option.map_some, List.cons_append, Option.some.injEq, List.cons.injEq, true_and]
          congr 1
          rw [extraHole, extraHole]
          by_cases he : e < M
          · simp only [he, hmM, true_and]
          · have : e = M := by omega
            have hx : M - 1 ∉ ids := by
              by_cases g : r = M - 1
              · exact g ▸ (unused r).1 h3
              · exact (unused _).1 (e5 (M - 1) (by omega) (by omega))
            rw [if_neg (by omega), if_neg (fun h => hx h.2.1)]
        · refine ⟨?_, ?_, ?_⟩
          · intro h hh
            rcases List.mem_cons.1 hh with rfl | hh
            · exact ⟨by show m < r; omega, by show r ≤ e - 1; omega, by show e - 1 < M; omega⟩
            · have := p2.inside h hh
              exact ⟨by omega, this.2⟩
          · refine List.pairwise_cons.2 ⟨?_, p2.apart⟩
            intro b hb
            have := p2.inside b hb
            exact ⟨e, hue, by show e - 1 < e; omega, this.1⟩
          · intro n g1 g2
            by_cases hr' : n < r
            · have : n ∈ ids := (used n).1 (h4 n (by omega) hr')
              constructor
              · intro h; exact absurd this h
              · rintro ⟨h, hh, q1, q2⟩
                rcases List.mem_cons.1 hh with rfl | hh
                · exact absurd q1 (by show ¬ r ≤ n; omega)
                · have := p2.inside h hh; omega
            · by_cases he' : n < e
              · have : n ∉ ids := by
                  by_cases g : n = r
                  · exact g ▸ (unused r).1 h3
                  · exact (unused n).1 (e5 n (by omega) he')
                constructor
                · intro _; exact ⟨(r, e - 1), by simp, by show r ≤ n; omega, by show n ≤ e - 1; omega⟩
                · intro _; exact this
              · by_cases hne : n = e
                · constructor
                  · intro h; exact absurd (hne ▸ hue) h
                  · rintro ⟨h, hh, q1, q2⟩
                    rcases List.mem_cons.1 hh with rfl | hh
                    · have : n ≤ e - 1 := q2
                      omega
                    · have := p2.inside h hh; omega
                · rw [p2.exact n (by omega) g2]
                  constructor
                  · rintro ⟨h, hh, q⟩; exact ⟨h, List.mem_cons_of_mem _ hh, q⟩
                  · rintro ⟨h, hh, q1, q2⟩
                    rcases List.mem_cons.1 hh with rfl | hh
                    · have : n ≤ e - 1 := q2
                      omega
                    · exact ⟨h, hh, q1, q2⟩

/-- The numbers of the lines that have one. -/
theorem getLexemeMap_spec : ∀ (ls : List (List Byte)) (lids : List Nat), ls.mapM getStringLid = some lids →
    ∀ (map seen ids rep : List Nat), MapOf map ids → (∀ n, n ∈ seen ↔ n ∈ ids) → ∃ map' ids',
      getLexemeMap ls (map, rep) = some (map', rep ++ Spec.repeats seen (lids.filter (· ≠ 0))) ∧
      MapOf map' ids' ∧ ∀ n, n ∈ ids' ↔ n ∈ ids ∨ n ∈ lids.filter (· ≠ 0) := by
  intro ls
  induction ls with
  | nil =>
    intro lids h map seen ids rep hm hs
    simp at h
    subst h
    exact ⟨map, ids, by simp [getLexemeMap, Spec.repeats], hm, by simp⟩
  | cons l ls ih =>
    intro lids h map seen ids rep hm hs
    rw [List.mapM_cons] at h
    cases hl : getStringLid l with
    | none => rw [hl] at h; simp at h
    | some lid =>
      cases hrest : ls.mapM getStringLid with
      | none => rw [hl, hrest] at h; simp at h
      | some lids' =>
        rw [hl, hrest] at h
        simp at h
        subst h
        cases lid with
        | zero =>
          obtain ⟨map', ids', h1, h2, h3⟩ := ih lids' hrest map seen ids rep hm hs
          refine ⟨map', ids', ?_, h2, ?_⟩
          · rw [getLexemeMap, hl]; simpa using h1
          · intro n; simpa using h3 n
        | succ k =>
          rw [getLexemeMap, hl]
          have hb := insertLexId_bit hm (k + 1)
          have hm' := insertLexId_map hm (k + 1)
          rw [List.filter_cons_of_pos (by simp)]
          by_cases hin : k + 1 ∈ ids
          · have hss : ∀ n, n ∈ seen ↔ n ∈ (k + 1) :: ids := by
              intro n; rw [hs, List.mem_cons]
              constructor
              · exact Or.inr
              · rintro (h | h)
                · exact h ▸ hin
                · exact h
            obtain ⟨map', ids', h1, h2, h3⟩ := ih lids' hrest _ seen _ (rep ++ [k + 1]) hm' hss
            refine ⟨map', ids', ?_, h2, ?_⟩
            · rw [Spec.repeats, if_pos ((hs _).2 hin)]
              simp only [hb, hin, decide_true, if_true, h1, List.append_assoc, List.singleton_append]
            · intro n; rw [h3 n, List.mem_cons, List.mem_cons]
              constructor
              · rintro ((h | h) | h)
                · exact Or.inr (Or.inl h)
                · exact Or.inl h
                · exact Or.inr (Or.inr h)
              · rintro (h | (h | h))
                · exact Or.inl (Or.inr h)
                · exact Or.inl (Or.inl h)
                · exact Or.inr h
          · have hss : ∀ n, n ∈ (k + 1) :: seen ↔ n ∈ (k + 1) :: ids := by
              intro n; rw [List.mem_cons, List.mem_cons, hs]
            obtain ⟨map', ids', h1, h2, h3⟩ := ih lids' hrest _ ((k + 1) :: seen) _ rep hm' hss
            refine ⟨map', ids', ?_, h2, ?_⟩
            · rw [Spec.repeats, if_neg (fun h => hin ((hs _).1 h))]
              simp only [hb, hin, decide_false, Bool.false_eq_true, if_false]
              exact h1
            · intro n; rw [h3 n, List.mem_cons, List.mem_cons]
              constructor
              · rintro ((h | h) | h)
                · exact Or.inr (Or.inl h)
                · exact Or.inl h
                · exact Or.inr (Or.inr h)
              · rintro (h | (h | h))
                · exact Or.inl (Or.inr h)
                · exact Or.inl (Or.inl h)
                · exact Or.inr h

end Libmorph
