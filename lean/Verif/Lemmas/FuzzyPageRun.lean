import Verif.Lemmas.FuzzyPage
/-
The run over the visits with two buffers.
-/
namespace Libmorph

variable {P : Page} {enc : Byte → List Byte} {known : Byte → Prop} {ω : Type}

/-- The record of a guess while the scan goes on: the place of the lemma. -/
def placeRec (conv : List Byte → List Byte) (ts : List (List Byte)) (x : FuzzyStem ω) : FuzzyStem ω :=
  { x with plemma := x.plemma.map fun i => (packed ((ts.take i).map conv)).length }

/-- What is known of the guesses found so far. -/
def GuessInv (T : CharTab) (word : List Byte) (ts : List (List Byte)) (zs : List (FuzzyStem ω)) : Prop :=
  zs.length = ts.length ∧ ∀ (i : Nat) (x : FuzzyStem ω), zs[i]? = some x → x.plemma = some i ∧ x.ccstem ≤ word.length ∧
    ∀ t : List Byte, ts[i]? = some t → Cased T (t.take x.ccstem) (word.take x.ccstem)

inductive FuzzyRel (T : CharTab) (word : List Byte) (conv : List Byte → List Byte) (K : Coder → List Byte → Prop) (ts : List (List Byte)) :
    FuzzyState ω → FuzzyState ω → Prop
  | mk (zs : List (FuzzyStem ω)) (c : Coder) (g : Option (List Gram)) (gc : Nat) (forms : K c (packed (ts.map conv))) (inv : GuessInv T word ts zs) :
      FuzzyRel T word conv K ts ⟨zs, ⟨some (coded ts), ts.length⟩, g, gc⟩ ⟨zs.map (placeRec conv ts), c, g, gc⟩

/-- The outcome of a step of the list buffer and of the same step of another. -/
def FuzzyStepRel (T : CharTab) (word : List Byte) (conv : List Byte → List Byte) (K : Coder → List Byte → Prop) (lim : Nat)
    (o o' : Option (Option Int × FuzzyState ω)) : Prop :=
  (o = none ∧ o' = none) ∨
  (∃ a s ts, o = some (none, a) ∧ o' = some (none, s) ∧ FuzzyRel T word conv K ts a s) ∨
  (∃ e a s, e < 0 ∧ o = some (some e, a) ∧ o' = some (some e, s)) ∨
  (∃ s, o' = some (some LEMMBUFF_FAILED, s) ∧
    ∃ r a ts, o = some (r, a) ∧ a.forms = ⟨some (coded ts), ts.length⟩ ∧ lim ≤ (packed (ts.map conv)).length)

/-- The outcome of a run of the list buffer and of the same run of another; `mid` are the texts the list buffer may hold on the way. -/
def FuzzyRunRel (T : CharTab) (word : List Byte) (conv : List Byte → List Byte) (K : Coder → List Byte → Prop) (lim : Nat)
    (mid : List (List Byte) → Prop) (o o' : Option (Option Int × FuzzyState ω)) : Prop :=
  (o = none ∧ o' = none) ∨
  (∃ a s ts, o = some (none, a) ∧ o' = some (none, s) ∧ FuzzyRel T word conv K ts a s) ∨
  (∃ e a s, e < 0 ∧ o = some (some e, a) ∧ o' = some (some e, s)) ∨
  (∃ s, o' = some (some LEMMBUFF_FAILED, s) ∧
    (∀ a, o = some (none, a) → ∃ ts, a.forms = ⟨some (coded ts), ts.length⟩ ∧ lim ≤ (packed (ts.map conv)).length) ∧
    ∃ ts, mid ts ∧ lim ≤ (packed (ts.map conv)).length)

theorem closeLast_map (conv : List Byte → List Byte) (ts : List (List Byte)) (gc : Nat) (zs : List (FuzzyStem ω)) :
    closeLast gc (zs.map (placeRec conv ts)) = (closeLast gc zs).map (placeRec conv ts) := by
  induction zs with
  | nil => rfl
  | cons x zs ih =>
    cases zs with
    | nil => rfl
    | cons y zs =>
      simp only [List.map_cons, closeLast] at ih ⊢
      rw [ih]

theorem closeLast_get (gc : Nat) (zs : List (FuzzyStem ω)) (i : Nat) (x : FuzzyStem ω) (h : (closeLast gc zs)[i]? = some x) :
    ∃ y, zs[i]? = some y ∧ x.plemma = y.plemma ∧ x.ccstem = y.ccstem := by
  induction zs generalizing i with
  | nil => simp [closeLast] at h
  | cons a zs ih =>
    cases zs with
    | nil =>
      cases i with
      | zero => simp only [closeLast, List.getElem?_cons_zero, Option.some.injEq] at h; subst h; exact ⟨a, rfl, rfl, rfl⟩
      | succ i => simp [closeLast] at h
    | cons b zs =>
      cases i with
      | zero => simp only [closeLast, List.getElem?_cons_zero, Option.some.injEq] at h; subst h; exact ⟨a, rfl, rfl, rfl⟩
      | succ i =>
        simp only [closeLast, List.getElem?_cons_succ] at h
        exact ih i h

theorem closeLast_len (gc : Nat) (zs : List (FuzzyStem ω)) : (closeLast gc zs).length = zs.length := by
  induction zs with
  | nil => rfl
  | cons a zs ih =>
    cases zs with
    | nil => rfl
    | cons b zs => simp only [closeLast, List.length_cons] at ih ⊢; rw [ih]

theorem GuessInv.close {T : CharTab} {word : List Byte} {ts : List (List Byte)} {zs : List (FuzzyStem ω)} (h : GuessInv T word ts zs) (gc : Nat) :
    GuessInv T word ts (closeLast gc zs) := by
  refine ⟨by rw [closeLast_len, h.1], fun i x hx => ?_⟩
  obtain ⟨y, hy, e1, e2⟩ := closeLast_get gc zs i x hx
  rw [e1, e2]
  exact h.2 i y hy

/-- Places do not change when a lemma is added. -/
theorem placeRec_snoc {T : CharTab} {word : List Byte} (conv : List Byte → List Byte) {ts : List (List Byte)} {zs : List (FuzzyStem ω)}
    (h : GuessInv T word ts zs) (t : List Byte) : zs.map (placeRec conv ts) = zs.map (placeRec conv (ts ++ [t])) := by
  refine List.map_congr_left fun x hx => ?_
  obtain ⟨i, hi⟩ := List.mem_iff_getElem?.1 hx
  have h1 := (h.2 i x hi).1
  have hlt : i < ts.length := by
    rw [← h.1]
    exact (List.getElem?_eq_some_iff.1 hi).1
  simp only [placeRec, h1, Option.map_some]
  rw [List.take_append_of_le_length (by omega)]

theorem getLast_place (conv : List Byte → List Byte) (ts : List (List Byte)) (zs : List (FuzzyStem ω)) (n m : Nat) :
    ((zs.map (placeRec conv ts)).getLast?.any fun x => x.nclass == n && x.ccstem == m) = zs.getLast?.any fun x => x.nclass == n && x.ccstem == m := by
  rw [List.getLast?_map]
  cases zs.getLast? <;> rfl

theorem fuzzyOpen_rel {app : App} {conv : List Byte → List Byte} {K : Coder → List Byte → Prop} {lim : Nat} (hA : AppOk app conv K lim)
    {L : FuzzyLang} {word : List Byte} {ts : List (List Byte)} {a s : FuzzyState ω} (h : FuzzyRel L.tab word conv K ts a s)
    (rank : FuzzyRank ω) (junk : List Byte) (clemma : Nat) (ref : FuzzyRef) (partsp sets : Nat) (pclass : List Byte) :
    FuzzyStepRel L.tab word conv K lim (fuzzyOpenWith listApp L rank junk word clemma ref partsp sets pclass a)
      (fuzzyOpenWith app L rank junk word clemma ref partsp sets pclass s) := by
  obtain ⟨zs, c, g, gc, hf, hi⟩ := h
  obtain ⟨hp, hb⟩ := hA.pos _ _ hf
  simp only [fuzzyOpenWith, getLast_place, List.length_map, Option.isSome_some, hb, if_true]
  split
  · exact .inr (.inl ⟨_, _, ts, rfl, rfl, .mk zs c g gc hf hi⟩)
  · rcases rank.run (word.length - clemma - 1) ref.power partsp ref.form sets with _ | w
    · exact .inl ⟨rfl, rfl⟩
    · simp only
      split
      · exact .inr (.inr (.inl ⟨_, _, _, by decide, rfl, rfl⟩))
      · rcases getbyte (pclass.drop 1) with _ | ⟨cc, p⟩
        · exact .inl ⟨rfl, rfl⟩
        · simp only
          split
          · exact .inr (.inr (.inl ⟨_, _, _, by decide, rfl, rfl⟩))
          · rcases strncpyOf p cc with _ | flex
            · exact .inl ⟨rfl, rfl⟩
            · simp only
              split
              · exact .inl ⟨rfl, rfl⟩
              · rename_i hw
                rcases hform : fuzzyForm L junk (word.take (clemma + 2)) flex partsp with _ | ⟨t, j⟩
                · exact .inl ⟨rfl, rfl⟩
                · have hc := fuzzyForm_cased hform
                  have hcas : Cased L.tab (t.take (clemma + 2)) (word.take (clemma + 2)) := by
                    have := List.forall₂_take (clemma + 2) hc
                    rwa [List.take_left' (by rw [List.length_take]; omega)] at this
                  have hl : listApp ⟨some (coded ts), ts.length⟩ t = some (true, ⟨some (coded (ts ++ [t])), (ts ++ [t]).length⟩) := by
                    simp [listApp, coded_snoc]
                  simp only [hl, if_true]
                  rcases hA.put c _ t hf with ⟨c', k1, k2⟩ | ⟨c', k1, k2⟩
                  · refine .inr (.inl ⟨_, ⟨(closeLast gc zs ++ [(⟨some ts.length, clemma + 2, ref.cls, g.map fun _ => gc, 0, w⟩ : FuzzyStem ω)]).map
                      (placeRec conv (ts ++ [t])), c', g, gc⟩, ts ++ [t], rfl, ?_, ?_⟩)
                    · rw [k1]
                      simp only [if_true, closeLast_map, placeRec_snoc conv (hi.close gc) t, List.map_append, List.map_cons, List.map_nil,
                        Option.some.injEq, Prod.mk.injEq, true_and, FuzzyState.mk.injEq, and_true]
                      congr 2
                      obtain ⟨b, hb'⟩ := Option.isSome_iff_exists.1 hb
                      simp only [placeRec, Option.map_some, hb', hp]
                      congr 3
                      rw [List.take_left' rfl]
                    · refine .mk _ c' g gc (by rwa [packed_map_snoc]) ⟨by simp [closeLast_len, hi.1], fun i x hx => ?_⟩
                      have hcl := hi.close gc
                      by_cases hlt : i < ts.length
                      · rw [List.getElem?_append_left (by rw [closeLast_len, hi.1]; exact hlt)] at hx
                        obtain ⟨q1, q2, q3⟩ := hcl.2 i x hx
                        refine ⟨q1, q2, fun u hu => q3 u ?_⟩
                        rwa [List.getElem?_append_left hlt] at hu
                      · rw [List.getElem?_append_right (by rw [closeLast_len, hi.1]; omega), closeLast_len, hi.1] at hx
                        have : i - ts.length = 0 := by
                          rcases Nat.eq_zero_or_pos (i - ts.length) with h0 | h0
                          · exact h0
                          · rw [List.getElem?_eq_none (by simp only [List.length_cons, List.length_nil]; omega)] at hx; cases hx
                        rw [this] at hx
                        simp only [List.getElem?_cons_zero, Option.some.injEq] at hx
                        subst hx
                        have hie : i = ts.length := by omega
                        subst hie
                        refine ⟨rfl, by simp only; omega, fun u hu => ?_⟩
                        simp at hu
                        subst hu
                        exact hcas
                  · rw [k1]
                    refine .inr (.inr (.inr ⟨_, by simp only [Bool.false_eq_true, if_false]; rfl, _, _, ts ++ [t], rfl, rfl, ?_⟩))
                    rwa [packed_map_snoc]

theorem fuzzyGram_rel {conv : List Byte → List Byte} {K : Coder → List Byte → Prop} {T : CharTab} {word : List Byte} {ts : List (List Byte)}
    {a s : FuzzyState ω} (h : FuzzyRel T word conv K ts a s) (lim partsp : Nat) (ref : FuzzyRef) :
    FuzzyStepRel T word conv K lim (some (fuzzyGram partsp ref a)) (some (fuzzyGram partsp ref s)) := by
  obtain ⟨zs, c, g, gc, hf, hi⟩ := h
  simp only [fuzzyGram]
  cases g with
  | none => exact .inr (.inl ⟨_, _, ts, rfl, rfl, .mk zs c none gc hf hi⟩)
  | some g =>
    simp only
    split
    · exact .inr (.inl ⟨_, _, ts, rfl, rfl, .mk zs c _ _ hf hi⟩)
    · exact .inr (.inr (.inl ⟨_, _, _, by decide, rfl, rfl⟩))

theorem fuzzyGram_forms (partsp : Nat) (ref : FuzzyRef) (s : FuzzyState ω) : (fuzzyGram partsp ref s).2.forms = s.forms := by
  simp only [fuzzyGram]
  split
  · rfl
  · split <;> rfl

theorem fuzzyCall_rel {app : App} {conv : List Byte → List Byte} {K : Coder → List Byte → Prop} {lim : Nat} (hA : AppOk app conv K lim)
    {L : FuzzyLang} {word : List Byte} {ts : List (List Byte)} {a s : FuzzyState ω} (h : FuzzyRel L.tab word conv K ts a s)
    (im : FuzzyImages) (rank : FuzzyRank ω) (junk : List Byte) (scheme dwsets : Nat) (v : FuzzyVisit) :
    FuzzyStepRel L.tab word conv K lim (fuzzyCallWith listApp L im rank junk word scheme dwsets v a)
      (fuzzyCallWith app L im rank junk word scheme dwsets v s) := by
  simp only [fuzzyCallWith]
  rcases fuzzyClass im v.2.cls with _ | _ | ⟨psp, sets, fc, pc⟩
  · exact .inl ⟨rfl, rfl⟩
  · exact .inr (.inr (.inl ⟨_, _, _, by decide, rfl, rfl⟩))
  · simp only
    rcases (if L.caps && dwsets &&& sfIgnoreCapitals == 0 then (fuzzyMinCap psp).map (isGood scheme) else some true : Option Bool) with _ | _ | _
    · exact .inl ⟨rfl, rfl⟩
    · exact .inr (.inl ⟨_, _, ts, rfl, rfl, h⟩)
    · simp only
      rcases fuzzyOpen_rel hA h rank junk v.1 v.2 psp sets pc with ⟨h1, h2⟩ | ⟨a', s', ts', h1, h2, h3⟩ | ⟨e, a', s', he, h1, h2⟩ | ⟨s', h1, h2⟩
      · rw [h1, h2]; exact .inl ⟨rfl, rfl⟩
      · rw [h1, h2]
        exact fuzzyGram_rel h3 lim psp v.2
      · rw [h1, h2]; exact .inr (.inr (.inl ⟨e, _, _, he, rfl, rfl⟩))
      · rw [h1]
        obtain ⟨r, a1, us, q0, q1, q2⟩ := h2
        rw [q0]
        rcases r with _ | r
        · exact .inr (.inr (.inr ⟨s', rfl, _, _, us, rfl, (fuzzyGram_forms psp v.2 a1).trans q1, q2⟩))
        · exact .inr (.inr (.inr ⟨s', rfl, _, _, us, rfl, q1, q2⟩))

theorem fuzzyCall_grows {L : FuzzyLang} {word : List Byte} {im : FuzzyImages} {rank : FuzzyRank ω} {junk : List Byte} {scheme dwsets : Nat}
    {v : FuzzyVisit} {a a' : FuzzyState ω} {ts : List (List Byte)} (h : a.forms = ⟨some (coded ts), ts.length⟩)
    (hc : fuzzyCallWith listApp L im rank junk word scheme dwsets v a = some (none, a')) :
    ∃ us, a'.forms = ⟨some (coded (ts ++ us)), (ts ++ us).length⟩ := by
  simp only [fuzzyCallWith] at hc
  generalize fuzzyClass im v.2.cls = x at hc
  rcases x with _ | _ | ⟨psp, sets, fc, pc⟩
  · cases hc
  · cases hc
  · simp only at hc
    generalize (if L.caps && dwsets &&& sfIgnoreCapitals == 0 then (fuzzyMinCap psp).map (isGood scheme) else some true : Option Bool) = y at hc
    rcases y with _ | _ | _
    · cases hc
    · cases hc; exact ⟨[], by simpa using h⟩
    · simp only at hc
      rcases hx : fuzzyOpenWith listApp L rank junk word v.1 v.2 psp sets pc a with _ | ⟨_ | r, a1⟩
      · rw [hx] at hc; cases hc
      · rw [hx] at hc
        simp only [Option.some.injEq] at hc
        have hg := fuzzyGram_forms psp v.2 a1
        rw [hc] at hg
        rw [hg]
        clear hc hg
        simp only [fuzzyOpenWith, h, Option.isSome_some, if_true] at hx
        split at hx
        · cases hx; exact ⟨[], by simpa using h⟩
        · split at hx
          · cases hx
          · split at hx
            · cases hx
            · split at hx
              · cases hx
              · split at hx
                · cases hx
                · split at hx
                  · cases hx
                  · split at hx
                    · cases hx
                    · split at hx
                      · cases hx
                      · rename_i t _ _
                        simp only [listApp, Option.map_some, if_true, Option.some.injEq, Prod.mk.injEq, true_and] at hx
                        subst hx
                        exact ⟨[t], by simp [coded_snoc]⟩
      · rw [hx] at hc; cases hc

theorem fuzzyRun_rel {app : App} {conv : List Byte → List Byte} {K : Coder → List Byte → Prop} {lim : Nat} (hA : AppOk app conv K lim)
    {L : FuzzyLang} {word : List Byte} (im : FuzzyImages) (rank : FuzzyRank ω) (junk : List Byte) (scheme dwsets : Nat)
    (cs : List FuzzyVisit) (ts : List (List Byte)) (a s : FuzzyState ω) (h : FuzzyRel L.tab word conv K ts a s) :
    FuzzyRunRel L.tab word conv K lim
      (fun us => ∃ n r b, runList (fuzzyCallWith listApp L im rank junk word scheme dwsets) (cs.take n) a = some (r, b) ∧
        b.forms = ⟨some (coded us), us.length⟩)
      (runList (fuzzyCallWith listApp L im rank junk word scheme dwsets) cs a)
      (runList (fuzzyCallWith app L im rank junk word scheme dwsets) cs s) := by
  induction cs generalizing ts a s with
  | nil => exact .inr (.inl ⟨a, s, ts, rfl, rfl, h⟩)
  | cons c cs ih =>
    simp only [runList]
    rcases fuzzyCall_rel hA h im rank junk scheme dwsets c with ⟨h1, h2⟩ | ⟨a', s', ts', h1, h2, h3⟩ | ⟨e, a', s', he, h1, h2⟩ | ⟨s', h1, h2⟩
    · rw [h1, h2]; exact .inl ⟨rfl, rfl⟩
    · rw [h2]
      rcases ih ts' a' s' h3 with k | k | k | ⟨s1, k1, k2, us, ⟨n, r, b, k3, k4⟩, k5⟩
      · exact .inl (by rw [h1]; exact k)
      · exact .inr (.inl (by rw [h1]; exact k))
      · exact .inr (.inr (.inl (by rw [h1]; exact k)))
      · refine .inr (.inr (.inr ⟨s1, k1, by rw [h1]; exact k2, us, ⟨n + 1, r, b, ?_, k4⟩, k5⟩))
        rw [List.take_succ_cons, runList, h1]
        exact k3
    · rw [h1, h2]
      exact .inr (.inr (.inl ⟨e, _, _, he, rfl, rfl⟩))
    · rw [h1]
      obtain ⟨r0, a0, vs, q0, q1, q2⟩ := h2
      refine .inr (.inr (.inr ⟨s', rfl, fun b hb => ?_, vs, ⟨1, r0, a0, ?_, q1⟩, q2⟩))
      · rw [q0] at hb
        rcases r0 with _ | r
        · simp only at hb
          clear ih h h1 q0
          induction cs generalizing a0 vs with
          | nil => cases hb; exact ⟨vs, q1, q2⟩
          | cons c cs ih =>
            simp only [runList] at hb
            rcases hx : fuzzyCallWith listApp L im rank junk word scheme dwsets c a0 with _ | ⟨_ | r, a2⟩
            · rw [hx] at hb; cases hb
            · rw [hx] at hb
              obtain ⟨ws, h5⟩ := fuzzyCall_grows q1 hx
              refine ih a2 _ h5 ?_ hb
              have : (packed (vs.map conv)).length ≤ (packed ((vs ++ ws).map conv)).length := by simp [packed]
              omega
            · rw [hx] at hb; cases hb
        · cases hb
      · rw [List.take_succ_cons, List.take_zero, runList, q0]
        rcases r0 with _ | r <;> rfl

/-- What a run may hold on the way is bounded. -/
theorem fuzzyRun_mid (conv : List Byte → List Byte) (F : FuzzyVisit → FuzzyState ω → Option (Option Int × FuzzyState ω)) (cs : List FuzzyVisit)
    (a : FuzzyState ω) : ∃ M, ∀ us, (∃ n r b, runList F (cs.take n) a = some (r, b) ∧ b.forms = ⟨some (coded us), us.length⟩) →
      (packed (us.map conv)).length ≤ M := by
  have key : ∀ N, ∃ M, ∀ n ≤ N, ∀ us r b, runList F (cs.take n) a = some (r, b) → b.forms = ⟨some (coded us), us.length⟩ →
      (packed (us.map conv)).length ≤ M := by
    have one : ∀ n, ∃ M, ∀ us r b, runList F (cs.take n) a = some (r, b) → b.forms = ⟨some (coded us), us.length⟩ →
        (packed (us.map conv)).length ≤ M := by
      intro n
      by_cases h : ∃ us r b, runList F (cs.take n) a = some (r, b) ∧ b.forms = ⟨some (coded us), us.length⟩
      · obtain ⟨us, r, b, h1, h2⟩ := h
        refine ⟨(packed (us.map conv)).length, fun vs r' b' k1 k2 => ?_⟩
        rw [h1] at k1
        cases k1
        rw [h2] at k2
        simp only [Coder.mk.injEq, Option.some.injEq] at k2
        rw [coded_inj k2.1]
      · exact ⟨0, fun us r b h1 h2 => absurd ⟨us, r, b, h1, h2⟩ h⟩
    intro N
    induction N with
    | zero =>
      obtain ⟨M, h⟩ := one 0
      exact ⟨M, fun n hn => by rw [Nat.le_zero.1 hn]; exact h⟩
    | succ N ih =>
      obtain ⟨M1, h1⟩ := ih
      obtain ⟨M2, h2⟩ := one (N + 1)
      refine ⟨M1 + M2, fun n hn us r b k1 k2 => ?_⟩
      rcases Nat.lt_or_ge N n with hl | hl
      · have : n = N + 1 := by omega
        subst this
        exact Nat.le_trans (h2 us r b k1 k2) (Nat.le_add_left _ _)
      · exact Nat.le_trans (h1 n hl us r b k1 k2) (Nat.le_add_right _ _)
  obtain ⟨M, h⟩ := key cs.length
  refine ⟨M, ?_⟩
  rintro us ⟨n, r, b, h1, h2⟩
  rcases Nat.lt_or_ge cs.length n with hl | hl
  · rw [List.take_of_length_le (by omega)] at h1
    exact h cs.length (by omega) us r b (by rw [List.take_length]; exact h1) h2
  · exact h n hl us r b h1 h2

end Libmorph
