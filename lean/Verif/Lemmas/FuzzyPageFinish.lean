import Verif.Lemmas.FuzzyPageRun
/-
The answer of the analysis in two code pages.
-/
namespace Libmorph

variable {Q : FuzzyPage} {enc : Byte → List Byte} {known : Byte → Prop} {ω : Type}

theorem Cased.length {T : CharTab} {x y : List Byte} (h : Cased T x y) : x.length = y.length := List.Forall₂.length_eq h

theorem GuessInv.guesses {T : CharTab} {word : List Byte} {ts : List (List Byte)} {zs : List (FuzzyStem ω)} (h : GuessInv T word ts zs) :
    GuessesOf zs ts := by
  refine ⟨h.1, fun i x hx => ?_⟩
  obtain ⟨h1, h2, h3⟩ := h.2 i x hx
  refine ⟨h1, fun t ht => ?_⟩
  have := (h3 t ht).length
  simp only [List.length_take] at this
  omega

theorem GuessInv.mem {T : CharTab} {word : List Byte} {ts : List (List Byte)} {zs : List (FuzzyStem ω)} (h : GuessInv T word ts zs)
    {x : FuzzyStem ω} (hx : x ∈ zs) : ∃ i t, x.plemma = some i ∧ ts[i]? = some t ∧ x.ccstem ≤ word.length ∧ x.ccstem ≤ t.length ∧
      Cased T (t.take x.ccstem) (word.take x.ccstem) := by
  obtain ⟨i, hi⟩ := List.mem_iff_getElem?.1 hx
  obtain ⟨h1, h2, h3⟩ := h.2 i x hi
  have hlt : i < ts.length := by
    rw [← h.1]
    exact (List.getElem?_eq_some_iff.1 hi).1
  have ht := List.getElem?_eq_getElem hlt
  refine ⟨i, _, h1, ht, h2, ?_, h3 _ ht⟩
  have := (h3 _ ht).length
  simp only [List.length_take] at this
  omega

theorem GuessInv.native {T : CharTab} {word : List Byte} {ts : List (List Byte)} {zs : List (FuzzyStem ω)} (h : GuessInv T word ts zs) :
    zs.map (placeRec id ts) = zs.map (guessRecord id ts) := by
  refine List.map_congr_left fun x hx => ?_
  obtain ⟨i, t, h1, h2, h3, h4, h5⟩ := h.mem hx
  simp only [placeRec, guessRecord, h1, Option.getD_some, List.getD_eq_getElem?_getD, h2, id, List.length_take]
  have : min x.ccstem t.length = x.ccstem := by omega
  rw [this]

theorem inPage_one (h : ∀ b, (enc b).length = 1) (x : List Byte) : (inPage enc x).length = x.length := by
  induction x with
  | nil => rfl
  | cons a x ih =>
    simp only [inPage, List.flatMap_cons, List.length_append, h, List.length_cons] at ih ⊢
    omega

theorem GuessInv.bytes {T : CharTab} {word : List Byte} {ts : List (List Byte)} {zs : List (FuzzyStem ω)} (h : GuessInv T word ts zs)
    (hb : ∀ b, (enc b).length = 1) : zs.map (placeRec (inPage enc) ts) = zs.map (guessRecord (inPage enc) ts) := by
  refine List.map_congr_left fun x hx => ?_
  obtain ⟨i, t, h1, h2, h3, h4, h5⟩ := h.mem hx
  simp only [placeRec, guessRecord, h1, Option.getD_some, List.getD_eq_getElem?_getD, h2, inPage_one hb, List.length_take]
  have : min x.ccstem t.length = x.ccstem := by omega
  rw [this]

theorem sum_width {f : Byte → Nat} (hf : ∀ b, f b = (enc b).length) (x : List Byte) : (x.map f).sum = (inPage enc x).length := by
  induction x with
  | nil => rfl
  | cons a x ih =>
    simp only [inPage, List.flatMap_cons, List.length_append, List.map_cons, List.sum_cons, hf] at ih ⊢
    omega

theorem mapM_widen {T : CharTab} {word : List Byte} {ts : List (List Byte)} {f : Byte → Nat} (hf : ∀ b, f b = (enc b).length)
    (hc : ∀ b, (enc (T.upper b)).length = (enc b).length) (zs : List (FuzzyStem ω))
    (h : ∀ x ∈ zs, ∃ i t, x.plemma = some i ∧ ts[i]? = some t ∧ x.ccstem ≤ word.length ∧ x.ccstem ≤ t.length ∧
      Cased T (t.take x.ccstem) (word.take x.ccstem)) :
    (zs.map (placeRec (inPage enc) ts)).mapM (widenStem f word) = some (zs.map (guessRecord (inPage enc) ts)) := by
  induction zs with
  | nil => rfl
  | cons x zs ih =>
    obtain ⟨i, t, h1, h2, h3, h4, h5⟩ := h x (by simp)
    have hx : widenStem f word (placeRec (inPage enc) ts x) = some (guessRecord (inPage enc) ts x) := by
      have hnl : ¬ word.length < x.ccstem := by omega
      simp only [widenStem, placeRec, guessRecord, h1, Option.getD_some, List.getD_eq_getElem?_getD, h2, if_neg hnl, sum_width hf, h5.width hc]
    rw [List.map_cons, List.mapM_cons, hx, ih fun y hy => h y (by simp [hy])]
    rfl

/-- The answer, given the outcome of the scan. -/
def fuzzyAnswer (finish : FuzzyState ω → Option (Int × Option (List (FuzzyStem ω)) × FuzzyState ω)) (out : Option (List (FuzzyStem ω)))
    (r : Option (Option Int × FuzzyState ω)) : Option (Int × Option (List (FuzzyStem ω)) × FuzzyState ω) :=
  match r with
  | none => none
  | some (some e, s) => some (e, out, s)
  | some (none, s) => finish s

/-- Too many guesses for the array of records. -/
def Crowded (out : Option (List (FuzzyStem ω))) (n : Nat) : Prop := ∃ l, out = some l ∧ l.length < n

theorem finish_native {T : CharTab} {word : List Byte} {ts : List (List Byte)} {zs : List (FuzzyStem ω)} (h : GuessInv T word ts zs)
    (sort : List (FuzzyStem ω) → List (FuzzyStem ω)) (out : Option (List (FuzzyStem ω))) (c : Coder) (g : Option (List Gram)) (gc : Nat) :
    ∃ s', (s'.forms = c ∧ s'.grams = g) ∧
      (Crowded out ts.length → fuzzyFinish sort out ⟨zs.map (placeRec id ts), c, g, gc⟩ = (LEMMBUFF_FAILED, out, s')) ∧
      (¬ Crowded out ts.length → fuzzyFinish sort out ⟨zs.map (placeRec id ts), c, g, gc⟩ =
        ((ts.length : Int), out.map fun l => sort ((closeLast gc zs).map (guessRecord id ts)) ++ l.drop ts.length, s')) := by
  have hi := h.close gc
  have hl : (List.map (placeRec id ts) (closeLast gc zs)).length = ts.length := by rw [List.length_map, hi.1]
  refine ⟨⟨(closeLast gc zs).map (placeRec id ts), c, g, gc⟩, ⟨rfl, rfl⟩, fun hc => ?_, fun hc => ?_⟩
  · obtain ⟨l, rfl, hlt⟩ := hc
    simp only [fuzzyFinish, closeLast_map, hl]
    rw [if_pos hlt]
  · cases out with
    | none => simp only [fuzzyFinish, closeLast_map, hl, Option.map_none]
    | some l =>
      have : ¬ ts.length > l.length := fun hlt => hc ⟨l, rfl, hlt⟩
      simp only [fuzzyFinish, closeLast_map, hl, if_neg this, Option.map_some, ← hi.native]

theorem finish_page {T : CharTab} (hQ : Q.Ok T enc known) {word : List Byte} {ts : List (List Byte)} {zs : List (FuzzyStem ω)}
    (h : GuessInv T word ts zs) (sort : List (FuzzyStem ω) → List (FuzzyStem ω)) (out : Option (List (FuzzyStem ω))) (c : Coder)
    (hb : c.buf.isSome) (g : Option (List Gram)) (gc : Nat) :
    ∃ s', (s'.forms = c ∧ s'.grams = g) ∧
      (Crowded out ts.length → fuzzyFinishIn Q.width word sort out ⟨zs.map (placeRec (inPage enc) ts), c, g, gc⟩ = some (LEMMBUFF_FAILED, out, s')) ∧
      (¬ Crowded out ts.length → fuzzyFinishIn Q.width word sort out ⟨zs.map (placeRec (inPage enc) ts), c, g, gc⟩ =
        some ((ts.length : Int), out.map fun l => sort ((closeLast gc zs).map (guessRecord (inPage enc) ts)) ++ l.drop ts.length, s')) := by
  have hi := h.close gc
  have hl : (List.map (placeRec (inPage enc) ts) (closeLast gc zs)).length = ts.length := by rw [List.length_map, hi.1]
  refine ⟨⟨(closeLast gc zs).map (placeRec (inPage enc) ts), c, g, gc⟩, ⟨rfl, rfl⟩, fun hc => ?_, fun hc => ?_⟩
  · obtain ⟨l, rfl, hlt⟩ := hc
    simp only [fuzzyFinishIn, closeLast_map, hl]
    rw [if_pos hlt]
  · cases out with
    | none => simp only [fuzzyFinishIn, closeLast_map, hl, Option.map_none]
    | some l =>
      have : ¬ ts.length > l.length := fun hlt => hc ⟨l, rfl, hlt⟩
      simp only [fuzzyFinishIn, closeLast_map, hl, if_neg this, Option.map_some]
      cases hw : Q.width with
      | none => simp only [hi.bytes (hQ.bytes hw)]
      | some f =>
        simp only [hb, if_true, mapM_widen (hQ.utf8 f hw) hQ.caps _ (fun x hx => hi.mem hx)]
        rfl

theorem fuzzy_start {T : CharTab} {word : List Byte} {conv : List Byte → List Byte} {K : Coder → List Byte → Prop} {c : Coder} (hc : K c [])
    (G : Option (List Gram)) : FuzzyRel (ω := ω) T word conv K [] ⟨[], ⟨some [], 0⟩, G, 0⟩ ⟨[], c, G, 0⟩ :=
  .mk [] c G 0 (by simpa [packed] using hc) ⟨rfl, by simp⟩

theorem sameGuesses_of {L : FuzzyLang} (hQ : Q.Ok L.tab enc known) (im : FuzzyImages) (rank : FuzzyRank ω) (junk word : List Byte) (scheme dwsets : Nat)
    (V : List FuzzyVisit) (e : Option (Option Int)) (he : ∀ r, e = some (some r) → r < 0) (sort : List (FuzzyStem ω) → List (FuzzyStem ω))
    (out : Option (List (FuzzyStem ω))) (G : Option (List Gram))
    {native page : List Byte → Option (Int × Option (List (FuzzyStem ω)) × FuzzyState ω)}
    (hn : ∀ B, native B = fuzzyAnswer (fun s => some (fuzzyFinish sort out s)) out
      (runEnd V e (fuzzyCallWith Coder.appendz L im rank junk word scheme dwsets) ⟨[], ⟨some B, 0⟩, G, 0⟩))
    (hp : ∀ B, page B = fuzzyAnswer (fuzzyFinishIn Q.width word sort out) out
      (runEnd V e (fuzzyCallWith (Coder.appendzIn Q.page) L im rank junk word scheme dwsets) ⟨[], ⟨some B, 0⟩, G, 0⟩)) :
    SameGuesses enc sort out native page := by
  have rn := fun B => fuzzyRun_rel (appOk_native B) (L := L) (word := word) im rank junk scheme dwsets V [] _ _
    (fuzzy_start (c := ⟨some B, 0⟩) ⟨rfl, by simp, .inl ⟨rfl, rfl⟩⟩ G)
  have rp := fun B => fuzzyRun_rel (appOk_page hQ.page B) (L := L) (word := word) im rank junk scheme dwsets V [] _ _
    (fuzzy_start (c := ⟨some B, 0⟩) ⟨rfl, by simp, rfl⟩ G)
  obtain ⟨M, hM⟩ := fuzzyRun_mid id (fuzzyCallWith listApp L im rank junk word scheme dwsets) V ⟨[], ⟨some [], 0⟩, G, 0⟩
  generalize runList (fuzzyCallWith listApp L im rank junk word scheme dwsets) V ⟨[], ⟨some [], 0⟩, G, 0⟩ = o at rn rp
  have hneg : ¬ (0 : Int) ≤ LEMMBUFF_FAILED := by decide
  -- what the two answer, given the run of the list
  have an : ∀ (B : List Byte) (zs : List (FuzzyStem ω)) (ts : List (List Byte)) (g : Option (List Gram)) (gc : Nat),
      o = some (none, ⟨zs, ⟨some (coded ts), ts.length⟩, g, gc⟩) → GuessInv L.tab word ts zs → e = some none →
      (((packed ts).length ≤ B.length ∧ (ts ≠ [] → (packed ts).length < B.length) ∧ ∃ s, s.forms.buf = some (filled B ts) ∧ s.grams = g ∧
        (Crowded out ts.length → native B = some (LEMMBUFF_FAILED, out, s)) ∧
        (¬ Crowded out ts.length → native B = some ((ts.length : Int),
          out.map fun l => sort ((closeLast gc zs).map (guessRecord id ts)) ++ l.drop ts.length, s))) ∨
      (B.length ≤ (packed ts).length ∧ ∃ s, native B = some (LEMMBUFF_FAILED, out, s))) := by
    intro B zs ts g gc ho hi hend
    rw [hn B, runEnd]
    rcases rn B with ⟨k1, k2⟩ | ⟨a', t, ts', k1, k2, k3⟩ | ⟨e', a', t, he', k1, k2⟩ | ⟨t, k2, k3, -⟩
    · rw [ho] at k1; cases k1
    · rw [ho] at k1
      simp only [Option.some.injEq, Prod.mk.injEq, true_and] at k1
      obtain ⟨zs', c', g', gc', hf', hi'⟩ := k3
      simp only [FuzzyState.mk.injEq, Coder.mk.injEq, Option.some.injEq] at k1
      obtain ⟨rfl, ⟨hts, -⟩, rfl, rfl⟩ := k1
      have := coded_inj hts
      subst this
      simp only [List.map_id] at hf'
      obtain ⟨s', ⟨q1, q2⟩, q3, q4⟩ := finish_native hi' sort out c' g gc
      rw [k2]
      simp only [hend, Option.map_some, fuzzyAnswer]
      refine .inl ⟨?_, ?_, s', by rw [q1]; exact hf'.filled, q2, fun hc => by rw [q3 hc], fun hc => by rw [q4 hc]⟩
      · exact hf'.room
      · intro hne
        rcases hf'.buf with ⟨h, -⟩ | ⟨-, h, -⟩
        · exact absurd h (packed_ne_nil hne)
        · exact h
    · rw [ho] at k1; cases k1
    · obtain ⟨us, q1, q2⟩ := k3 _ ho
      simp only [Coder.mk.injEq, Option.some.injEq] at q1
      have := coded_inj q1.1
      subst this
      simp only [List.map_id] at q2
      rw [k2]
      exact .inr ⟨q2, _, rfl⟩
  have ap : ∀ (B : List Byte) (zs : List (FuzzyStem ω)) (ts : List (List Byte)) (g : Option (List Gram)) (gc : Nat),
      o = some (none, ⟨zs, ⟨some (coded ts), ts.length⟩, g, gc⟩) → GuessInv L.tab word ts zs → e = some none →
      (((packed (ts.map (inPage enc))).length ≤ B.length ∧ ∃ s, s.forms.buf = some (filled B (ts.map (inPage enc))) ∧ s.grams = g ∧
        (Crowded out ts.length → page B = some (LEMMBUFF_FAILED, out, s)) ∧
        (¬ Crowded out ts.length → page B = some ((ts.length : Int),
          out.map fun l => sort ((closeLast gc zs).map (guessRecord (inPage enc) ts)) ++ l.drop ts.length, s))) ∨
      (B.length ≤ (packed (ts.map (inPage enc))).length ∧ ∃ s, page B = some (LEMMBUFF_FAILED, out, s))) := by
    intro B zs ts g gc ho hi hend
    rw [hp B, runEnd]
    rcases rp B with ⟨k1, k2⟩ | ⟨a', t, ts', k1, k2, k3⟩ | ⟨e', a', t, he', k1, k2⟩ | ⟨t, k2, k3, -⟩
    · rw [ho] at k1; cases k1
    · rw [ho] at k1
      simp only [Option.some.injEq, Prod.mk.injEq, true_and] at k1
      obtain ⟨zs', c', g', gc', hf', hi'⟩ := k3
      simp only [FuzzyState.mk.injEq, Coder.mk.injEq, Option.some.injEq] at k1
      obtain ⟨rfl, ⟨hts, -⟩, rfl, rfl⟩ := k1
      have := coded_inj hts
      subst this
      obtain ⟨s', ⟨q1, q2⟩, q3, q4⟩ := finish_page hQ hi' sort out c' (by simp [hf'.buf]) g gc
      rw [k2]
      simp only [hend, Option.map_some, fuzzyAnswer]
      refine .inl ⟨?_, s', by rw [q1]; exact hf'.filled, q2, q3, q4⟩
      exact hf'.room
    · rw [ho] at k1; cases k1
    · obtain ⟨us, q1, q2⟩ := k3 _ ho
      simp only [Coder.mk.injEq, Option.some.injEq] at q1
      have := coded_inj q1.1
      subst this
      rw [k2]
      exact .inr ⟨q2, _, rfl⟩
  -- an answer that is not an error comes from a complete run
  have cn : ∀ B n out' s, native B = some (n, out', s) → 0 ≤ n → ∃ zs ts g gc, o = some (none, ⟨zs, ⟨some (coded ts), ts.length⟩, g, gc⟩) ∧
      GuessInv L.tab word ts zs ∧ e = some none := by
    intro B n out' s hB h0
    rw [hn B, runEnd] at hB
    rcases rn B with ⟨k1, k2⟩ | ⟨a', t, ts', k1, k2, k3⟩ | ⟨e', a', t, he', k1, k2⟩ | ⟨t, k2, -⟩
    · rw [k2] at hB; cases hB
    · rw [k2] at hB
      obtain ⟨zs', c', g', gc', hf', hi'⟩ := k3
      rcases e with _ | _ | r
      · cases hB
      · exact ⟨_, _, _, _, k1, hi', rfl⟩
      · cases hB
        have := he _ rfl
        omega
    · rw [k2] at hB; cases hB; omega
    · rw [k2] at hB; cases hB; exact absurd h0 hneg
  have cp : ∀ B n out' s, page B = some (n, out', s) → 0 ≤ n → ∃ zs ts g gc, o = some (none, ⟨zs, ⟨some (coded ts), ts.length⟩, g, gc⟩) ∧
      GuessInv L.tab word ts zs ∧ e = some none := by
    intro B n out' s hB h0
    rw [hp B, runEnd] at hB
    rcases rp B with ⟨k1, k2⟩ | ⟨a', t, ts', k1, k2, k3⟩ | ⟨e', a', t, he', k1, k2⟩ | ⟨t, k2, -⟩
    · rw [k2] at hB; cases hB
    · rw [k2] at hB
      obtain ⟨zs', c', g', gc', hf', hi'⟩ := k3
      rcases e with _ | _ | r
      · cases hB
      · exact ⟨_, _, _, _, k1, hi', rfl⟩
      · cases hB
        have := he _ rfl
        omega
    · rw [k2] at hB; cases hB; omega
    · rw [k2] at hB; cases hB; exact absurd h0 hneg
  constructor
  · intro B n out' s hB h0
    obtain ⟨zs, ts, g, gc, ho, hi, hend⟩ := cn B n out' s hB h0
    rcases an B zs ts g gc ho hi hend with ⟨-, hst, s', h1, h2, h3, h4⟩ | ⟨-, s', h1⟩
    · by_cases hc : Crowded out ts.length
      · rw [h3 hc] at hB; cases hB; exact absurd h0 hneg
      · rw [h4 hc] at hB
        cases hB
        refine ⟨closeLast gc zs, ts, (hi.close gc).guesses, rfl, h1, hst, rfl, fun B' hB' => ?_, fun C => ?_⟩
        · rcases an B' zs ts g gc ho hi hend with ⟨-, -, s, k1, k2, -, k4⟩ | ⟨k0, -⟩
          · exact ⟨s, k4 hc, k1, by rw [k2, h2]⟩
          · omega
        rcases ap C zs ts g gc ho hi hend with ⟨k0, t, k1, k2, k3, k4⟩ | ⟨k0, t, k1⟩
        · exact ⟨fun _ => ⟨t, k4 hc, k1, by rw [k2, h2]⟩, fun hh => by omega⟩
        · exact ⟨fun hh => by omega, fun _ => ⟨_, _, k1⟩⟩
    · rw [h1] at hB; cases hB; exact absurd h0 hneg
  · intro C n out' t hC h0
    obtain ⟨zs, ts, g, gc, ho, hi, hend⟩ := cp C n out' t hC h0
    rcases ap C zs ts g gc ho hi hend with ⟨hr, s', h1, h2, h3, h4⟩ | ⟨-, s', h1⟩
    · by_cases hc : Crowded out ts.length
      · rw [h3 hc] at hC; cases hC; exact absurd h0 hneg
      · rw [h4 hc] at hC
        cases hC
        refine ⟨closeLast gc zs, ts, (hi.close gc).guesses, rfl, h1, hr, rfl, fun B => ?_⟩
        rcases an B zs ts g gc ho hi hend with ⟨k0, -, s, k1, k2, k3, k4⟩ | ⟨k0, s, k1⟩
        · exact ⟨fun _ => ⟨s, k4 hc, k1, by rw [k2, h2]⟩, fun hh => by omega⟩
        · exact ⟨fun hh => by omega, fun _ => ⟨_, _, k1⟩⟩
    · rw [h1] at hC; cases hC; exact absurd h0 hneg
  · intro B r out' s hB h0 h1 C
    rw [hn B, runEnd] at hB
    rw [hp C, runEnd]
    rcases rn B with ⟨k1, k2⟩ | ⟨a', t, ts', k1, k2, k3⟩ | ⟨e', a', t, he', k1, k2⟩ | ⟨t, k2, -⟩
    · rw [k2] at hB; cases hB
    · rw [k2] at hB
      rcases e with _ | _ | r'
      · cases hB
      · obtain ⟨zs', c', g', gc', hf', hi'⟩ := k3
        obtain ⟨s', -, q3, q4⟩ := finish_native hi' sort out c' g' gc'
        simp only [Option.map_some, fuzzyAnswer] at hB
        by_cases hc : Crowded out ts'.length
        · rw [q3 hc] at hB; cases hB; exact absurd rfl h1
        · rw [q4 hc] at hB; cases hB; omega
      · cases hB
        rcases rp C with ⟨l1, l2⟩ | ⟨a'', t', ts'', l1, l2, l3⟩ | ⟨e', a'', t', he', l1, l2⟩ | ⟨t', l2, -⟩
        · rw [k1] at l1; cases l1
        · rw [l2]; exact ⟨_, _, .inl rfl⟩
        · rw [k1] at l1; cases l1
        · rw [l2]; exact ⟨_, _, .inr rfl⟩
    · rw [k2] at hB
      cases hB
      rcases rp C with ⟨l1, l2⟩ | ⟨a'', t', ts'', l1, l2, l3⟩ | ⟨e'', a'', t', he'', l1, l2⟩ | ⟨t', l2, -⟩
      · rw [k1] at l1; cases l1
      · rw [k1] at l1; cases l1
      · rw [k1] at l1; cases l1
        rw [l2]; exact ⟨_, _, .inl rfl⟩
      · rw [l2]; exact ⟨_, _, .inr rfl⟩
    · rw [k2] at hB; cases hB; exact absurd rfl h1
  · intro hall C
    obtain ⟨e1, o1, s1, hB, he1⟩ := hall (List.replicate (M + 1) 0)
    rw [hn, runEnd] at hB
    have hl : LEMMBUFF_FAILED < 0 := by decide
    rcases rn (List.replicate (M + 1) 0) with ⟨k1, k2⟩ | ⟨a', t, ts', k1, k2, k3⟩ | ⟨e', a', t, he', k1, k2⟩ | ⟨t, k2, -, us, k3, k4⟩
    · rw [k2] at hB; cases hB
    · rw [k2] at hB
      rcases e with _ | _ | r'
      · cases hB
      · obtain ⟨zs', c', g', gc', hf', hi'⟩ := k3
        obtain ⟨s', -, q3, q4⟩ := finish_native hi' sort out c' g' gc'
        simp only [Option.map_some, fuzzyAnswer] at hB
        by_cases hc : Crowded out ts'.length
        · rcases ap C zs' ts' g' gc' k1 hi' rfl with ⟨-, s2, -, -, h3, -⟩ | ⟨-, s2, h3⟩
          · exact ⟨_, _, _, h3 hc, hl⟩
          · exact ⟨_, _, _, h3, hl⟩
        · rw [q4 hc] at hB; cases hB; omega
      · rw [hp C, runEnd]
        cases hB
        rcases rp C with ⟨l1, l2⟩ | ⟨a'', t', ts'', l1, l2, l3⟩ | ⟨e', a'', t', he', l1, l2⟩ | ⟨t', l2, -⟩
        · rw [k1] at l1; cases l1
        · rw [l2]; exact ⟨_, _, _, rfl, he1⟩
        · rw [k1] at l1; cases l1
        · rw [l2]; exact ⟨_, _, _, rfl, hl⟩
    · rw [hp C, runEnd]
      rcases rp C with ⟨l1, l2⟩ | ⟨a'', t', ts'', l1, l2, l3⟩ | ⟨e'', a'', t', he'', l1, l2⟩ | ⟨t', l2, -⟩
      · rw [k1] at l1; cases l1
      · rw [k1] at l1; cases l1
      · rw [l2]; exact ⟨_, _, _, rfl, he''⟩
      · rw [l2]; exact ⟨_, _, _, rfl, hl⟩
    · have := hM us k3
      rw [List.length_replicate] at k4
      omega

end Libmorph
