import Verif.Lemmas.FuzzyLemm
/-
The fuzzy lemmatizer as a whole.
-/
namespace Libmorph

variable {ω : Type} {R : FuzzyRank ω} {L : FuzzyLang} {cs : List FuzzyClass} {w : List Byte}
  {pforms : Option (List Byte)} {pgrams : Option (List Gram)}

theorem FuzzyRoom.backs {vs : List (Nat × FuzzyRef)} {xs : List FuzzyLemma}
    (h : FuzzyRoom L cs w pforms pgrams (vs.foldl addVisit xs)) : FuzzyRoom L cs w pforms pgrams xs := by
  induction vs generalizing xs with
  | nil => exact h
  | cons v vs ih => exact (ih h).back

theorem fuzzyRun (hL : L = rusFuzzy ∨ L = engFuzzy) (hok : FuzzyOk R L cs) (hw : Text w) (t : PTree) (scheme dwsets : Nat)
    (junk : List Byte) (fits : FuzzyClass → Bool)
    (hfit : ∀ c, fits c = (dwsets &&& sfIgnoreCapitals != 0 || !L.caps || isGood scheme (pspMinCap c.partSp)))
    (vs : List (Nat × FuzzyRef)) (hvs : ∀ v ∈ vs, VisitOk cs w v)
    (hj : pforms.isSome → ∀ v ∈ vs, fits (classOf cs v.2.cls) → v.1 + 2 + (classOf cs v.2.cls).normal.length < 64 →
      FuzzyStops L junk (v.1 + 2 + (classOf cs v.2.cls).normal.length)) {xs : List FuzzyLemma} {s : FuzzyState ω}
    (h : FuzzyInv R L cs w pforms pgrams xs s) (hr : FuzzyRoom L cs w pforms pgrams xs) :
    (∃ s', runVisits (fuzzyCall L (fuzzyImages cs t) R junk w scheme dwsets) vs s = some (none, s') ∧
      FuzzyInv R L cs w pforms pgrams ((vs.filter fun v => fits (classOf cs v.2.cls)).foldl addVisit xs) s' ∧
      FuzzyRoom L cs w pforms pgrams ((vs.filter fun v => fits (classOf cs v.2.cls)).foldl addVisit xs)) ∨
    (∃ e s', runVisits (fuzzyCall L (fuzzyImages cs t) R junk w scheme dwsets) vs s = some (some e, s') ∧
      e ∈ [LEMMBUFF_FAILED, WORDBUFF_FAILED, GRAMBUFF_FAILED] ∧
      ¬ FuzzyRoom L cs w pforms pgrams ((vs.filter fun v => fits (classOf cs v.2.cls)).foldl addVisit xs)) := by
  induction vs generalizing xs s with
  | nil => exact Or.inl ⟨s, rfl, h, hr⟩
  | cons v vs ih =>
    have ih' := fun {xs s} h hr => @ih (fun v hv => hvs v (by simp [hv])) (fun hp v hv => hj hp v (by simp [hv])) xs s h hr
    rw [runVisits]
    rcases fuzzyCall_step hL hok hw t h hr (hvs v (by simp)) scheme dwsets junk fits hfit (fun hp => hj hp v (by simp)) with
      ⟨h1, h2⟩ | ⟨h1, ⟨s', h2, h3, h4⟩ | ⟨e, s', h2, h3, h4⟩⟩
    · rw [h2, List.filter_cons_of_neg (by simp [h1])]
      simp only [Option.bind_eq_bind, Option.bind_some]
      exact ih' h hr
    · rw [h2, List.filter_cons_of_pos (by simp [h1]), List.foldl_cons]
      simp only [Option.bind_eq_bind, Option.bind_some]
      exact ih' h3 h4
    · rw [h2, List.filter_cons_of_pos (by simp [h1]), List.foldl_cons]
      exact Or.inr ⟨e, s', rfl, h3, fun hc => h4 hc.backs⟩

/-- A visit in terms of the classes. -/
theorem mem_fuzzyVisits {cs : List FuzzyClass} {w : List Byte} {cl : Nat} {r : FuzzyRef} :
    (cl, r) ∈ fuzzyVisits cs w ↔ ∃ c, cs[r.cls]? = some c ∧ ∃ f ∈ c.flexes, ∃ m ∈ c.models, ∃ p,
      w = p ++ ([m.s0, m.s1] ++ f.2) ∧ cl = p.length ∧ r.power = m.weight ∧ r.form = f.1 := by
  simp only [fuzzyVisits, fuzzyRefsAt, List.mem_flatMap, List.mem_map, List.mem_range, Prod.mk.injEq]
  constructor
  · rintro ⟨n, hn, r', ⟨p, hp, hr⟩, h1, rfl⟩
    obtain ⟨h2, f, hf, m, hm, h3, h4, h5⟩ := FuzzyClass.refsAt_cls hr
    refine ⟨p.1, by rw [h2]; exact zipIdx_get hp, f, hf, m, hm, w.take (w.length - n), ?_, ?_, h4, h5⟩
    · rw [h3, List.take_append_drop]
    · rw [← h1]; simp
  · rintro ⟨c, hc, f, hf, m, hm, p, h1, h2, h3, h4⟩
    have hle : ([m.s0, m.s1] ++ f.2).length ≤ w.length := by simp [h1]; try omega
    have hsub : w.length - ([m.s0, m.s1] ++ f.2).length = p.length := by simp [h1]; try omega
    refine ⟨([m.s0, m.s1] ++ f.2).length, by omega, r, ⟨(c, r.cls), List.mem_zipIdx_iff_getElem?.2 hc, ?_⟩, ?_, rfl⟩
    · rw [hsub]
      simp only [FuzzyClass.refsAt, List.mem_flatMap, List.mem_filterMap]
      refine ⟨f, hf, m, hm, ?_⟩
      rw [h1, List.drop_left, if_pos rfl, ← h3, ← h4]
    · rw [hsub, h2]

theorem visitOk_of_mem {cs : List FuzzyClass} {w : List Byte} {v : Nat × FuzzyRef} (h : v ∈ fuzzyVisits cs w) : VisitOk cs w v := by
  obtain ⟨c, hc, f, hf, m, -, p, h1, h2, -, h4⟩ := mem_fuzzyVisits.1 h
  refine ⟨c, hc, f, hf, h4.symm, ?_⟩
  rw [h1, h2]; simp; omega

/-- A lemma in terms of the classes. -/
theorem mem_fuzzyLemmas {fits : FuzzyClass → Bool} {cs : List FuzzyClass} {w : List Byte} {x : FuzzyLemma} :
    x ∈ fuzzyLemmas fits cs w ↔ ∃ c, cs[x.cls]? = some c ∧ fits c ∧ ∃ n ≤ w.length, x.ccstem = w.length - n + 2 ∧
      x.refs = c.refsAt x.cls (w.drop (w.length - n)) ∧ x.refs ≠ [] := by
  simp only [fuzzyLemmas, List.mem_flatMap, List.mem_range, List.mem_filterMap]
  constructor
  · rintro ⟨n, hn, p, hp, h⟩
    split at h
    · rename_i hh
      simp only [Option.some.injEq] at h
      subst h
      exact ⟨p.1, zipIdx_get hp, hh.2, n, by omega, rfl, rfl, hh.1⟩
    · simp at h
  · rintro ⟨c, hc, hf, n, hn, h1, h2, h3⟩
    refine ⟨n, by omega, (c, x.cls), List.mem_zipIdx_iff_getElem?.2 hc, ?_⟩
    rw [if_pos ⟨by rw [← h2]; exact h3, hf⟩, ← h2, ← h1]

/-- Every visit whose class fits belongs to a lemma. -/
theorem lemma_of_visit {fits : FuzzyClass → Bool} {cs : List FuzzyClass} {w : List Byte} {v : Nat × FuzzyRef}
    (h : v ∈ fuzzyVisits cs w) (hf : fits (classOf cs v.2.cls)) :
    ∃ x ∈ fuzzyLemmas fits cs w, x.ccstem = v.1 + 2 ∧ x.cls = v.2.cls := by
  simp only [fuzzyVisits, fuzzyRefsAt, List.mem_flatMap, List.mem_map, List.mem_range] at h
  obtain ⟨n, hn, r, ⟨p, hp, hr⟩, rfl⟩ := h
  have h2 := (FuzzyClass.refsAt_cls hr).1
  have hc := zipIdx_get hp
  refine ⟨⟨w.length - n + 2, p.2, p.1.refsAt p.2 (w.drop (w.length - n))⟩, ?_, rfl, h2.symm⟩
  rw [mem_fuzzyLemmas]
  refine ⟨p.1, hc, ?_, n, by omega, rfl, rfl, ?_⟩
  · rw [classOf] at hf
    simp only [h2, hc, Option.getD_some] at hf
    exact hf
  · exact List.ne_nil_of_mem hr

theorem fuzzyLower_text (hL : L = rusFuzzy ∨ L = engFuzzy) (hw : Text w) : Text (w.map L.tab.lower) := by
  have hr : ∀ c < 256, c ≠ 0 → rusTab.lower c ≠ 0 ∧ rusTab.lower c < 256 := by decide +kernel
  have he : ∀ c < 256, c ≠ 0 → engTab.lower c ≠ 0 ∧ engTab.lower c < 256 := by decide +kernel
  intro b hb
  obtain ⟨c, hc, rfl⟩ := List.mem_map.1 hb
  have := hw c hc
  rcases hL with rfl | rfl
  · exact hr c this.2 this.1
  · exact he c this.2 this.1

theorem fuzzyTab_ok (hL : L = rusFuzzy ∨ L = engFuzzy) : L.tab.Ok := by
  rcases hL with rfl | rfl
  · exact rusTab_ok
  · exact engTab_ok

/-- The lemmatizer: all the lemmas, or an error when something has no room. -/
theorem fuzzyLemmatize_eq (hL : L = rusFuzzy ∨ L = engFuzzy) (hok : FuzzyOk R L cs) {t : PTree} (ht : t.WF)
    (hh : t.Holds (fuzzyMap cs)) (hw : Text w) (hlen : w.length < 256) (hparts : (wordParts L.tab w).length ≤ 8)
    (sort : List (FuzzyStem ω) → List (FuzzyStem ω)) (hsort : sort [] = []) (b : Byte) (bf junk : List Byte)
    (pstems : Option (List (FuzzyStem ω))) (dwsets : Nat)
    (xs : List FuzzyLemma) (hxs : xs = fuzzyLemmas (fuzzyFits L w dwsets) cs (w.map L.tab.lower))
    (hj : pforms.isSome → ∀ x ∈ xs,
      x.ccstem + (classOf cs x.cls).normal.length < 64 → FuzzyStops L junk (x.ccstem + (classOf cs x.cls).normal.length)) :
    ((FuzzyRoom L cs (w.map L.tab.lower) pforms pgrams xs ∧ ∀ out, pstems = some out → xs.length ≤ out.length) →
      FuzzyReported R L cs (w.map L.tab.lower) sort pstems pforms pgrams xs
        (fuzzyLemmatize L (fuzzyImages cs t) R sort (b :: bf) junk w pstems pforms pgrams dwsets)) ∧
    (¬ (FuzzyRoom L cs (w.map L.tab.lower) pforms pgrams xs ∧ ∀ out, pstems = some out → xs.length ≤ out.length) →
      FuzzyRefused pstems (fuzzyLemmatize L (fuzzyImages cs t) R sort (b :: bf) junk w pstems pforms pgrams dwsets)) := by
  have hT := fuzzyTab_ok hL
  -- no lemmas, nothing done
  have hnone : xs = [] → fuzzyLemmatize L (fuzzyImages cs t) R sort (b :: bf) junk w pstems pforms pgrams dwsets =
        some (0, pstems, { forms := ⟨pforms, 0⟩, grams := pgrams }) →
      ((FuzzyRoom L cs (w.map L.tab.lower) pforms pgrams xs ∧ ∀ out, pstems = some out → xs.length ≤ out.length) →
        FuzzyReported R L cs (w.map L.tab.lower) sort pstems pforms pgrams xs
          (fuzzyLemmatize L (fuzzyImages cs t) R sort (b :: bf) junk w pstems pforms pgrams dwsets)) ∧
      (¬ (FuzzyRoom L cs (w.map L.tab.lower) pforms pgrams xs ∧ ∀ out, pstems = some out → xs.length ≤ out.length) →
        FuzzyRefused pstems (fuzzyLemmatize L (fuzzyImages cs t) R sort (b :: bf) junk w pstems pforms pgrams dwsets)) := by
    intro h1 h2
    rw [h1, h2]
    constructor
    · rintro -
      refine ⟨{ forms := ⟨pforms, 0⟩, grams := pgrams }, ?_, ?_, fun h => h, ?_⟩
      · rw [Option.some.injEq, Prod.mk.injEq, Prod.mk.injEq]
        refine ⟨rfl, ?_, rfl⟩
        simp [fuzzyLay, hsort]
      · intro B hB; subst hB; exact ⟨rfl, B, rfl, rfl⟩
      · simp [fuzzyGrams]
    · intro h
      exact absurd ⟨⟨by simp, by simp, by simp, by simp [fuzzyGrams]⟩, by simp⟩ h
  by_cases hne : w = []
  · subst hne
    apply hnone
    · rw [hxs, List.map_nil, fuzzyLemmas]
      simp only [List.length_nil, List.flatMap_eq_nil_iff]
      intro n _
      rw [List.filterMap_eq_nil_iff]
      intro p _
      rw [if_neg]
      rintro ⟨h1, -⟩
      apply h1
      rw [List.eq_nil_iff_forall_not_mem]
      intro r hr
      obtain ⟨-, f, -, m, -, h3, -⟩ := FuzzyClass.refsAt_cls hr
      simp at h3
    · rw [fuzzyLemmatize, fuzzyCanonic]; rfl
  obtain ⟨s, h1, h2, h3, h4, h5⟩ := capGet_summary L.tab hT 256 w hne hlen (by decide) hparts
  have h6 := capGet_bad L.tab hT 256 w hne hlen hparts h1
  have hcan : fuzzyCanonic L w = some (some (w.map L.tab.lower, s)) := by
    rw [fuzzyCanonic, if_neg (by simpa using hne), h1]
  by_cases hbad : (s % 256 = 0xff && dwsets &&& sfIgnoreCapitals = 0) = true
  · have hbad' : s % 256 = 255 ∧ dwsets &&& sfIgnoreCapitals = 0 := by simpa using hbad
    apply hnone
    · rw [hxs, List.eq_nil_iff_forall_not_mem]
      intro x hx
      obtain ⟨c, -, hf, -⟩ := mem_fuzzyLemmas.1 hx
      rw [fuzzyFits, hbad'.2] at hf
      have := h6.1 hbad'.1
      by_cases hc : L.caps = true
      · rw [if_pos hc] at hf
        simp only [bne_self_eq_false, Bool.false_or, decide_eq_true_eq] at hf
        obtain ⟨ks, hks, -⟩ := hf
        rw [this] at hks; simp at hks
      · rw [if_neg hc, this] at hf; simp at hf
    · rw [fuzzyLemmatize, hcan]
      simp only [Option.bind_eq_bind, Option.bind_some]
      rw [if_neg h2, if_pos hbad]; rfl
  have hfit : ∀ c, fuzzyFits L w dwsets c = (dwsets &&& sfIgnoreCapitals != 0 || !L.caps || isGood (s % 65536) (pspMinCap c.partSp)) := by
    intro c
    rw [fuzzyFits]
    by_cases hi : dwsets &&& sfIgnoreCapitals = 0
    · have hsp : s % 256 ≠ 255 := by
        intro hc; apply hbad; simp [hc, hi]
      have hsome : (spelling L.tab w).isSome = true := by
        rw [Option.isSome_iff_ne_none]; exact fun hc => hsp (h6.2 hc)
      rw [hi]
      by_cases hc : L.caps = true
      · have := h4 (pspMinCap c.partSp) (pspMinCap_le _)
        simp only [hc, if_true, bne_self_eq_false, Bool.false_or, Bool.not_true]
        rw [Bool.eq_iff_iff, decide_eq_true_eq]
        exact this.symm
      · have hc' : L.caps = false := by simpa using hc
        simp [hc', hsome]
    · have hb : (dwsets &&& sfIgnoreCapitals != 0) = true := bne_iff_ne.2 hi
      simp only [hb, Bool.true_or]
  have hrunw := patScan_eq (fuzzyCall L (fuzzyImages cs t) R junk (w.map L.tab.lower) (s % 65536) dwsets) t ht b bf
    (w.map L.tab.lower).reverse { forms := ⟨pforms, 0⟩, grams := pgrams }
  rw [byLength_visits cs t hh, List.length_reverse, List.length_map] at hrunw
  have hlm : fuzzyLemmatize L (fuzzyImages cs t) R sort (b :: bf) junk w pstems pforms pgrams dwsets = (do
      let (r, s) ← runVisits (fuzzyCall L (fuzzyImages cs t) R junk (w.map L.tab.lower) (s % 65536) dwsets)
        (fuzzyVisits cs (w.map L.tab.lower)) { forms := ⟨pforms, 0⟩, grams := pgrams }
      match r with
      | some e => return (e, pstems, s)
      | none => return fuzzyFinish sort pstems s) := by
    rw [fuzzyLemmatize, hcan]
    simp only [Option.bind_eq_bind, Option.bind_some]
    rw [if_neg h2, if_neg hbad, h3, ← hrunw]
    rfl
  have hinv : FuzzyInv R L cs (w.map L.tab.lower) pforms pgrams [] ({ forms := ⟨pforms, 0⟩, grams := pgrams } : FuzzyState ω) := by
    refine ⟨by simp, rfl, by rintro rfl; rfl, ?_, by simp [fuzzyGrams], by simp [fuzzyGrams]⟩
    rintro B rfl
    exact ⟨rfl, by simp [fuzzyTexts], Or.inl ⟨rfl, rfl⟩⟩
  have hroom : FuzzyRoom L cs (w.map L.tab.lower) pforms pgrams [] := ⟨by simp, by simp, by simp, by simp [fuzzyGrams]⟩
  have hrun := fuzzyRun (R := R) hL hok (fuzzyLower_text hL hw) t (s % 65536) dwsets junk (fuzzyFits L w dwsets) hfit _
    (fun v hv => visitOk_of_mem hv) (by
      intro hp v hv hf hlt
      obtain ⟨x, hx, hx1, hx2⟩ := lemma_of_visit hv hf
      have := hj hp x (hxs ▸ hx)
      rw [hx1, hx2] at this
      exact this hlt) hinv hroom
  rw [fold_visits, ← hxs] at hrun
  rw [hlm]
  rcases hrun with ⟨s', k1, k2, k3⟩ | ⟨e, s', k1, k2, k3⟩
  · rw [k1]
    simp only [Option.bind_eq_bind, Option.bind_some]
    have hfin : fuzzyFinish sort pstems s' = (match pstems with
        | none => ((xs.length : Int), none, { s' with stems := closeLast s'.gcur s'.stems })
        | some out =>
          if xs.length > out.length then
            (LEMMBUFF_FAILED, some out, { s' with stems := closeLast s'.gcur s'.stems })
          else ((xs.length : Int), some (sort (closeLast s'.gcur s'.stems)
            ++ out.drop xs.length), { s' with stems := closeLast s'.gcur s'.stems })) := by
      have hl : (closeLast s'.gcur s'.stems).length = xs.length := by
        rw [k2.close, fuzzyLay_length]
      simp only [fuzzyFinish, hl]
      cases pstems <;> rfl
    have hforms : ∀ B, pforms = some B → s'.forms.pos = (fuzzyTexts L cs (w.map L.tab.lower) xs).length ∧
        ∃ tail, s'.forms.buf = some (fuzzyTexts L cs (w.map L.tab.lower) xs ++ tail) ∧
          (fuzzyTexts L cs (w.map L.tab.lower) xs ++ tail).length = B.length := by
      intro B hB
      have hh := k2.forms B hB
      obtain ⟨y, h1, h2, -⟩ := hh.mem
      exact ⟨hh.pos, y, h1, by have := hh.room; rw [List.length_append]; omega⟩
    rw [hfin, k2.close]
    constructor
    · rintro ⟨-, ho⟩
      cases pstems with
      | none => exact ⟨_, rfl, hforms, fun h => by simp [k2.forms0 h], k2.grams⟩
      | some out =>
        have := ho out rfl
        simp only
        rw [if_neg (by omega)]
        exact ⟨_, rfl, hforms, fun h => by simp [k2.forms0 h], k2.grams⟩
    · intro hn
      cases pstems with
      | none => exact absurd ⟨k3, by simp⟩ hn
      | some out =>
        simp only
        rw [if_pos]
        · exact ⟨_, _, rfl, by simp⟩
        · by_contra hc
          apply hn
          refine ⟨k3, ?_⟩
          intro o ho
          simp only [Option.some.injEq] at ho
          subst ho; omega
  · rw [k1]
    simp only [Option.bind_eq_bind, Option.bind_some]
    constructor
    · rintro ⟨h, -⟩; exact absurd h k3
    · rintro -; exact ⟨e, s', rfl, k2⟩

end Libmorph
