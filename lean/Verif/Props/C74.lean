import Verif.Props.C73
import Verif.Props.C50
/-
C74, C75: from the lexemes of a dictionary to the classes of the fuzzy analyser, and to what it says of words.
-/
namespace Libmorph
open Libmorph.Spec

/-- A lexeme goes with a class of the fuzzy analyser: the part of speech is that of the lexeme's class, all its endings are endings of
the class, and the two letters at the end of its stem are a model of the class. -/
structure GoesWith (c : LexClass) (C : FuzzyClass) : Prop where
  partSp : C.partSp = c.key.1
  accent : C.accent = c.suffix.accent
  endings : c.key.2.Sublist C.flexes
  same : c.key.1 ≠ 1 → c.key.2 = C.flexes
  model : ∃ mo ∈ C.models, mo.s0 = c.suffix.s0 ∧ mo.s1 = c.suffix.s1

/-- Lexemes with the two letters at the end of the stem. -/
def withLetters (s0 s1 : Byte) (cs : List (LexClass × Bool)) : List (LexClass × Bool) := cs.filter fun c => c.1.suffix.s0 = s0 ∧ c.1.suffix.s1 = s1

theorem sum_ones {α : Type} (l : List α) : (l.map fun _ => 1).sum = l.length := by simp

theorem letters_unique {ss : List ClassSample} (h : ss.Pairwise fun a b => a.suffix.Before b.suffix) {s : ClassSample} (hs : s ∈ ss) :
    (ss.filter fun t => t.suffix.s0 = s.suffix.s0 ∧ t.suffix.s1 = s.suffix.s1) = [s] := by
  induction ss with
  | nil => simp at hs
  | cons x xs ih =>
    rw [List.pairwise_cons] at h
    rcases List.mem_cons.1 hs with rfl | hs'
    · rw [List.filter_cons_of_pos (by simp), List.filter_eq_nil_iff.2]
      intro t ht
      have := h.1 t ht
      unfold ClassSuffix.Before at this
      rw [decide_eq_true_eq]
      omega
    · rw [List.filter_cons_of_neg, ih h.2 hs']
      have := h.1 s hs'
      unfold ClassSuffix.Before at this
      rw [decide_eq_true_eq]
      omega

theorem weight_of_mem {v : ClassVal} (h : v.charSet.Pairwise fun a b => a.suffix.Before b.suffix) {s : ClassSample} (hs : s ∈ v.charSet) :
    v.weight s.suffix.s0 s.suffix.s1 = s.mdProd := by
  rw [ClassVal.weight, letters_unique h hs]; simp

theorem GroupVal.weight_eq {cs : List (LexClass × Bool)} {v : ClassVal} (h : GroupVal cs v) (s0 s1 : Byte) :
    v.weight s0 s1 = (withLetters s0 s1 cs).length := by
  have hord : v.charSet.Pairwise fun a b => a.suffix.Before b.suffix := h.order
  unfold ClassVal.weight
  have h1 : ((v.charSet.filter fun s => s.suffix.s0 = s0 ∧ s.suffix.s1 = s1).map (·.mdProd))
      = ((v.charSet.filter fun s => s.suffix.s0 = s0 ∧ s.suffix.s1 = s1).map (·.suffix)).map
        fun u => (((withLetters s0 s1 cs).filter fun c => c.1.suffix = u).map fun _ => 1).sum := by
    rw [List.map_map]
    refine List.map_congr_left fun s hs => ?_
    rw [List.mem_filter, decide_eq_true_eq] at hs
    rw [((h.samples s).1 hs.1).2.1]
    simp only [Function.comp, withLetters, List.filter_filter]
    rw [sum_ones]
    congr 1
    refine List.filter_congr fun c _ => ?_
    by_cases hc : c.1.suffix = s.suffix
    · simp [hc, hs.2]
    · simp [hc]
  rw [h1, sum_groups]
  · simp
  · rw [List.Nodup, List.pairwise_map]
    exact (hord.sublist List.filter_sublist).imp fun h => h.ne
  · intro c hc
    rw [withLetters, List.mem_filter, decide_eq_true_eq] at hc
    have := (h.samples ⟨c.1.suffix, groupSample (cs.filter fun d => d.1.suffix = c.1.suffix), (cs.filter fun d => d.1.suffix = c.1.suffix).length⟩).2
      ⟨⟨c, hc.1, rfl⟩, rfl, rfl⟩
    exact List.mem_map.2 ⟨_, List.mem_filter.2 ⟨this, by simpa using hc.2⟩, rfl⟩

/-- How many lexemes have become the class. -/
theorem merged_weight {cs : List (LexClass × Bool)} {m m' : ClassMap} {φ : ClassKey → ClassKey} (hc : Collects cs m) (hm : Merged m m' φ)
    {e : ClassKey × ClassVal} (he : e ∈ m') (s0 s1 : Byte) :
    e.2.weight s0 s1 = ((withLetters s0 s1 cs).filter fun c => φ c.1.key = e.1).length := by
  rw [hm.weight e he s0 s1]
  have h1 : ((joined φ m e.1).map fun d => d.2.weight s0 s1)
      = ((joined φ m e.1).map (·.1)).map fun k => ((((withLetters s0 s1 cs).filter fun c => φ c.1.key = e.1).filter fun c => c.1.key = k).map fun _ => 1).sum := by
    rw [List.map_map]
    refine List.map_congr_left fun d hd => ?_
    rw [joined, List.mem_filter, decide_eq_true_eq] at hd
    rw [(hc.vals d hd.1).weight_eq]
    simp only [Function.comp, withLetters, List.filter_filter]
    rw [sum_ones]
    congr 1
    refine List.filter_congr fun c _ => ?_
    by_cases hk : c.1.key = d.1
    · simp [hk, hd.2]
    · simp [hk]
  rw [h1, sum_groups]
  · simp
  · exact hc.once.sublist (List.filter_sublist.map _)
  · intro c hc'
    rw [List.mem_filter, decide_eq_true_eq, withLetters, List.mem_filter] at hc'
    obtain ⟨d, hd, h2⟩ := List.mem_map.1 ((hc.keys c.1.key).2 ⟨c, hc'.1.1, rfl⟩)
    exact List.mem_map.2 ⟨d, List.mem_filter.2 ⟨hd, by simp [h2, hc'.2]⟩, h2⟩

theorem merged_count {cs : List (LexClass × Bool)} {m m' : ClassMap} {φ : ClassKey → ClassKey} (hc : Collects cs m) (hm : Merged m m' φ)
    {e : ClassKey × ClassVal} (he : e ∈ m') : e.2.modProd = (cs.filter fun c => φ c.1.key = e.1).length := by
  rw [hm.count e he]
  have h1 : ((joined φ m e.1).map fun d => d.2.modProd)
      = ((joined φ m e.1).map (·.1)).map fun k => (((cs.filter fun c => φ c.1.key = e.1).filter fun c => c.1.key = k).map fun _ => 1).sum := by
    rw [List.map_map]
    refine List.map_congr_left fun d hd => ?_
    rw [joined, List.mem_filter, decide_eq_true_eq] at hd
    rw [(hc.vals d hd.1).count]
    simp only [Function.comp, List.filter_filter]
    rw [sum_ones]
    congr 1
    refine List.filter_congr fun c _ => ?_
    by_cases hk : c.1.key = d.1
    · simp [hk, hd.2]
    · simp [hk]
  rw [h1, sum_groups]
  · simp
  · exact hc.once.sublist (List.filter_sublist.map _)
  · intro c hc'
    rw [List.mem_filter, decide_eq_true_eq] at hc'
    obtain ⟨d, hd, h2⟩ := List.mem_map.1 ((hc.keys c.1.key).2 ⟨c, hc'.1, rfl⟩)
    exact List.mem_map.2 ⟨d, List.mem_filter.2 ⟨hd, by simp [h2, hc'.2]⟩, h2⟩

/-- A lexeme goes with the class its class has become. -/
theorem goesWith_merged {cs : List (LexClass × Bool)} {m m' : ClassMap} {φ : ClassKey → ClassKey} (hc : Collects cs m) (hm : Merged m m' φ) {c : LexClass × Bool}
    (hcs : c ∈ cs) {e : ClassKey × ClassVal} (he : e ∈ m') (hk : φ c.1.key = e.1) : GoesWith c.1 (toFuzzy e) := by
  have hkey := (hc.keys c.1.key).2 ⟨c, hcs, rfl⟩
  obtain ⟨h1, h2, h3⟩ := hm.into _ hkey
  obtain ⟨d, hd, h4⟩ := List.mem_map.1 hkey
  have hdj : d ∈ joined φ m e.1 := List.mem_filter.2 ⟨hd, by simp [h4, hk]⟩
  rw [hk] at h1 h2 h3
  refine ⟨h2, ?_, h3, ?_, ?_⟩
  · show e.2.schemeB = _
    rw [← hm.accent e he d hdj, (hc.vals d hd).accent c (List.mem_filter.2 ⟨hcs, by simp [h4]⟩)]
  · intro hne
    have hself : c.1.key ∈ m'.map (·.1) := by
      have : d ∈ m' := (hm.others d (by rw [h4]; exact hne)).2 hd
      exact List.mem_map.2 ⟨d, this, h4⟩
    have := (hm.kept _ hself).2
    rw [hk] at this
    show _ = e.1.2
    rw [this]
  · have hw := merged_weight hc hm he c.1.suffix.s0 c.1.suffix.s1
    have hpos : 0 < ((withLetters c.1.suffix.s0 c.1.suffix.s1 cs).filter fun c => φ c.1.key = e.1).length := by
      refine List.length_pos_of_mem (a := c) (List.mem_filter.2 ⟨List.mem_filter.2 ⟨hcs, by simp⟩, by simpa using hk⟩)
    rw [← hw, ClassVal.weight] at hpos
    cases hf : e.2.charSet.filter fun s => s.suffix.s0 = c.1.suffix.s0 ∧ s.suffix.s1 = c.1.suffix.s1 with
    | nil => rw [hf] at hpos; simp at hpos
    | cons s ss =>
      have hs : s ∈ e.2.charSet.filter fun s => s.suffix.s0 = c.1.suffix.s0 ∧ s.suffix.s1 = c.1.suffix.s1 := by rw [hf]; simp
      rw [List.mem_filter, decide_eq_true_eq] at hs
      exact ⟨⟨s.suffix.s0, s.suffix.s1, s.mdProd, s.sample⟩, List.mem_map.2 ⟨s, hs.1, rfl⟩, hs.2⟩

/-- **C74** the tool as a whole: when the lexemes have classes without a clash of accents, it prints classes such that -/
structure Made (cs : List (LexClass × Bool)) (sort : ClassMap → ClassMap) (out : List FuzzyClass) (m m' : ClassMap) (φ : ClassKey → ClassKey) : Prop where
  collected : Collects cs m
  merged : Merged m m' φ
  printed : out = (printedClasses sort m').map toFuzzy
  beginning : ∃ rest, sort m' = printedClasses sort m' ++ rest ∧ 20 * mapWeight (printedClasses sort m') ≤ 19 * cs.length ∧
    ∀ c, c ∈ rest.head? → 19 * cs.length < 20 * mapWeight (printedClasses sort m' ++ [c])

theorem collects_total {cs : List (LexClass × Bool)} {m : ClassMap} (hc : Collects cs m) : mapWeight m = cs.length := by
  unfold mapWeight
  have h1 : (m.map fun e => e.2.modProd) = (m.map (·.1)).map fun k => ((cs.filter fun c => c.1.key = k).map fun _ => 1).sum := by
    rw [List.map_map]
    refine List.map_congr_left fun e he => ?_
    rw [(hc.vals e he).count]; simp
  rw [h1, sum_groups _ hc.once]
  · simp
  · exact fun c hc' => (hc.keys _).2 ⟨c, hc', rfl⟩

theorem C74_made {T : ClassTool} (hT : T = rusTool ∨ T = engTool) {low : Byte → Byte} {M : Morpho} {buffer : List Byte} {sel ban : Nat → Bool}
    {limits : List (Nat × Nat)} {cs : List (LexClass × Bool)} (ht : TakenAs T low M buffer sel ban (limitIds limits) cs) (hno : ¬ AccentsClash cs)
    (sort : ClassMap → ClassMap) (hsort : ∀ m, (sort m).Perm m) :
    ∃ out m m' φ, makeClasses T low M buffer sel ban sort limits = .done out ∧ Made cs sort out m m' φ := by
  obtain ⟨m, h1, h2⟩ := (C71_collects T low M buffer sel ban _ cs ht).2 hno
  obtain ⟨m', φ, h3, h4, -⟩ := C72_merges m (C72_collected hT ht h2)
  obtain ⟨rest, h5, h6, h7⟩ := C73_selection sort m' (C73_positive h2 h4).2 (hsort m')
  have hw : mapWeight m' = cs.length := (C72_total m m' φ h4).trans (collects_total h2)
  rw [hw] at h6 h7
  exact ⟨_, m, m', φ, by rw [makeClasses, h1]; simp only [Ran.bind]; rw [h3], h2, h4, rfl, rest, h5, h6, h7⟩

/-- **C74** every printed class is that of lexemes of the dictionary: its models are pairs of letters at the end of stems of such
lexemes, with their number, the sample of a model is the sample of one of them. -/
theorem C74_modelled {cs : List (LexClass × Bool)} {sort : ClassMap → ClassMap} (hsort : ∀ m, (sort m).Perm m) {out : List FuzzyClass} {m m' : ClassMap}
    {φ : ClassKey → ClassKey} (h : Made cs sort out m m' φ) (C : FuzzyClass) (hC : C ∈ out) :
    ∃ k, C.partSp = k.1 ∧ C.flexes = k.2 ∧ (∀ c ∈ cs, φ c.1.key = k → GoesWith c.1 C) ∧
      ∀ mo ∈ C.models, mo.weight = ((withLetters mo.s0 mo.s1 cs).filter fun c => φ c.1.key = k).length ∧
        ∃ c ∈ cs, φ c.1.key = k ∧ c.1.suffix.s0 = mo.s0 ∧ c.1.suffix.s1 = mo.s1 ∧ c.1.sample = mo.sample := by
  rw [h.printed] at hC
  obtain ⟨e, he, rfl⟩ := List.mem_map.1 hC
  have he' : e ∈ m' := by
    obtain ⟨rest, h1, -⟩ := h.beginning
    exact (hsort m').mem_iff.1 (by rw [h1]; simp [he])
  refine ⟨e.1, rfl, rfl, fun c hc hk => goesWith_merged h.collected h.merged hc he' hk, ?_⟩
  intro mo hmo
  obtain ⟨s, hs, rfl⟩ := List.mem_map.1 hmo
  refine ⟨?_, ?_⟩
  · simp only
    rw [← merged_weight h.collected h.merged he', weight_of_mem (h.merged.order e he') hs]
  · obtain ⟨d, hd, t, ht, h1, h2⟩ := h.merged.samples e he' s hs
    rw [joined, List.mem_filter, decide_eq_true_eq] at hd
    obtain ⟨⟨c, hc, h3⟩, h4, h5⟩ := ((h.collected.vals d hd.1).samples t).1 ht
    -- the sample of a group is that of a member
    have hgs : ∀ l : List (LexClass × Bool), l ≠ [] → ∃ c ∈ l, groupSample l = c.1.sample := by
      intro l hl
      unfold groupSample
      split
      · rename_i x hx
        have := List.mem_of_getLast? hx
        exact ⟨x, (List.mem_filter.1 this).1, rfl⟩
      · obtain ⟨x, xs, rfl⟩ := List.exists_cons_of_ne_nil hl
        exact ⟨x, by simp, rfl⟩
    obtain ⟨c', hc', h6⟩ := hgs ((cs.filter fun c => c.1.key = d.1).filter fun c => c.1.suffix = t.suffix) (List.ne_nil_of_mem (List.mem_filter.2 ⟨hc, by simpa using h3⟩))
    rw [List.mem_filter, decide_eq_true_eq, List.mem_filter, decide_eq_true_eq] at hc'
    refine ⟨c', hc'.1.1, by rw [hc'.1.2]; exact hd.2, ?_, ?_, ?_⟩
    · rw [hc'.2, h1]
    · rw [hc'.2, h1]
    · rw [← h6, ← h5, h2]

/-- **C74** most lexemes go with a printed class: those that do not, and the next class with them, are more than 5 %. -/
theorem C74_share {cs : List (LexClass × Bool)} {sort : ClassMap → ClassMap} (hsort : ∀ m, (sort m).Perm m) {out : List FuzzyClass} {m m' : ClassMap}
    {φ : ClassKey → ClassKey} (h : Made cs sort out m m' φ) :
    ∃ yes no : List (LexClass × Bool), (yes ++ no).Perm cs ∧ (∀ c ∈ yes, ∃ C ∈ out, GoesWith c.1 C) ∧ 20 * yes.length ≤ 19 * cs.length ∧
      ((∃ e ∈ m', e ∉ printedClasses sort m') → ∃ e ∈ m', 19 * cs.length < 20 * (yes.length + e.2.modProd)) := by
  obtain ⟨rest, h1, h2, h3⟩ := h.beginning
  have hin : ∀ e ∈ printedClasses sort m', e ∈ m' := fun e he => (hsort m').mem_iff.1 (by rw [h1]; simp [he])
  have hnd : ((printedClasses sort m').map (·.1)).Nodup := by
    have h4 : ((sort m').map (·.1)).Nodup := ((hsort m').map (·.1)).nodup_iff.2 h.merged.once
    rw [h1, List.map_append] at h4
    exact (List.nodup_append.1 h4).1
  have hlen : mapWeight (printedClasses sort m') = (cs.filter fun c => φ c.1.key ∈ (printedClasses sort m').map (·.1)).length := by
    unfold mapWeight
    have h4 : ((printedClasses sort m').map fun e => e.2.modProd) = ((printedClasses sort m').map (·.1)).map
        fun k => (((cs.filter fun c => φ c.1.key ∈ (printedClasses sort m').map (·.1)).filter fun c => φ c.1.key = k).map fun _ => 1).sum := by
      rw [List.map_map]
      refine List.map_congr_left fun e he => ?_
      rw [merged_count h.collected h.merged (hin e he)]
      simp only [Function.comp, List.filter_filter]
      rw [sum_ones]
      congr 1
      refine List.filter_congr fun c _ => ?_
      by_cases hk : φ c.1.key = e.1
      · have : e.1 ∈ (printedClasses sort m').map (·.1) := List.mem_map.2 ⟨e, he, rfl⟩
        simp only [hk, this, decide_true, Bool.and_self]
      · simp only [hk, decide_false, Bool.false_and]
    rw [h4, sum_groups _ hnd]
    · simp
    · intro c hc
      rw [List.mem_filter, decide_eq_true_eq] at hc
      exact hc.2
  refine ⟨cs.filter fun c => φ c.1.key ∈ (printedClasses sort m').map (·.1), cs.filter fun c => !decide (φ c.1.key ∈ (printedClasses sort m').map (·.1)),
    List.filter_append_perm _ _, ?_, by rw [← hlen]; exact h2, ?_⟩
  · intro c hc
    rw [List.mem_filter, decide_eq_true_eq] at hc
    obtain ⟨e, he, h4⟩ := List.mem_map.1 hc.2
    exact ⟨toFuzzy e, by rw [h.printed]; exact List.mem_map.2 ⟨e, he, rfl⟩, goesWith_merged h.collected h.merged hc.1 (hin e he) h4.symm⟩
  · rintro ⟨e, he, hno⟩
    have he' : e ∈ sort m' := (hsort m').mem_iff.2 he
    rw [h1] at he'
    cases rest with
    | nil => rw [List.append_nil] at he'; exact absurd he' hno
    | cons d rest =>
      refine ⟨d, (hsort m').mem_iff.1 (by rw [h1]; simp), ?_⟩
      have := h3 d (by simp)
      rw [← hlen]
      simpa [mapWeight] using this

/-! ### C75 -/

/-- **C75** the words of a lexeme that goes with class number `i`: every form that went into the class is found again, with its number,
the stem and the class. -/
theorem C75_own_words {out : List FuzzyClass} {c : LexClass} {i : Nat} {C : FuzzyClass} (hi : out[i]? = some C) (hg : GoesWith c C) {W : List MForm}
    {stem : List Byte} (hcl : ClassIs W stem c.key.2) (hst : ∃ q, stem = q ++ [c.suffix.s0, c.suffix.s1]) (fits : FuzzyClass → Bool) (hf : fits C = true)
    (f : MForm) (hfW : f ∈ W) :
    ∃ x ∈ fuzzyLemmas fits out f.2, x.cls = i ∧ x.ccstem = stem.length ∧ f.2.take x.ccstem = stem ∧ ∃ r ∈ x.refs, r.form = f.1 := by
  obtain ⟨e, he, hfe⟩ := List.mem_map.1 (hcl.forms.mem_iff.2 hfW)
  obtain ⟨q, rfl⟩ := hst
  obtain ⟨mo, hmo, h0, h1⟩ := hg.model
  subst hfe
  obtain ⟨x, hx, h2, h3⟩ := (C39_lemma_iff fits out (q ++ [c.suffix.s0, c.suffix.s1] ++ e.2) i (q.length + 2)).2
    ⟨C, hi, hf, e, hg.endings.subset he, mo, hmo, q, by rw [h0, h1], rfl⟩
  refine ⟨x, hx, h2, by rw [h3]; simp, ?_, ⟨i, mo.weight, e.1⟩, ?_, rfl⟩
  · rw [h3]
    exact List.take_left' (by simp)
  · rw [C39_refs fits out _ x hx]
    exact ⟨h2.symm, C, by rw [h2]; exact hi, e, hg.endings.subset he, mo, hmo, q, by rw [h0, h1], h3, rfl, rfl⟩

/-- **C75** nothing is guessed without a model: every lemma of every word, in every description, is formed like lexemes of the
dictionary with the same two letters at the end of the stem; there are as many of them as the weight says. -/
theorem C75_guesses {cs : List (LexClass × Bool)} {sort : ClassMap → ClassMap} (hsort : ∀ m, (sort m).Perm m) {out : List FuzzyClass} {m m' : ClassMap}
    {φ : ClassKey → ClassKey} (h : Made cs sort out m m' φ) (fits : FuzzyClass → Bool) (w : List Byte) (x : FuzzyLemma) (hx : x ∈ fuzzyLemmas fits out w)
    (r : FuzzyRef) (hr : r ∈ x.refs) :
    ∃ C q s0 s1 e, out[x.cls]? = some C ∧ w = q ++ [s0, s1] ++ e ∧ x.ccstem = q.length + 2 ∧ (r.form, e) ∈ C.flexes ∧
      ∃ like : List (LexClass × Bool), like.Sublist cs ∧ r.power = like.length ∧ like ≠ [] ∧
        ∀ c ∈ like, GoesWith c.1 C ∧ c.1.suffix.s0 = s0 ∧ c.1.suffix.s1 = s1 := by
  obtain ⟨-, C, hC, f, hf, mo, hmo, p, h1, h2, h3, h4⟩ := (C39_refs fits out w x hx r).1 hr
  obtain ⟨k, -, -, h5, h6⟩ := C74_modelled hsort h C (List.mem_of_getElem? hC)
  obtain ⟨h7, c, hc, h8, h9, h10, -⟩ := h6 mo hmo
  refine ⟨C, p, mo.s0, mo.s1, f.2, hC, h1, h2, by rw [h4]; exact hf, (withLetters mo.s0 mo.s1 cs).filter fun c => φ c.1.key = k, ?_, by rw [h3, h7], ?_, ?_⟩
  · exact List.filter_sublist.trans List.filter_sublist
  · exact List.ne_nil_of_mem (a := c) (List.mem_filter.2 ⟨List.mem_filter.2 ⟨hc, by simp [h9, h10]⟩, by simpa using h8⟩)
  · intro d hd
    rw [List.mem_filter, decide_eq_true_eq, withLetters, List.mem_filter, decide_eq_true_eq] at hd
    exact ⟨h5 d hd.1.1 hd.2, hd.1.2⟩

/-- **C75** the analyser itself: a word that is -- small letters -- a form of a lexeme that goes with class `i` of the description; among
the lemmas Lemmatize reports is that with the stem of the lexeme and the class `i`.  Missing for more: the limits of `C39_report_partial`. -/
theorem C75_said_partial {ω : Type} [LinearOrder ω] (R : FuzzyRank ω) (L : FuzzyLang) (hL : L = rusFuzzy ∨ L = engFuzzy)
    (cs : List FuzzyClass) (hok : FuzzyOk R L cs) (t : PTree) (ht : t.WF) (hh : t.Holds (fuzzyMap cs))
    {c : LexClass} {i : Nat} {C : FuzzyClass} (hi : cs[i]? = some C) (hg : GoesWith c C) {W : List MForm}
    {stem : List Byte} (hcl : ClassIs W stem c.key.2) (hst : ∃ q, stem = q ++ [c.suffix.s0, c.suffix.s1])
    (w : List Byte) (n : Nat) (hfW : (n, w.map L.tab.lower) ∈ W)
    (hw : Text w) (hlen : w.length < 256) (hparts : (wordParts L.tab w).length ≤ 8)
    (sort : List (FuzzyStem ω) → List (FuzzyStem ω))
    (hsort : ∀ l, (sort l).Perm l ∧ (sort l).Pairwise fun a b => b.weight ≤ a.weight)
    (b : Byte) (bf junk : List Byte) (out : List (FuzzyStem ω)) (pforms : Option (List Byte)) (pgrams : Option (List Gram))
    (dwsets : Nat) (hf : fuzzyFits L w dwsets C = true) (xs : List FuzzyLemma) (hxs : xs = fuzzyLemmas (fuzzyFits L w dwsets) cs (w.map L.tab.lower))
    (hj : pforms.isSome → ∀ x ∈ xs, FuzzyStops L junk (x.ccstem + (classOf cs x.cls).normal.length))
    (hroom : FuzzyRoom L cs (w.map L.tab.lower) pforms pgrams xs) (hout : xs.length ≤ out.length) :
    ∃ stems st, fuzzyLemmatize L (fuzzyImages cs t) R sort (b :: bf) junk w (some out) pforms pgrams dwsets =
        some ((xs.length : Int), some (stems ++ out.drop xs.length), st) ∧
      ∃ s ∈ stems, ∃ x, FuzzySays R L cs (w.map L.tab.lower) st.forms.buf st.grams s x ∧ x.cls = i ∧
        (w.map L.tab.lower).take x.ccstem = stem ∧ ∃ r ∈ x.refs, r.form = n := by
  obtain ⟨stems, st, h1, -, -, ⟨xs', hp, h2⟩, -⟩ := C39_report_partial R L hL cs hok t ht hh w hw hlen hparts sort hsort b bf junk out pforms pgrams dwsets
    xs hxs hj hroom hout
  obtain ⟨x, hx, h3, -, h5, h6⟩ := C75_own_words hi hg hcl hst (fuzzyFits L w dwsets) hf (n, w.map L.tab.lower) hfW
  have hx' : x ∈ xs' := hp.mem_iff.2 (by rw [hxs]; exact hx)
  obtain ⟨s, hs, h7⟩ : ∃ s ∈ stems, FuzzySays R L cs (w.map L.tab.lower) st.forms.buf st.grams s x := by
    clear h1 hp
    induction h2 with
    | nil => simp at hx'
    | cons h _ ih =>
      rcases List.mem_cons.1 hx' with rfl | hx'
      · exact ⟨_, by simp, h⟩
      · obtain ⟨s, hs, h⟩ := ih hx'
        exact ⟨s, by simp [hs], h⟩
  exact ⟨stems, st, h1, s, hs, x, h7, h3, h5, h6⟩

/-- **C75** BuildForm of the fuzzy analyser for the stem of a lexeme (other than verbs, whose class may have more forms) and its class: for every
number the forms the lexeme has in the dictionary, in the capitalization of the class. -/
theorem C75_forms_partial {ω : Type} (R : FuzzyRank ω) (L : FuzzyLang) (hL : L = rusFuzzy ∨ L = engFuzzy) (cs : List FuzzyClass)
    (hok : FuzzyOk R L cs) (t : PTree) {c : LexClass} {i : Nat} {C : FuzzyClass} (hi : cs[i]? = some C) (hg : GoesWith c C) (hne1 : c.key.1 ≠ 1)
    {W : List MForm} {stem : List Byte} (hcl : ClassIs W stem c.key.2) (hw : Text stem) (hne : stem ≠ [])
    (hlow : stem.map L.tab.lower = stem)
    (hlen : stem.length < 256) (hparts : (wordParts L.tab stem).length ≤ 8) (junk B : List Byte) (hB : B ≠ []) (n : Nat)
    (hj : ∀ e ∈ C.endings n, stem.length + e.length ≤ 64 → FuzzyStops L junk (stem.length + e.length)) :
    ∃ fs, fs.Perm ((W.filter (·.1 = n)).map fun f => L.printed (pspMinCap c.key.1) f.2) ∧
      (((∀ f ∈ W, f.1 = n → f.2.length ≤ 64) ∧ (fs ≠ [] → (zeroed fs).length < B.length)) →
        ∃ tail, fuzzyBuildForm L (fuzzyImages cs t) junk (some B) stem i n = some ((fs.length : Int), some (zeroed fs ++ tail)) ∧
          (zeroed fs ++ tail).length = B.length) := by
  have hs : (C.flexes.map (·.1)).Pairwise (· ≤ ·) := by
    rw [← hg.same hne1, List.pairwise_map]
    exact hcl.order.imp fun h => by omega
  have hperm : ((C.flexes.filter (·.1 = n)).map fun f => L.printed (pspMinCap C.partSp) (stem.map L.tab.lower ++ f.2)).Perm
      ((W.filter (·.1 = n)).map fun f => L.printed (pspMinCap c.key.1) f.2) := by
    rw [hlow, hg.partSp, ← hg.same hne1]
    have h1 := (hcl.forms.filter (fun f : MForm => decide (f.1 = n))).map fun f => L.printed (pspMinCap c.key.1) f.2
    rw [List.filter_map, List.map_map] at h1
    exact h1
  refine ⟨_, hperm, fun hr => (C50_forms_partial R L hL cs hok t stem hw hne hlen hparts junk B hB i C hi hs n _ rfl hj).1 ⟨?_, hr.2⟩⟩
  intro e he
  obtain ⟨g, hg', rfl⟩ := List.mem_map.1 he
  rw [List.mem_filter, decide_eq_true_eq, ← hg.same hne1] at hg'
  have := hr.1 (g.1, stem ++ g.2) (hcl.forms.mem_iff.1 (List.mem_map.2 ⟨g, hg'.1, rfl⟩)) hg'.2
  simpa using this

end Libmorph
