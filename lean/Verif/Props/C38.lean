import Verif.Lemmas.FuzzyApi
import Verif.Lemmas.FuzzyForms
import Verif.Lemmas.FuzzyTree
import Verif.Spec.FuzzySample
/-! C38, C39, C50, C51, C52 — the fuzzy analysers. -/
namespace Libmorph

variable {ω : Type}

/-! ### C38: lookup by word ending -/

/-- C38.  Whatever the collector does, the scan of the reverse dictionary compiled from the source classes calls it with
exactly the list of models and endings that explain an end of the word, in this order, until it stops.  (`b` is the byte
before the array with the word: the scan may read it, see `C38_reads_before`; what it is does not matter.) -/
theorem C38_visits_partial {σ : Type} (cs : List FuzzyClass) (t : PTree) (ht : t.WF) (hh : t.Holds (fuzzyMap cs)) (w : List Byte)
    (b : Byte) (bf : List Byte) (call : FuzzyCall σ) (s : σ) :
    patScan call (fuzzyImages cs t).reverse (w.reverse ++ b :: bf) w.length s = runVisits call (fuzzyVisits cs w) s := by
  have := patScan_eq call t ht b bf w.reverse s
  rw [List.length_reverse, byLength_visits cs t hh w] at this
  exact this

theorem runVisits_collect (vs : List (Nat × FuzzyRef)) (l : List (Nat × FuzzyRef)) :
    runVisits (fun n r s => some (none, s ++ [(n, r)])) vs l = some (none, l ++ vs) := by
  induction vs generalizing l with
  | nil => simp [runVisits]
  | cons v vs ih =>
    rw [runVisits]
    simp only [Option.bind_eq_bind, Option.bind_some]
    rw [ih]; simp

/-- C38.  Exactly the stored models that are a suffix of the word: the collected visits are the references `r` for which a
class, an ending of it and a model of it are such that the word ends with the two letters of the model and the ending. -/
theorem C38_exact_partial (cs : List FuzzyClass) (t : PTree) (ht : t.WF) (hh : t.Holds (fuzzyMap cs)) (w : List Byte)
    (b : Byte) (bf : List Byte) :
    ∃ vs, patScan (fun n r s => some (none, s ++ [(n, r)])) (fuzzyImages cs t).reverse (w.reverse ++ b :: bf) w.length
        ([] : List (Nat × FuzzyRef)) = some (none, vs) ∧
      (∀ n r, (n, r) ∈ vs ↔ ∃ c, cs[r.cls]? = some c ∧ ∃ f ∈ c.flexes, ∃ m ∈ c.models, ∃ p,
        w = p ++ ([m.s0, m.s1] ++ f.2) ∧ n = p.length ∧ r.power = m.weight ∧ r.form = f.1) ∧
      (vs.map (·.1)).Pairwise (· ≥ ·) := by
  refine ⟨fuzzyVisits cs w, ?_, fun n r => mem_fuzzyVisits, ?_⟩
  · rw [C38_visits_partial cs t ht hh, runVisits_collect]; simp
  · have key : ∀ k, ((List.range k).map fun n => w.length - n).Pairwise (· ≥ ·) := by
      intro k
      refine List.Pairwise.map _ (fun a b hab => ?_) List.pairwise_lt_range
      simp only [ge_iff_le]; omega
    have hpw : ∀ ns : List Nat, (ns.map fun n => w.length - n).Pairwise (· ≥ ·) →
        ((ns.flatMap fun n => (fuzzyRefsAt cs (w.drop (w.length - n))).map fun r => (w.length - n, r)).map (·.1)).Pairwise (· ≥ ·) := by
      intro ns
      induction ns with
      | nil => simp
      | cons n ns ih =>
        intro h
        rw [List.map_cons, List.pairwise_cons] at h
        rw [List.flatMap_cons, List.map_append, List.pairwise_append]
        refine ⟨?_, ih h.2, ?_⟩
        · rw [List.map_map]
          refine List.pairwise_of_forall_mem_list ?_
          intro a ha a' ha'
          simp only [List.mem_map, Function.comp] at ha ha'
          obtain ⟨_, _, rfl⟩ := ha
          obtain ⟨_, _, rfl⟩ := ha'
          exact Nat.le_refl _
        · intro a ha a' ha'
          simp only [List.mem_map, List.mem_flatMap] at ha ha'
          obtain ⟨_, ⟨_, _, rfl⟩, rfl⟩ := ha
          obtain ⟨_, ⟨n', hn', _, _, rfl⟩, rfl⟩ := ha'
          exact h.1 _ (List.mem_map_of_mem hn')
    exact hpw _ (key _)

/-- Every visit with multiplicity: the number of times a reference comes up is the number of pairs (ending, model) of its
class that explain the word that way. -/
theorem C38_once (cs : List FuzzyClass) (w : List Byte) (n : Nat) (hn : n ≤ w.length) :
    ((fuzzyVisits cs w).filter (·.1 = n)).map (·.2) = fuzzyRefsAt cs (w.drop n) := by
  have key : ∀ ns : List Nat, ns.Nodup → (∀ m ∈ ns, m ≤ w.length) →
      ((ns.flatMap fun m => (fuzzyRefsAt cs (w.drop (w.length - m))).map fun r => (w.length - m, r)).filter (·.1 = n)).map (·.2) =
        if w.length - n ∈ ns then fuzzyRefsAt cs (w.drop n) else [] := by
    intro ns
    induction ns with
    | nil => simp
    | cons m ns ih =>
      intro h1 h2
      rw [List.nodup_cons] at h1
      rw [List.flatMap_cons, List.filter_append, List.map_append, ih h1.2 (fun x hx => h2 x (List.mem_cons_of_mem _ hx))]
      have hm := h2 m (by simp)
      by_cases e : w.length - n = m
      · have e' : w.length - m = n := by omega
        subst e
        rw [if_neg h1.1, List.append_nil, if_pos (by simp), List.filter_eq_self.2, List.map_map]
        · simp [e', Function.comp_def]
        · intro a ha
          obtain ⟨_, _, rfl⟩ := List.mem_map.1 ha
          simpa using e'
      · have e' : w.length - m ≠ n := by omega
        rw [List.filter_eq_nil_iff.2, List.map_nil, List.nil_append]
        · simp [e]
        · intro a ha
          obtain ⟨_, _, rfl⟩ := List.mem_map.1 ha
          simpa using e'
  rw [fuzzyVisits, key _ List.nodup_range (by intro m hm; simp at hm; omega), if_pos (by simp; omega)]

/-! The sample meets the hypotheses. -/

instance : DecidablePred FuzzyRef.Small := fun r => inferInstanceAs (Decidable (_ ∧ _))

theorem fuzzySample_wf : fuzzySampleTree.WF := by
  have h1 : (FuzzyRef.mk 1 300 1).Small ∧ (FuzzyRef.mk 0 40 1).Small ∧ (FuzzyRef.mk 0 100 1).Small ∧ (FuzzyRef.mk 1 300 0).Small ∧
    (FuzzyRef.mk 0 40 7).Small ∧ (FuzzyRef.mk 0 100 7).Small ∧ (FuzzyRef.mk 0 40 0).Small ∧ (FuzzyRef.mk 0 100 0).Small := by decide
  simp only [fuzzySampleTree, PTree.WF, PTree.WFs, PTree.key]
  obtain ⟨a1, a2, a3, a4, a5, a6, a7, a8⟩ := h1
  simp_all
  decide +kernel

theorem fuzzySample_holds : fuzzySampleTree.Holds (fuzzyMap fuzzySample) := by
  intro k
  have hk : fuzzySampleTree.Keyed := by
    simp [fuzzySampleTree, PTree.Keyed, PTree.Keyeds, PTree.key]
  rw [PTree.get_entries _ hk]
  exact lookup_ext (by decide +kernel) k

/-- "столов": the class of surnames by -ов, then the class of nouns by -ол and the ending -ов. -/
example : patScan (fun n r s => some (none, s ++ [(n, r)])) (fuzzyImages fuzzySample fuzzySampleTree).reverse
    ((stolov.map rusTab.lower).reverse ++ [77]) 6 ([] : List (Nat × FuzzyRef))
      = some (none, [(4, ⟨1, 300, 0⟩), (2, ⟨0, 40, 7⟩)]) := by decide +kernel

/-- The byte before the array is read, when the whole word is an ending that can be continued: "ов". -/
theorem C38_reads_before :
    patScan (fun n r s => some (none, s ++ [(n, r)])) (fuzzyImages fuzzySample fuzzySampleTree).reverse
      ([238, 226] : List Byte).reverse 2 ([] : List (Nat × FuzzyRef)) = none ∧
    (∀ b, patScan (fun n r s => some (none, s ++ [(n, r)])) (fuzzyImages fuzzySample fuzzySampleTree).reverse
      (([238, 226] : List Byte).reverse ++ [b]) 2 ([] : List (Nat × FuzzyRef)) = some (none, [(0, ⟨1, 300, 0⟩)])) := by
  refine ⟨by decide +kernel, fun b => ?_⟩
  have h := C38_visits_partial fuzzySample fuzzySampleTree fuzzySample_wf fuzzySample_holds [238, 226] b []
    (fun n r s => some (none, s ++ [(n, r)])) ([] : List (Nat × FuzzyRef))
  rw [runVisits_collect] at h
  exact h.trans (by decide +kernel)

/-! ### C39: the lemmas -/

/-- What a reported stem says of the lemma `x`: the length of the stem, the class and the weight; its text, with a zero, in
the buffer `B` where the pointer shows; its descriptions in the buffer `G` where the pointer shows.  Without a buffer the
pointer is null. -/
structure FuzzySays (R : FuzzyRank ω) (L : FuzzyLang) (cs : List FuzzyClass) (w : List Byte) (B : Option (List Byte))
    (G : Option (List Gram)) (s : FuzzyStem ω) (x : FuzzyLemma) : Prop where
  ccstem : s.ccstem = x.ccstem
  nclass : s.nclass = x.cls
  weight : s.weight = fuzzyWeight R cs w x
  text : ∀ b, B = some b → ∃ o, s.plemma = some o ∧ fuzzyText L cs w x ++ [0] <+: b.drop o
  grams : ∀ g, G = some g → ∃ o, s.pgrams = some o ∧ s.ngrams = x.refs.length ∧
    o + s.ngrams ≤ g.length ∧ (g.drop o).take s.ngrams = x.refs.map fun r => ⟨(classOf cs x.cls).partSp, r.form, 0, 0⟩
  noText : B = none → s.plemma = none
  noGrams : G = none → s.pgrams = none ∧ s.ngrams = 0

theorem fuzzyLay_says (R : FuzzyRank ω) (L : FuzzyLang) (cs : List FuzzyClass) (w : List Byte) (B : Option (List Byte))
    (G : Option (List Gram)) (xs : List FuzzyLemma) : ∀ (x y : List Byte) (p q : List Gram),
    (∀ b, B = some b → b = x ++ fuzzyTexts L cs w xs ++ y) → (∀ g, G = some g → g = p ++ fuzzyGrams cs xs ++ q) →
    List.Forall₂ (FuzzySays R L cs w B G) (fuzzyLay R L cs w B.isSome G.isSome x.length p.length xs) xs := by
  induction xs with
  | nil => intro x y p q h1 h2; exact .nil
  | cons a xs ih =>
    intro x y p q h1 h2
    have e1 : fuzzyTexts L cs w (a :: xs) = (fuzzyText L cs w a ++ [0]) ++ fuzzyTexts L cs w xs := by simp [fuzzyTexts]
    have e2 : fuzzyGrams cs (a :: xs) = (a.refs.map fun r => ⟨(classOf cs a.cls).partSp, r.form, 0, 0⟩) ++ fuzzyGrams cs xs := by
      simp [fuzzyGrams]
    rw [fuzzyLay]
    refine .cons ⟨rfl, rfl, rfl, ?_, ?_, fun hb => by simp [hb], fun hg => by simp [hg]⟩ ?_
    · intro b hb
      refine ⟨x.length, by simp [hb], ?_⟩
      rw [h1 b hb, e1]
      simp only [List.append_assoc, List.drop_left]
      exact ⟨fuzzyTexts L cs w xs ++ y, by simp⟩
    · intro g hg
      refine ⟨p.length, by simp [hg], by simp [hg], ?_⟩
      simp only [hg, Option.isSome_some, if_true]
      rw [h2 g hg, e2]
      simp
    · have := ih (x ++ (fuzzyText L cs w a ++ [0])) y (p ++ a.refs.map fun r => ⟨(classOf cs a.cls).partSp, r.form, 0, 0⟩) q
        (by intro b hb; rw [h1 b hb, e1]; simp) (by intro g hg; rw [h2 g hg, e2]; simp)
      simpa [Nat.add_assoc] using this

/-- C39.  When everything has room, the lemmatizer returns the number of lemmas of the word; the array of the client begins
with one stem for each of them (a permutation: none is lost, none is doubled), ordered by descending weight, and is
unchanged beyond; every pointer shows the text and the descriptions of its lemma.  Missing of the full claim: words of 256
bytes or more than 8 parts; the limits `FuzzyOk`; for Russian, what `szform` happens to contain must end a word
(`C39_junk`). -/
theorem C39_report_partial [LinearOrder ω] (R : FuzzyRank ω) (L : FuzzyLang) (hL : L = rusFuzzy ∨ L = engFuzzy)
    (cs : List FuzzyClass) (hok : FuzzyOk R L cs) (t : PTree) (ht : t.WF) (hh : t.Holds (fuzzyMap cs)) (w : List Byte)
    (hw : Text w) (hlen : w.length < 256) (hparts : (wordParts L.tab w).length ≤ 8)
    (sort : List (FuzzyStem ω) → List (FuzzyStem ω))
    (hsort : ∀ l, (sort l).Perm l ∧ (sort l).Pairwise fun a b => b.weight ≤ a.weight)
    (b : Byte) (bf junk : List Byte) (out : List (FuzzyStem ω)) (pforms : Option (List Byte)) (pgrams : Option (List Gram))
    (dwsets : Nat) (xs : List FuzzyLemma) (hxs : xs = fuzzyLemmas (fuzzyFits L w dwsets) cs (w.map L.tab.lower))
    (hj : pforms.isSome → ∀ x ∈ xs, FuzzyStops L junk (x.ccstem + (classOf cs x.cls).normal.length))
    (hroom : FuzzyRoom L cs (w.map L.tab.lower) pforms pgrams xs) (hout : xs.length ≤ out.length) :
    ∃ stems st, fuzzyLemmatize L (fuzzyImages cs t) R sort (b :: bf) junk w (some out) pforms pgrams dwsets =
        some ((xs.length : Int), some (stems ++ out.drop xs.length), st) ∧
      stems.length = xs.length ∧ stems.Pairwise (fun a b => b.weight ≤ a.weight) ∧
      (∃ xs', xs'.Perm xs ∧ List.Forall₂ (FuzzySays R L cs (w.map L.tab.lower) st.forms.buf st.grams) stems xs') ∧
      st.forms.buf.map List.length = pforms.map List.length ∧ st.grams.map List.length = pgrams.map List.length := by
  have hnil : sort [] = [] := List.Perm.eq_nil (hsort []).1
  obtain ⟨st, h1, h2, h0, h3⟩ := (fuzzyLemmatize_eq (pforms := pforms) (pgrams := pgrams) hL hok ht hh hw hlen hparts sort hnil b bf junk
    (some out) dwsets xs hxs (fun h x hx _ => hj h x hx)).1 ⟨hroom, by intro o ho; cases ho; exact hout⟩
  have hbuf : st.forms.buf.isSome = pforms.isSome ∧ ∃ y, (∀ B, st.forms.buf = some B → B = fuzzyTexts L cs (w.map L.tab.lower) xs ++ y) ∧
      st.forms.buf.map List.length = pforms.map List.length := by
    cases hp : pforms with
    | none =>
      have hn := h0 hp
      exact ⟨by rw [hn], [], by rw [hn]; simp, by rw [hn]⟩
    | some B =>
      obtain ⟨-, tail, h4, h5⟩ := h2 B hp
      exact ⟨by rw [h4]; rfl, tail, by rw [h4]; simp, by rw [h4]; simpa using h5⟩
  obtain ⟨hb1, y, hb2, hb3⟩ := hbuf
  have hg1 : st.grams.isSome = pgrams.isSome := by rw [h3]; cases pgrams <;> rfl
  have hsays := fuzzyLay_says R L cs (w.map L.tab.lower) st.forms.buf st.grams xs [] y [] (((pgrams.getD []).drop (fuzzyGrams cs xs).length))
    (by intro B hB; rw [hb2 B hB]; rfl)
    (by intro g hg; rw [h3] at hg; cases pgrams with
      | none => simp at hg
      | some G => simp only [Option.map_some, Option.some.injEq] at hg; rw [← hg]; simp)
  rw [hb1, hg1] at hsays
  simp only [List.length_nil] at hsays
  refine ⟨sort (fuzzyLay R L cs (w.map L.tab.lower) pforms.isSome pgrams.isSome 0 0 xs), st, h1, ?_, (hsort _).2, ?_, hb3, ?_⟩
  · rw [(hsort _).1.length_eq]
    exact hsays.length_eq
  · obtain ⟨v, hv1, hv2⟩ := List.perm_comp_forall₂ (hsort _).1 hsays
    exact ⟨v, hv2, hv1⟩
  · rw [h3]
    cases hp : pgrams with
    | none => rfl
    | some G =>
      have := hroom.grams G hp
      simp
      omega

/-- C39.  When something has no room — more lemmas than the array of the client or 64, texts or descriptions that do not fit
their buffers — an error is returned and the array of the client is as it was. -/
theorem C39_refused_partial [LinearOrder ω] (R : FuzzyRank ω) (L : FuzzyLang) (hL : L = rusFuzzy ∨ L = engFuzzy)
    (cs : List FuzzyClass) (hok : FuzzyOk R L cs) (t : PTree) (ht : t.WF) (hh : t.Holds (fuzzyMap cs)) (w : List Byte)
    (hw : Text w) (hlen : w.length < 256) (hparts : (wordParts L.tab w).length ≤ 8)
    (sort : List (FuzzyStem ω) → List (FuzzyStem ω)) (hsort : ∀ l, (sort l).Perm l)
    (b : Byte) (bf junk : List Byte) (out : List (FuzzyStem ω)) (pforms : Option (List Byte)) (pgrams : Option (List Gram))
    (dwsets : Nat) (xs : List FuzzyLemma) (hxs : xs = fuzzyLemmas (fuzzyFits L w dwsets) cs (w.map L.tab.lower))
    (hj : pforms.isSome → ∀ x ∈ xs, x.ccstem + (classOf cs x.cls).normal.length < 64 →
      FuzzyStops L junk (x.ccstem + (classOf cs x.cls).normal.length))
    (hno : ¬ FuzzyRoom L cs (w.map L.tab.lower) pforms pgrams xs ∨ out.length < xs.length) :
    ∃ e st, fuzzyLemmatize L (fuzzyImages cs t) R sort (b :: bf) junk w (some out) pforms pgrams dwsets = some (e, some out, st) ∧
      (e = -1 ∨ e = -4 ∨ e = -3) := by
  have hnil : sort [] = [] := List.Perm.eq_nil (hsort [])
  obtain ⟨e, st, h1, h2⟩ := (fuzzyLemmatize_eq (pforms := pforms) (pgrams := pgrams) hL hok ht hh hw hlen hparts sort hnil b bf junk
    (some out) dwsets xs hxs hj).2 (by rintro ⟨h1, h2⟩; rcases hno with h | h; exacts [h h1, by have := h2 out rfl; omega])
  exact ⟨e, st, h1, by simpa [LEMMBUFF_FAILED, WORDBUFF_FAILED, GRAMBUFF_FAILED] using h2⟩

/-- The lemmas of a word: a class `c` with number `x.cls` that the spelling fits, and a split of the word into a rest, the
two letters of a model of the class and an ending of the class; the stem is the rest with the two letters. -/
theorem C39_lemma_iff (fits : FuzzyClass → Bool) (cs : List FuzzyClass) (w : List Byte) (i n : Nat) :
    (∃ x ∈ fuzzyLemmas fits cs w, x.cls = i ∧ x.ccstem = n) ↔
      ∃ c, cs[i]? = some c ∧ fits c ∧ ∃ f ∈ c.flexes, ∃ m ∈ c.models, ∃ p, w = p ++ [m.s0, m.s1] ++ f.2 ∧ n = p.length + 2 := by
  constructor
  · rintro ⟨x, hx, rfl, rfl⟩
    obtain ⟨c, h1, h2, k, h3, h4, h5, h6⟩ := mem_fuzzyLemmas.1 hx
    refine ⟨c, h1, h2, ?_⟩
    obtain ⟨r, hr⟩ := List.exists_mem_of_ne_nil _ h6
    rw [h5] at hr
    simp only [FuzzyClass.refsAt, List.mem_flatMap, List.mem_filterMap] at hr
    obtain ⟨f, hf, m, hm, h7⟩ := hr
    split at h7
    · rename_i h8
      refine ⟨f, hf, m, hm, w.take (w.length - k), ?_, ?_⟩
      · rw [List.append_assoc, h8, List.take_append_drop]
      · rw [h4, List.length_take]; omega
    · cases h7
  · rintro ⟨c, h1, h2, f, hf, m, hm, p, rfl, rfl⟩
    have hdrop : (p ++ [m.s0, m.s1] ++ f.2).drop ((p ++ [m.s0, m.s1] ++ f.2).length - ((p ++ [m.s0, m.s1] ++ f.2).length - p.length)) =
        [m.s0, m.s1] ++ f.2 := by
      have : (p ++ [m.s0, m.s1] ++ f.2).length - ((p ++ [m.s0, m.s1] ++ f.2).length - p.length) = p.length := by
        simp only [List.length_append]; omega
      rw [this, List.append_assoc, List.drop_left]
    refine ⟨⟨p.length + 2, i, c.refsAt i ([m.s0, m.s1] ++ f.2)⟩, mem_fuzzyLemmas.2 ⟨c, h1, h2,
      (p ++ [m.s0, m.s1] ++ f.2).length - p.length, by omega, ?_, by rw [hdrop], ?_⟩, rfl, rfl⟩
    · simp only [List.length_append]; omega
    · apply List.ne_nil_of_mem (a := ⟨i, m.weight, f.1⟩)
      simp only [FuzzyClass.refsAt, List.mem_flatMap, List.mem_filterMap]
      exact ⟨f, hf, m, hm, by simp⟩

/-- The references of a lemma: exactly the pairs of an ending and a model that explain the word so. -/
theorem C39_refs (fits : FuzzyClass → Bool) (cs : List FuzzyClass) (w : List Byte) (x : FuzzyLemma)
    (hx : x ∈ fuzzyLemmas fits cs w) (r : FuzzyRef) :
    r ∈ x.refs ↔ r.cls = x.cls ∧ ∃ c, cs[x.cls]? = some c ∧ ∃ f ∈ c.flexes, ∃ m ∈ c.models, ∃ p,
      w = p ++ [m.s0, m.s1] ++ f.2 ∧ x.ccstem = p.length + 2 ∧ r.power = m.weight ∧ r.form = f.1 := by
  obtain ⟨c, h1, h2, k, h3, h4, h5, h6⟩ := mem_fuzzyLemmas.1 hx
  rw [h5]
  simp only [FuzzyClass.refsAt, List.mem_flatMap, List.mem_filterMap, Option.ite_none_right_eq_some, Option.some.injEq]
  constructor
  · rintro ⟨f, hf, m, hm, h7, rfl⟩
    refine ⟨rfl, c, h1, f, hf, m, hm, w.take (w.length - k), ?_, ?_, rfl, rfl⟩
    · rw [List.append_assoc, h7, List.take_append_drop]
    · rw [h4, List.length_take]; omega
  · rintro ⟨hr, c', h1', f, hf, m, hm, p, h7, h8, h9, h10⟩
    rw [h1] at h1'
    cases h1'
    refine ⟨f, hf, m, hm, ?_, ?_⟩
    · have : w.length - k = p.length := by omega
      rw [this, h7, List.append_assoc, List.drop_left]
    · cases r; simp only at hr h9 h10; rw [← hr, ← h9, ← h10]

/-- No lemma comes twice: a class and a length of the stem determine it. -/
theorem C39_distinct (fits : FuzzyClass → Bool) (cs : List FuzzyClass) (w : List Byte) :
    ((fuzzyLemmas fits cs w).map fun x => (x.cls, x.ccstem)).Nodup := by
  have key : ∀ ns : List Nat, ns.Nodup → (∀ n ∈ ns, n ≤ w.length) →
      ((ns.flatMap fun n => cs.zipIdx.filterMap fun p =>
        if p.1.refsAt p.2 (w.drop (w.length - n)) ≠ [] ∧ fits p.1 then
          some (⟨w.length - n + 2, p.2, p.1.refsAt p.2 (w.drop (w.length - n))⟩ : FuzzyLemma)
        else none).map fun x => (x.cls, x.ccstem)).Nodup := by
    intro ns
    induction ns with
    | nil => simp
    | cons n ns ih =>
      intro h1 h2
      rw [List.nodup_cons] at h1
      rw [List.flatMap_cons, List.map_append, List.nodup_append]
      refine ⟨?_, ih h1.2 (fun x hx => h2 x (List.mem_cons_of_mem _ hx)), ?_⟩
      · have hz : ∀ l : List (FuzzyClass × Nat), (l.map Prod.snd).Nodup →
            ((l.filterMap fun p =>
              if p.1.refsAt p.2 (w.drop (w.length - n)) ≠ [] ∧ fits p.1 then
                some (⟨w.length - n + 2, p.2, p.1.refsAt p.2 (w.drop (w.length - n))⟩ : FuzzyLemma)
              else none).map fun x => (x.cls, x.ccstem)).Nodup := by
          intro l
          induction l with
          | nil => simp
          | cons p l ihl =>
            intro h
            rw [List.map_cons, List.nodup_cons] at h
            rw [List.filterMap_cons]
            split
            · exact ihl h.2
            · rename_i y hy
              rw [List.map_cons, List.nodup_cons]
              refine ⟨?_, ihl h.2⟩
              split at hy
              · cases hy
                intro hm
                obtain ⟨z, hz, hz2⟩ := List.mem_map.1 hm
                obtain ⟨q, hq, hq2⟩ := List.mem_filterMap.1 hz
                split at hq2
                · cases hq2
                  simp only [Prod.mk.injEq, and_true] at hz2
                  exact h.1 (hz2 ▸ List.mem_map_of_mem hq)
                · cases hq2
              · cases hy
        apply hz
        rw [List.zipIdx_map_snd]
        exact List.nodup_range'
      · intro a ha a' ha'
        simp only [List.mem_map, List.mem_filterMap, List.mem_flatMap, Option.ite_none_right_eq_some, Option.some.injEq] at ha ha'
        obtain ⟨_, ⟨p, _, _, rfl⟩, rfl⟩ := ha
        obtain ⟨_, ⟨n', hn', p', _, _, rfl⟩, rfl⟩ := ha'
        intro hc
        simp only [Prod.mk.injEq] at hc
        have a1 := h2 n (by simp)
        have a2 := h2 n' (List.mem_cons_of_mem _ hn')
        have : n = n' := by omega
        exact h1.1 (this ▸ hn')
  exact key _ List.nodup_range (by intro n hn; simp at hn; omega)

/-! The sample meets the hypotheses: "Столов", a surname or the genitive of "стол". -/

theorem fuzzySample_ok : FuzzyOk sampleRank rusFuzzy fuzzySample := by
  refine ⟨by decide, by decide, by decide, by decide, ?_⟩
  intro c hc f hf
  have : ∀ c ∈ fuzzySample, ∃ n, sampleRank.sizes[c.partSp]? = some (some n) ∧ ∀ f ∈ c.flexes, f.1 < n := by
    intro c hc
    refine ⟨0x11, ?_⟩
    revert c
    decide
  obtain ⟨n, h1, h2⟩ := this c hc
  exact ⟨some n, h1, by rintro k hk; cases hk; exact h2 f hf⟩

theorem sampleSort_ok (l : List (FuzzyStem Nat)) :
    (sampleSort l).Perm l ∧ (sampleSort l).Pairwise fun a b => b.weight ≤ a.weight := by
  refine ⟨List.perm_insertionSort _ _, ?_⟩
  have : Std.Total fun (a b : FuzzyStem Nat) => b.weight ≤ a.weight := ⟨fun a b => by omega⟩
  have : IsTrans (FuzzyStem Nat) fun a b => b.weight ≤ a.weight := ⟨fun a b c h1 h2 => Nat.le_trans h2 h1⟩
  exact List.pairwise_insertionSort _ l

example : fuzzyLemmas (fuzzyFits rusFuzzy stolov 0) fuzzySample (stolov.map rusTab.lower) =
    [⟨6, 1, [⟨1, 300, 0⟩]⟩, ⟨4, 0, [⟨0, 40, 7⟩]⟩] := by decide +kernel

/-- In small letters it is not a surname. -/
example : fuzzyLemmas (fuzzyFits rusFuzzy (stolov.map rusTab.lower) 0) fuzzySample (stolov.map rusTab.lower) =
    [⟨4, 0, [⟨0, 40, 7⟩]⟩] := by decide +kernel

example : ∃ stems st, fuzzyLemmatize rusFuzzy (fuzzyImages fuzzySample fuzzySampleTree) sampleRank sampleSort [0]
      (List.replicate 64 0) stolov (some (List.replicate 2 ⟨none, 0, 0, none, 0, 0⟩)) (some (List.replicate 13 0))
      (some (List.replicate 2 ⟨0, 0, 0, 0⟩)) 0 = some (2, some stems, st) ∧
    stems.map (·.nclass) = [0, 1] ∧ stems.map (·.plemma) = [some 7, some 0] := by
  have h : ((fuzzyLemmatize rusFuzzy (fuzzyImages fuzzySample fuzzySampleTree) sampleRank sampleSort [0]
      (List.replicate 64 0) stolov (some (List.replicate 2 ⟨none, 0, 0, none, 0, 0⟩)) (some (List.replicate 13 0))
      (some (List.replicate 2 ⟨0, 0, 0, 0⟩)) 0).map fun r => (r.1, r.2.1.map fun l => l.map fun x => (x.nclass, x.plemma))) =
      some (2, some [(0, some 7), (1, some 0)]) := by decide +kernel
  obtain ⟨⟨n, o, st⟩, h1, h2⟩ := Option.map_eq_some_iff.1 h
  simp only [Prod.mk.injEq] at h2
  obtain ⟨rfl, h2⟩ := h2
  obtain ⟨stems, rfl, h3⟩ := Option.map_eq_some_iff.1 h2
  refine ⟨stems, st, h1, ?_, ?_⟩
  · have := congrArg (List.map Prod.fst) h3
    simpa [Function.comp_def] using this
  · have := congrArg (List.map Prod.snd) h3
    simpa [Function.comp_def] using this

/-- A word that has no room in `szform` of what ends it: nothing in the array ends the word. -/
theorem C39_junk :
    fuzzyLemmatize rusFuzzy (fuzzyImages fuzzySample fuzzySampleTree) sampleRank sampleSort [0]
      (List.replicate 64 255) stolov (some (List.replicate 2 ⟨none, 0, 0, none, 0, 0⟩)) (some (List.replicate 13 0)) none 0 = none := by
  decide +kernel

/-- A class with an ending of 15 letters: the table of probabilities of endings is read outside its bounds. -/
theorem C39_long_ending :
    fuzzyLemmatize rusFuzzy (fuzzyImages [⟨7, false, [(0, List.replicate 15 224)], [⟨238, 236, 100, []⟩]⟩]
        (.node (List.replicate 15 224 ++ [236, 238]) (some [⟨0, 100, 0⟩]) [])) sampleRank sampleSort [0]
      (List.replicate 64 0) ([238, 236] ++ List.replicate 15 224) (some (List.replicate 2 ⟨none, 0, 0, none, 0, 0⟩)) none none 0 = none := by
  decide +kernel

/-- **C39** A word of 256 bytes or more is refused (if it has at most 16 parts; the code writes beyond an array otherwise), and
the array of the client stays as it was. -/
theorem C39_too_long (R : FuzzyRank ω) (L : FuzzyLang) (hL : L = rusFuzzy ∨ L = engFuzzy) (im : FuzzyImages)
    (sort : List (FuzzyStem ω) → List (FuzzyStem ω)) (before junk w : List Byte) (hlen : 256 ≤ w.length)
    (hparts : (wordParts L.tab w).length ≤ 16) (pstems : Option (List (FuzzyStem ω))) (pforms : Option (List Byte))
    (pgrams : Option (List Gram)) (dwsets : Nat) :
    ∃ st, fuzzyLemmatize L im R sort before junk w pstems pforms pgrams dwsets = some (WORDBUFF_FAILED, pstems, st) ∧
      st.forms.buf = pforms ∧ st.grams = pgrams := by
  refine ⟨{ forms := ⟨pforms, 0⟩, grams := pgrams }, ?_, rfl, rfl⟩
  have h0 : w.length ≠ 0 := by omega
  simp only [fuzzyLemmatize, fuzzyCanonic, if_neg h0, C15_too_long L.tab (fuzzyTab_ok hL) 256 w hlen hparts, bind, Option.bind_some, pure]

/-- The hypotheses of `C39_too_long` are met. -/
example : ∃ st, fuzzyLemmatize rusFuzzy (fuzzyImages fuzzySample fuzzySampleTree) sampleRank sampleSort [0] [] (List.replicate 300 224) none
    (some [1, 2]) none 0 = some (-4, none, st) ∧ st.forms.buf = some [1, 2] ∧ st.grams = none :=
  C39_too_long sampleRank rusFuzzy (Or.inl rfl) _ _ _ _ _ (by rw [List.length_replicate]; omega) (by decide +kernel) _ _ _ _

/-- **C39** is false for words of nine parts: "а-а-а-а-а-а-а-а-Столов" has 22 letters; its capitals spoil the length, and a stem
of 23 letters is reported, longer than the word, and one of 21 instead of 20. -/
theorem C39_nine_parts :
    ((fuzzyLemmatize rusFuzzy (fuzzyImages fuzzySample fuzzySampleTree) sampleRank sampleSort [0] (List.replicate 64 0)
      ((List.replicate 8 [224, 45]).flatten ++ stolov) (some (List.replicate 2 ⟨none, 0, 0, none, 0, 0⟩)) none none 2).map
      fun r => (r.1, r.2.1.map fun l => l.map fun s => (s.ccstem, s.nclass))) = some (2, some [(21, 0), (23, 1)]) ∧
    ((List.replicate 8 [224, 45]).flatten ++ stolov).length = 22 := by
  decide +kernel

end Libmorph
