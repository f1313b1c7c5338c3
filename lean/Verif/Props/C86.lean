import Verif.Props.C85
import Verif.Props.C67
/-
C86: the command line tool `stematize` prints the probable lemmas of a word as a JSON text.
-/
namespace Libmorph
open Json Libmorph.Spec

variable {ω : Type}

theorem reads_score {t value : List Byte} (h : ScoreText t value) : Reads Bool.false t (.num value) := by
  obtain ⟨k, d, f, rfl, rfl, hdf, hd, hf, h0⟩ := h.shape
  refine Reads.ws (fun b hb => by rw [List.eq_of_mem_replicate hb]; rfl) ?_
  intro n r hn hr
  have hdd : ∀ b ∈ d, isDigit b = true := fun b hb => by have := hdf b (by simp [hb]); simp [isDigit]; omega
  have hff : ∀ b ∈ f, isDigit b = true := fun b hb => by have := hdf b (by simp [hb]); simp [isDigit]; omega
  obtain ⟨b, d', rfl⟩ := List.exists_cons_of_ne_nil hd
  have hb := hdf b (by simp)
  have hbd := hdd b (by simp)
  obtain ⟨n, rfl⟩ : ∃ m, n = m + 1 := ⟨n - 1, by omega⟩
  have e : b :: d' ++ 46 :: f ++ r = (b :: d') ++ (46 :: (f ++ r)) := by simp
  have e1 : intDigits ((b :: d') ++ (46 :: (f ++ r))) = some (b :: d', 46 :: (f ++ r)) := by
    rw [intDigits, digits_append hdd (by simp; decide), if_neg]
    rintro (h | ⟨h1, h2⟩)
    · cases h
    · exact h2 (h0 h1)
  have e2 : frac (46 :: (f ++ r)) = some (46 :: f, r) := by
    have := digits_append hff fun c hc => (hr c hc).1
    simp [frac, this, hf]
  have e3 : exponent r = some ([], r) := by
    cases r with
    | nil => rfl
    | cons c r => simp [exponent, (hr c (by simp)).2.2]
  have hne : ((b :: d') ++ (46 :: (f ++ r))).head? ≠ some 45 := by
    simp only [List.cons_append, List.head?_cons, ne_eq, Option.some.injEq]; omega
  have hnum : number ((b :: d') ++ (46 :: (f ++ r))) = some (.num (b :: d' ++ 46 :: f), r) := by
    rw [number, if_neg hne]
    simp only [List.take_zero, List.length_nil, List.drop_zero, e1, bind, Option.bind_some, e2, e3]
    simp
  rw [e, value, List.cons_append, skipWs_cons (by simp [isWs]; omega)]
  simp only
  rw [if_neg (by omega), if_neg (by omega), if_neg (by omega), if_pos (.inr hbd)]
  exact hnum

theorem forall₂_five {α β : Type} {R : α → β → Prop} {a b c d e : α} {a' b' c' d' e' : β} (h1 : R a a') (h2 : R b b') (h3 : R c c') (h4 : R d d')
    (h5 : R e e') : List.Forall₂ R [a, b, c, d, e] [a', b', c', d', e'] := .cons h1 (.cons h2 (.cons h3 (.cons h4 (.cons h5 .nil))))

theorem printStem_says {R : FuzzyRank ω} {L : FuzzyLang} {cs : List FuzzyClass} {w B : List Byte} {G : List Gram} {s : FuzzyStem ω} {x : FuzzyLemma}
    (h : FuzzySays R L cs w (some B) (some G) s x) (hp : Plain (fuzzyText L cs w x)) (hx : x.refs ≠ []) {fmt : ω → List Byte}
    {score : FuzzyLemma → List Byte} (hf : ScoreText (fmt (fuzzyWeight R cs w x)) (score x)) :
    ∃ t, printStem fmt B G s = some t ∧ Reads Bool.false t (stemJson L cs w score x) := by
  obtain ⟨o, h1, t, h2⟩ := h.text B rfl
  obtain ⟨q, k1, k2, k3, k4⟩ := h.grams G rfl
  have hz : 0 ∉ fuzzyText L cs w x := fun h0 => by have := (hp 0 h0).1; omega
  obtain ⟨d, ds, hd⟩ := List.exists_cons_of_ne_nil hx
  have hg : G[q]? = some ⟨(classOf cs x.cls).partSp, d.form, 0, 0⟩ := by
    have : ((G.drop q).take s.ngrams)[0]? = some ⟨(classOf cs x.cls).partSp, d.form, 0, 0⟩ := by rw [k4, hd]; rfl
    have h0 : 0 < s.ngrams := by rw [k2, hd]; simp
    rw [List.getElem?_take_of_lt h0, List.getElem?_drop] at this
    simpa using this
  have ht : cstring (B.drop o) = some (fuzzyText L cs w x) := by rw [← h2, List.append_assoc, List.singleton_append, cstring_zero hz]
  simp only [printStem, h1, k1, ht, hg, bind, Option.bind_some, if_pos k3, k4, h.nclass, h.weight]
  refine ⟨_, rfl, ?_⟩
  have hobj := reads_obj (w := [32]) (forall₂_five
    ((reads_member (k := asciiBytes "lemma") (by unfold Plain; decide) ((reads_str hp).ws (w := [32]) (by decide))).ws (w := [32]) (by decide))
    ((reads_member (k := asciiBytes "score") (by unfold Plain; decide) ((reads_score hf).ws (w := [32]) (by decide))).ws (w := [9]) (by decide))
    ((reads_member (k := asciiBytes "class") (by unfold Plain; decide) ((reads_padded 3 x.cls).ws (w := [32]) (by decide))).ws (w := [32]) (by decide))
    ((reads_member (k := asciiBytes "psp") (by unfold Plain; decide) ((reads_padded 2 ((classOf cs x.cls).partSp &&& 0x3f)).ws (w := [32]) (by decide))).ws (w := [32]) (by decide))
    ((reads_member (k := asciiBytes "forms") (by unfold Plain; decide) ((reads_numbers (x.refs.map FuzzyRef.form)).ws (w := [32]) (by decide))).ws (w := [32]) (by decide)))
    (by decide)
  have hall := hobj.ws (w := [10, 32, 32]) (by decide)
  have hv : stemJson L cs w score x = .obj [(asciiBytes "lemma", .str (fuzzyText L cs w x)), (asciiBytes "score", .num (score x)),
      (asciiBytes "class", .int x.cls), (asciiBytes "psp", .int (((classOf cs x.cls).partSp &&& 0x3f : Nat) : Int)),
      (asciiBytes "forms", .arr ((x.refs.map FuzzyRef.form).map fun (n : Nat) => .int n))] := by
    rw [stemJson, List.map_map, show (0x3f : Nat) = 2 ^ 6 - 1 by rfl, Nat.and_two_pow_sub_one_eq_mod]; rfl
  rw [hv]
  refine cast ?_ hall
  congr 1
  simp only [commas, litLemma, litScore, litClass, litPsp, litForms, litEnd, litCommaSp, keyLemma, keyScore, keyClass, keyPsp, keyForms, List.map_map,
    Function.comp_def]
  simp

variable [LinearOrder ω]

/-- **C86** `stematize` with the probabilistic analyser of either language, in code page 1251: the text printed is a JSON array with an
object for every lemma of the word, the greater score first: dictionary form, score, class, part of speech, form numbers; when the
lemmas do not fit into 64 records, 256 bytes and 64 descriptions, an empty array.  The status is 0 in both cases.
Missing: the limits of `C39_report_partial`; dictionary forms with quotation marks, backslashes or control characters are not quoted
(`C86_quote_counterexample`). -/
theorem C86_stematize_partial (R : FuzzyRank ω) (L : FuzzyLang) (hL : L = rusFuzzy ∨ L = engFuzzy)
    (cs : List FuzzyClass) (hok : FuzzyOk R L cs) (t : PTree) (ht : t.WF) (hh : t.Holds (fuzzyMap cs)) (w : List Byte)
    (hw : Text w) (hlen : w.length < 256) (hparts : (wordParts L.tab w).length ≤ 8)
    (sort : List (FuzzyStem ω) → List (FuzzyStem ω))
    (hsort : ∀ l, (sort l).Perm l ∧ (sort l).Pairwise fun a b => b.weight ≤ a.weight)
    (b : Byte) (bf junk : List Byte) (xs : List FuzzyLemma) (hxs : xs = fuzzyLemmas (fuzzyFits L w 2) cs (w.map L.tab.lower))
    (hj : ∀ x ∈ xs, x.ccstem + (classOf cs x.cls).normal.length < 64 → FuzzyStops L junk (x.ccstem + (classOf cs x.cls).normal.length))
    (fmt : ω → List Byte) (stmset : List (FuzzyStem ω)) (stbuff : List Byte) (grbuff : List Gram)
    (h1 : stmset.length = 64) (_h2 : stbuff.length = 256) (_h3 : grbuff.length = 64) :
    let tool := stematizeTool fmt (fun o p g => fuzzyLemmatize L (fuzzyImages cs t) R sort (b :: bf) junk w o p g 2) stmset stbuff grbuff
    (FuzzyRoom L cs (w.map L.tab.lower) (some stbuff) (some grbuff) xs →
      ∀ score : FuzzyLemma → List Byte, (∀ x ∈ xs, Plain (fuzzyText L cs (w.map L.tab.lower) x) ∧
        ScoreText (fmt (fuzzyWeight R cs (w.map L.tab.lower) x)) (score x)) →
      ∃ (out : List Byte) (ys : List FuzzyLemma), tool = some (out, 0) ∧ ys.Perm xs ∧
        (ys.Pairwise fun x y => fuzzyWeight R cs (w.map L.tab.lower) y ≤ fuzzyWeight R cs (w.map L.tab.lower) x) ∧
        read out = some (.arr (ys.map (stemJson L cs (w.map L.tab.lower) score)))) ∧
    (¬ FuzzyRoom L cs (w.map L.tab.lower) (some stbuff) (some grbuff) xs → tool = some (asciiBytes "[\n]", 0)) := by
  constructor
  · intro hroom score hsc
    obtain ⟨stems, s, k1, k2, k3, ⟨ys, k4, k5⟩, k6, k7⟩ := C39_report_partial R L hL cs hok t ht hh w hw hlen hparts sort hsort b bf junk stmset
      (some stbuff) (some grbuff) 2 xs hxs (fun _ x hx => hj x hx (hroom.words rfl x hx)) hroom (by have := hroom.count; omega)
    obtain ⟨B, hB⟩ : ∃ B, s.forms.buf = some B := by
      cases hb : s.forms.buf with
      | none => rw [hb] at k6; cases k6
      | some B => exact ⟨B, rfl⟩
    obtain ⟨G, hG⟩ : ∃ G, s.grams = some G := by
      cases hb : s.grams with
      | none => rw [hb] at k7; cases k7
      | some B => exact ⟨B, rfl⟩
    have hord : ys.Pairwise fun x y => fuzzyWeight R cs (w.map L.tab.lower) y ≤ fuzzyWeight R cs (w.map L.tab.lower) x := by
      have : ∀ (l : List (FuzzyStem ω)) (m : List FuzzyLemma), List.Forall₂ (FuzzySays R L cs (w.map L.tab.lower) s.forms.buf s.grams) l m →
          l.Pairwise (fun a b => b.weight ≤ a.weight) →
          m.Pairwise fun a b => fuzzyWeight R cs (w.map L.tab.lower) b ≤ fuzzyWeight R cs (w.map L.tab.lower) a := by
        intro l m hl
        induction hl with
        | nil => intro _; exact .nil
        | cons hd htl ih =>
          intro hp
          rw [List.pairwise_cons] at hp ⊢
          refine ⟨fun y hy => ?_, ih hp.2⟩
          obtain ⟨s, hs, hsy⟩ := forall₂_mem_right htl hy
          rw [← hsy.weight, ← hd.weight]
          exact hp.1 s hs
      exact this stems ys k5 k3
    rw [hB, hG] at k5
    have hyl : ys.length = xs.length := k4.length_eq
    have hrefs : ∀ x ∈ xs, x.refs ≠ [] := by
      intro x hx
      rw [hxs, fuzzyLemmas] at hx
      obtain ⟨n, -, hx⟩ := List.mem_flatMap.1 hx
      obtain ⟨p, -, hp⟩ := List.mem_filterMap.1 hx
      split at hp
      · rename_i hc
        cases hp
        exact hc.1
      · cases hp
    have hmem : ∀ y ∈ ys, y ∈ xs := fun y hy => k4.mem_iff.1 hy
    by_cases h0 : xs = []
    · have hy : ys = [] := List.length_eq_zero_iff.1 (by rw [hyl, h0]; rfl)
      refine ⟨asciiBytes "[]", ys, ?_, k4, hord, ?_⟩
      · simp [stematizeTool, k1, h0]
      · rw [hy, litEmpty]; exact read_of (reads_arr (ts := []) (w := []) .nil (by simp))
    · have hn : ((xs.length : Int)) ≠ 0 := by
        have := List.length_pos_iff.2 h0
        omega
      obtain ⟨ts, m1, m2⟩ := reads_mapM (f := printStem fmt B G) (k := stemJson L cs (w.map L.tab.lower) score)
        (fun r y (hy : _ ∧ y ∈ xs) => printStem_says hy.1 (hsc y hy.2).1 (hrefs y hy.2) (hsc y hy.2).2)
        (forall₂_and_right k5 hmem)
      refine ⟨asciiBytes "[" ++ printItems [] (asciiBytes ",") ts ++ asciiBytes "\n]", ys, ?_, k4, hord, read_of ?_⟩
      · simp only [stematizeTool, k1, bind, Option.bind_some, if_neg hn, hB, hG, Option.getD_some, Int.toNat_natCast]
        rw [if_pos (by simp [k2]), List.take_left' k2, m1]
        rfl
      · rw [litOpen, litComma, litClose]
        have := reads_items (ws := []) (by simp) m2 (w := [10]) (by decide)
        simpa using this
  · intro hn
    obtain ⟨e, s, k1, k2⟩ := C39_refused_partial R L hL cs hok t ht hh w hw hlen hparts sort (fun l => (hsort l).1) b bf junk stmset
      (some stbuff) (some grbuff) 2 xs hxs (fun _ => hj) (.inl hn)
    simp only [stematizeTool, k1, bind, Option.bind_some, if_neg (by omega : e ≠ 0), show e.toNat = 0 by omega]
    simp [printItems]
    decide

end Libmorph

namespace Libmorph
open Json Libmorph.Spec

/-- A format for the weights of the sample. -/
def sampleFmt (n : Nat) : List Byte := decimal n ++ asciiBytes ".0000"

/-- `stematize` with the sample. -/
def sampleStematize (w : List Byte) : Option (List Byte × Nat) :=
  stematizeTool sampleFmt (fun o p g => fuzzyLemmatize rusFuzzy (fuzzyImages fuzzySample fuzzySampleTree) sampleRank sampleSort [0]
    (List.replicate 64 0) w o p g 2) (List.replicate 64 ⟨none, 0, 0, none, 0, 0⟩) (List.replicate 256 7) (List.replicate 64 ⟨1, 1, 1, 1⟩)

/-- **C86** Nothing is quoted: for a word with a quotation mark (here in front of "толов") the analyser answers, and the text printed is
no JSON text. -/
theorem C86_quote_counterexample : ∃ out, sampleStematize [34, 242, 238, 235, 238, 226] = some (out, 0) ∧ out.length > 100 ∧ (read out).isNone = true := by
  have h : (sampleStematize [34, 242, 238, 235, 238, 226]).any (fun r => r.2 = 0 && r.1.length > 100 && (read r.1).isNone) = true := by decide +kernel
  obtain ⟨⟨out, n⟩, h1, h2⟩ := (Option.any_eq_true _ _).1 h
  simp only [Bool.and_eq_true, decide_eq_true_eq] at h2
  exact ⟨out, by rw [h1, h2.1.1], h2.1.2, h2.2⟩

/-- "Столов": a form of "стол", or a surname. -/
example : sampleStematize stolov = some (asciiBytes "[\n  { \"lemma\": \"" ++ [241, 242, 238, 235] ++
    asciiBytes "\",\t\"score\": 30040.0000, \"class\":   0, \"psp\":  7, \"forms\": [7] },\n  { \"lemma\": \"" ++ stolov ++
    asciiBytes "\",\t\"score\": 10300.0000, \"class\":   1, \"psp\": 38, \"forms\": [0] }\n]", 0) := by decide +kernel

/-- The contract of the format is met. -/
example : ScoreText (asciiBytes "0.1250") (asciiBytes "0.1250") ∧ ScoreText (sampleFmt 30040) (sampleFmt 30040) :=
  ⟨⟨0, [48], [49, 50, 53, 48], by decide, by decide, by decide, by decide, by decide, by decide⟩,
   ⟨0, [51, 48, 48, 52, 48], [48, 48, 48, 48], by decide, by decide, by decide, by decide, by decide, by decide⟩⟩

end Libmorph
