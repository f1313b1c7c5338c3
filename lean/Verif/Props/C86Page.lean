import Verif.Props.C86
import Verif.Props.C87
import Verif.Props.C53
/-
C86: `stematize` in another code page; by default it works in UTF-8.
-/
namespace Libmorph
open Json Libmorph.Spec

variable {ω : Type}

/-- The record `s`, with the buffers `B` and `G`, says that `x` is a lemma of the word, its dictionary form converted by `conv`. -/
structure PageSays (conv : List Byte → List Byte) (R : FuzzyRank ω) (L : FuzzyLang) (cs : List FuzzyClass) (w B : List Byte) (G : List Gram)
    (s : FuzzyStem ω) (x : FuzzyLemma) : Prop where
  nclass : s.nclass = x.cls
  weight : s.weight = fuzzyWeight R cs w x
  text : ∃ o r, s.plemma = some o ∧ B.drop o = conv (fuzzyText L cs w x) ++ 0 :: r
  grams : ∃ o, s.pgrams = some o ∧ s.ngrams = x.refs.length ∧
    o + s.ngrams ≤ G.length ∧ (G.drop o).take s.ngrams = x.refs.map fun r => ⟨(classOf cs x.cls).partSp, r.form, 0, 0⟩

theorem printStem_page {conv : List Byte → List Byte} {R : FuzzyRank ω} {L : FuzzyLang} {cs : List FuzzyClass} {w B : List Byte} {G : List Gram}
    {s : FuzzyStem ω} {x : FuzzyLemma} (h : PageSays conv R L cs w B G s x) (hp : Plain (conv (fuzzyText L cs w x))) (hx : x.refs ≠ [])
    {fmt : ω → List Byte} {score : FuzzyLemma → List Byte} (hf : ScoreText (fmt (fuzzyWeight R cs w x)) (score x)) :
    ∃ t, printStem fmt B G s = some t ∧ Reads Bool.false t (stemJsonIn conv L cs w score x) := by
  obtain ⟨o, t, h1, h2⟩ := h.text
  obtain ⟨q, k1, k2, k3, k4⟩ := h.grams
  have hz : 0 ∉ conv (fuzzyText L cs w x) := fun h0 => by have := (hp 0 h0).1; omega
  obtain ⟨d, ds, hd⟩ := List.exists_cons_of_ne_nil hx
  have hg : G[q]? = some ⟨(classOf cs x.cls).partSp, d.form, 0, 0⟩ := by
    have : ((G.drop q).take s.ngrams)[0]? = some ⟨(classOf cs x.cls).partSp, d.form, 0, 0⟩ := by rw [k4, hd]; rfl
    have h0 : 0 < s.ngrams := by rw [k2, hd]; simp
    rw [List.getElem?_take_of_lt h0, List.getElem?_drop] at this
    simpa using this
  have ht : cstring (B.drop o) = some (conv (fuzzyText L cs w x)) := by rw [h2, cstring_zero hz]
  simp only [printStem, h1, k1, ht, hg, bind, Option.bind_some, if_pos k3, k4, h.nclass, h.weight]
  refine ⟨_, rfl, ?_⟩
  have hobj := reads_obj (w := [32]) (forall₂_five
    ((reads_member (k := asciiBytes "lemma") (by unfold Plain; decide) ((reads_str hp).ws (w := [32]) (by decide))).ws (w := [32]) (by decide))
    ((reads_member (k := asciiBytes "score") (by unfold Plain; decide) ((reads_score hf).ws (w := [32]) (by decide))).ws (w := [9]) (by decide))
    ((reads_member (k := asciiBytes "class") (by unfold Plain; decide) ((reads_padded 3 x.cls).ws (w := [32]) (by decide))).ws (w := [32]) (by decide))
    ((reads_member (k := asciiBytes "psp") (by unfold Plain; decide) ((reads_padded 2 ((classOf cs x.cls).partSp &&& 0x3f)).ws (w := [32]) (by decide))).ws (w := [32]) (by decide))
    ((reads_member (k := asciiBytes "forms") (by unfold Plain; decide) ((reads_numbers (x.refs.map FuzzyRef.form)).ws (w := [32]) (by decide))).ws (w := [32]) (by decide)))
    (by decide)
  have hall := hobj.ws (w := [10, 32, 32]) (by decide)
  have hv : stemJsonIn conv L cs w score x = .obj [(asciiBytes "lemma", .str (conv (fuzzyText L cs w x))), (asciiBytes "score", .num (score x)),
      (asciiBytes "class", .int x.cls), (asciiBytes "psp", .int (((classOf cs x.cls).partSp &&& 0x3f : Nat) : Int)),
      (asciiBytes "forms", .arr ((x.refs.map FuzzyRef.form).map fun (n : Nat) => .int n))] := by
    rw [stemJsonIn, List.map_map, show (0x3f : Nat) = 2 ^ 6 - 1 by rfl, Nat.and_two_pow_sub_one_eq_mod]; rfl
  rw [hv]
  refine cast ?_ hall
  congr 1
  simp only [commas, litLemma, litScore, litClass, litPsp, litForms, litEnd, litCommaSp, keyLemma, keyScore, keyClass, keyPsp, keyForms, List.map_map,
    Function.comp_def]
  simp

/-- Texts that begin with given texts and take no more room are those texts. -/
theorem texts_eq_of_room {α : Type} {f : α → List Byte} {ts : List (List Byte)} {xs : List α} (h : List.Forall₂ (fun t x => f x <+: t) ts xs)
    (hl : (packed ts).length ≤ (packed (xs.map f)).length) : ts = xs.map f := by
  have hle : ∀ (ts : List (List Byte)) (xs : List α), List.Forall₂ (fun t x => f x <+: t) ts xs → (packed (xs.map f)).length ≤ (packed ts).length := by
    intro ts xs h
    induction h with
    | nil => simp
    | cons hd tl ih =>
      have := hd.length_le
      simp only [List.map_cons, packed_cons, List.length_append, List.length_cons]
      omega
  induction h with
  | nil => rfl
  | @cons t x ts xs hd tl ih =>
    have h1 := hd.length_le
    have h2 := hle _ _ tl
    simp only [List.map_cons, packed_cons, List.length_append, List.length_cons] at hl
    rw [List.map_cons, ih (by omega), hd.eq_of_length (by omega)]

theorem prefix_of_zero {a t r z : List Byte} (h0 : 0 ∉ a) (h : a ++ 0 :: z = t ++ 0 :: r) : a <+: t := by
  induction a generalizing t with
  | nil => exact List.nil_prefix
  | cons b a ih =>
    cases t with
    | nil =>
      simp only [List.cons_append, List.nil_append, List.cons.injEq] at h
      exact absurd (by simp [h.1]) h0
    | cons c t =>
      simp only [List.cons_append, List.cons.injEq] at h
      obtain ⟨rfl, h⟩ := h
      exact (List.cons_prefix_cons).2 ⟨rfl, ih (fun hm => h0 (List.mem_cons_of_mem _ hm)) h⟩

theorem packed_perm_length {a b : List (List Byte)} (h : a.Perm b) : (packed a).length = (packed b).length :=
  (h.flatMap_right _).length_eq

variable [LinearOrder ω]

/-- **C86** `stematize` in a code page the conversion of which satisfies `FuzzyPage.Ok`, as UTF-8, the default of the tool
(`C87_utf8_ok`): the same array as in code page 1251, the dictionary forms converted; when converted they do not fit into the 256 bytes, an
empty array; also when the lemmas are more than 64, have more than 64 descriptions or one has 64 letters.
Missing: the limits of `C86_stematize_partial`; what is printed when the texts fill the buffer to the last byte. -/
theorem C86_code_page_partial (Q : FuzzyPage) (enc : Byte → List Byte) (known : Byte → Prop) (R : FuzzyRank ω) (L : FuzzyLang)
    (hL : L = rusFuzzy ∨ L = engFuzzy) (hQ : Q.Ok L.tab enc known)
    (cs : List FuzzyClass) (hok : FuzzyOk R L cs) (t : PTree) (ht : t.WF) (hh : t.Holds (fuzzyMap cs)) (w : List Byte)
    (hw : Text w) (hk : ∀ b ∈ w, known b) (hlen : w.length < 256) (hparts : (wordParts L.tab w).length ≤ 8)
    (sort : List (FuzzyStem ω) → List (FuzzyStem ω))
    (hsort : ∀ l, (sort l).Perm l ∧ (sort l).Pairwise fun a b => b.weight ≤ a.weight)
    (b : Byte) (bf junk : List Byte) (xs : List FuzzyLemma) (hxs : xs = fuzzyLemmas (fuzzyFits L w 2) cs (w.map L.tab.lower))
    (hj : ∀ x ∈ xs, x.ccstem + (classOf cs x.cls).normal.length < 64 → FuzzyStops L junk (x.ccstem + (classOf cs x.cls).normal.length))
    (fmt : ω → List Byte) (stmset : List (FuzzyStem ω)) (stbuff : List Byte) (grbuff : List Gram)
    (h1 : stmset.length = 64) (_h2 : stbuff.length = 256) (_h3 : grbuff.length = 64)
    (hz : ∀ x ∈ xs, 0 ∉ fuzzyText L cs (w.map L.tab.lower) x) :
    let tool := stematizeTool fmt (fun o p g => fuzzyLemmatizeIn Q L (fuzzyImages cs t) R sort (b :: bf) junk (inPage enc w) o p g 2) stmset stbuff grbuff
    let room := (packed (xs.map fun x => inPage enc (fuzzyText L cs (w.map L.tab.lower) x))).length
    let few := xs.length ≤ 64 ∧ (∀ x ∈ xs, x.ccstem + (classOf cs x.cls).normal.length < 64) ∧ (fuzzyGrams cs xs).length ≤ 64
    (few → room < stbuff.length → ∀ score : FuzzyLemma → List Byte, (∀ x ∈ xs, Plain (inPage enc (fuzzyText L cs (w.map L.tab.lower) x)) ∧
        ScoreText (fmt (fuzzyWeight R cs (w.map L.tab.lower) x)) (score x)) →
      ∃ (out : List Byte) (ys : List FuzzyLemma), tool = some (out, 0) ∧ ys.Perm xs ∧
        (ys.Pairwise fun x y => fuzzyWeight R cs (w.map L.tab.lower) y ≤ fuzzyWeight R cs (w.map L.tab.lower) x) ∧
        read out = some (.arr (ys.map (stemJsonIn (inPage enc) L cs (w.map L.tab.lower) score)))) ∧
    (¬ few ∨ stbuff.length < room → tool = some (asciiBytes "[\n]", 0)) := by
  intro tool room few
  have hnil : sort [] = [] := List.Perm.eq_nil (hsort []).1
  have same := C87_lemmatize hQ (fuzzyImages cs t) R sort hnil (b :: bf) junk w hk hlen (some stmset) (some grbuff) 2
  have refused : ∀ e o s, fuzzyLemmatizeIn Q L (fuzzyImages cs t) R sort (b :: bf) junk (inPage enc w) (some stmset) (some stbuff) (some grbuff) 2 =
      some (e, o, s) → e < 0 → tool = some (asciiBytes "[\n]", 0) := by
    intro e o s k1 k2
    simp only [tool, stematizeTool, k1, bind, Option.bind_some, if_neg (by omega : e ≠ 0), show e.toNat = 0 by omega]
    simp [printItems]
    decide
  by_cases hfew : ¬ few
  · refine ⟨fun h => absurd h hfew, fun _ => ?_⟩
    obtain ⟨e, o, s, k1, k2⟩ := same.errors (fun B => by
      obtain ⟨e, s, k1, k2⟩ := C39_refused_partial R L hL cs hok t ht hh w hw hlen hparts sort (fun l => (hsort l).1) b bf junk stmset
        (some B) (some grbuff) 2 xs hxs (fun _ => hj)
        (.inl fun h => hfew ⟨h.count, h.words rfl, _h3 ▸ h.grams _ rfl⟩)
      exact ⟨e, _, s, k1, by omega⟩) stbuff
    exact refused e o s k1 k2
  obtain ⟨hcount, hwords, hgrams⟩ := Decidable.not_not.1 hfew
  rw [← _h3] at hgrams
  -- the native analyser, with room enough
  have native : ∀ B : List Byte, (fuzzyTexts L cs (w.map L.tab.lower) xs).length < B.length →
      ∃ stems s, fuzzyLemmatize L (fuzzyImages cs t) R sort (b :: bf) junk w (some stmset) (some B) (some grbuff) 2 =
        some ((xs.length : Int), some (stems ++ stmset.drop xs.length), s) ∧ stems.length = xs.length ∧
      ∃ xs', xs'.Perm xs ∧ List.Forall₂ (FuzzySays R L cs (w.map L.tab.lower) s.forms.buf s.grams) stems xs' ∧ s.grams.isSome := by
    intro B hB
    obtain ⟨stems, s, k1, k2, -, ⟨ys, k4, k5⟩, -, k7⟩ := C39_report_partial R L hL cs hok t ht hh w hw hlen hparts sort hsort b bf junk stmset
      (some B) (some grbuff) 2 xs hxs (fun _ x hx => hj x hx (hwords x hx))
      ⟨hcount, fun _ => hwords, fun B' hB' _ => by cases hB'; exact hB, fun G hG => by cases hG; exact hgrams⟩ (by omega)
    refine ⟨stems, s, k1, k2, ys, k4, k5, ?_⟩
    cases hb : s.grams with
    | none => rw [hb] at k7; cases k7
    | some G => rfl
  obtain ⟨stems0, s0, n1, -, -⟩ := native (List.replicate ((fuzzyTexts L cs (w.map L.tab.lower) xs).length + 1) 0) (by simp)
  obtain ⟨zs, ts, hG, hlts, -, hst, -, hall, hpage⟩ := same.there _ _ _ _ n1 (by omega)
  have hlts : ts.length = xs.length := by omega
  simp only [List.length_replicate] at hst
  have hT : (packed ts).length ≤ (fuzzyTexts L cs (w.map L.tab.lower) xs).length := by
    by_cases h0 : ts = []
    · simp [h0, packed]
    · have := hst h0; omega
  obtain ⟨stems, s, m1, m2, xs', m3, m4, m5⟩ := native (List.replicate ((fuzzyTexts L cs (w.map L.tab.lower) xs).length + 1) 7) (by simp)
  obtain ⟨s', a1, a2, a3⟩ := hall (List.replicate ((fuzzyTexts L cs (w.map L.tab.lower) xs).length + 1) 7) (by simp; omega)
  rw [m1] at a1
  simp only [Option.some.injEq, Prod.mk.injEq, Option.map_some] at a1
  obtain ⟨-, a1, rfl⟩ := a1
  obtain ⟨a1, -⟩ := List.append_inj a1 (by
    rw [m2, (hsort _).1.length_eq, List.length_map, hG.1, hlts])
  obtain ⟨G, hGr⟩ := Option.isSome_iff_exists.1 m5
  rw [a2, hGr, a1] at m4
  obtain ⟨xs2, m6, m7⟩ := List.perm_comp_forall₂ (hsort _).1.symm m4
  have hperm : xs2.Perm xs := m7.trans m3
  have hmem : ∀ y ∈ xs2, y ∈ xs := fun y hy => hperm.mem_iff.1 hy
  rw [List.forall₂_map_left_iff] at m6
  -- the texts
  have hroomB : (packed ts).length < (List.replicate ((fuzzyTexts L cs (w.map L.tab.lower) xs).length + 1) 7).length := by simp; omega
  have hlen2 : ts.length = xs2.length := by rw [hlts, hperm.length_eq]
  have hts : ts = xs2.map (fuzzyText L cs (w.map L.tab.lower)) := by
    apply texts_eq_of_room
    · rw [List.forall₂_iff_get]
      refine ⟨hlen2, fun i hi hi2 => ?_⟩
      have hiz : i < zs.length := by rw [hG.1]; exact hi
      have hs := (List.forall₂_iff_get.1 m6).2 i hiz hi2
      obtain ⟨o, p1, p2⟩ := hs.text _ rfl
      obtain ⟨q1, -⟩ := hG.2 i (zs.get ⟨i, hiz⟩) (by simp)
      obtain ⟨r, hr⟩ := filled_drop hroomB hi
      simp only [guessRecord, q1, Option.map_some, List.map_id, Option.some.injEq, id, List.map_id'] at p1
      rw [← p1, hr] at p2
      obtain ⟨z, hz2⟩ := p2
      refine prefix_of_zero (r := r) (z := z) (hz _ (hmem _ (List.get_mem _ _))) ?_
      simpa using hz2
    · rw [← fuzzyTexts_packed, fuzzyTexts_packed, packed_perm_length (hperm.map _), ← fuzzyTexts_packed]
      exact hT
  have hroom : (packed (ts.map (inPage enc))).length = (packed (xs.map fun x => inPage enc (fuzzyText L cs (w.map L.tab.lower) x))).length := by
    rw [hts, List.map_map]
    exact packed_perm_length (hperm.map _)
  constructor
  · intro _ hr score hsc
    simp only [room] at hr
    rw [← hroom] at hr
    obtain ⟨st, b1, b2, b3⟩ := (hpage stbuff).1 hr
    rw [← a3, hGr] at b3
    have hsays : List.Forall₂ (PageSays (inPage enc) R L cs (w.map L.tab.lower) (filled stbuff (ts.map (inPage enc))) G)
        (zs.map (guessRecord (inPage enc) ts)) xs2 := by
      rw [List.forall₂_map_left_iff, List.forall₂_iff_get]
      refine ⟨by rw [hG.1, hlen2], fun i hi hi2 => ?_⟩
      have hs := (List.forall₂_iff_get.1 m6).2 i hi hi2
      have hit : i < ts.length := by omega
      obtain ⟨q1, -⟩ := hG.2 i (zs.get ⟨i, hi⟩) (by simp)
      obtain ⟨r, hr⟩ := filled_drop hr (i := i) (by simpa using hit)
      refine ⟨hs.nclass, hs.weight, ⟨(packed ((ts.take i).map (inPage enc))).length, r, by simp only [guessRecord, q1, Option.map_some], ?_⟩, hs.grams G rfl⟩
      rw [List.map_take, hr]
      simp [hts]
    obtain ⟨ys, c1, c2⟩ := List.perm_comp_forall₂ (hsort (zs.map (guessRecord (inPage enc) ts))).1 hsays
    have hyp : ys.Perm xs := c2.trans hperm
    have hmemy : ∀ y ∈ ys, y ∈ xs := fun y hy => hyp.mem_iff.1 hy
    have hord : ys.Pairwise fun x y => fuzzyWeight R cs (w.map L.tab.lower) y ≤ fuzzyWeight R cs (w.map L.tab.lower) x := by
      have : ∀ (l : List (FuzzyStem ω)) (m : List FuzzyLemma), List.Forall₂ (PageSays (inPage enc) R L cs (w.map L.tab.lower)
            (filled stbuff (ts.map (inPage enc))) G) l m →
          l.Pairwise (fun a b => b.weight ≤ a.weight) →
          m.Pairwise fun a b => fuzzyWeight R cs (w.map L.tab.lower) b ≤ fuzzyWeight R cs (w.map L.tab.lower) a := by
        intro l m hl
        induction hl with
        | nil => intro _; exact .nil
        | cons hd htl ih =>
          intro hp
          rw [List.pairwise_cons] at hp ⊢
          refine ⟨fun y hy => ?_, ih hp.2⟩
          obtain ⟨s, hs, hsy⟩ := forall₂_mem_right htl hy
          rw [← hsy.weight, ← hd.weight]
          exact hp.1 s hs
      exact this _ _ c1 (hsort _).2
    have hrefs : ∀ x ∈ xs, x.refs ≠ [] := by
      intro x hx
      rw [hxs, fuzzyLemmas] at hx
      obtain ⟨n, -, hx⟩ := List.mem_flatMap.1 hx
      obtain ⟨p, -, hp⟩ := List.mem_filterMap.1 hx
      split at hp
      · rename_i hc
        cases hp
        exact hc.1
      · cases hp
    by_cases h0 : xs = []
    · have hy : ys = [] := List.length_eq_zero_iff.1 (by rw [hyp.length_eq, h0]; rfl)
      refine ⟨asciiBytes "[]", ys, ?_, hyp, hord, ?_⟩
      · simp [tool, stematizeTool, b1, h0]
      · rw [hy, litEmpty]; exact read_of (reads_arr (ts := []) (w := []) .nil (by simp))
    · have hn : ((xs.length : Int)) ≠ 0 := by
        have := List.length_pos_iff.2 h0
        omega
      obtain ⟨us, m1, m2⟩ := reads_mapM (f := printStem fmt (filled stbuff (ts.map (inPage enc))) G)
        (k := stemJsonIn (inPage enc) L cs (w.map L.tab.lower) score)
        (fun r y (hy : _ ∧ y ∈ xs) => printStem_page hy.1 (hsc y hy.2).1 (hrefs y hy.2) (hsc y hy.2).2)
        (forall₂_and_right c1 hmemy)
      have k2 : (sort (zs.map (guessRecord (inPage enc) ts))).length = xs.length := by
        rw [(hsort _).1.length_eq, List.length_map, hG.1, hlts]
      refine ⟨asciiBytes "[" ++ printItems [] (asciiBytes ",") us ++ asciiBytes "\n]", ys, ?_, hyp, hord, read_of ?_⟩
      · simp only [tool, stematizeTool, b1, bind, Option.bind_some, if_neg hn, b2, b3, Option.getD_some, Int.toNat_natCast, Option.map_some, hlts]
        rw [if_pos (by simp [k2]), List.take_left' k2, m1]
        rfl
      · rw [litOpen, litComma, litClose]
        have := reads_items (ws := []) (by simp) m2 (w := [10]) (by decide)
        simpa using this
  · intro hr
    have hr := hr.resolve_left hfew
    simp only [room] at hr
    rw [← hroom] at hr
    obtain ⟨o, st, k1⟩ := (hpage stbuff).2 hr
    exact refused _ _ _ k1 (by decide)

end Libmorph
