import Verif.Props.C40
import Verif.Props.C50
/-
C53: the wide-character interface of the fuzzy analysers.
-/
namespace Libmorph

variable {C : Codec} {byte : Nat → Byte} {wide : Byte → Nat} {ω : Type}

theorem zeroed_packed (xs : List (List Byte)) : zeroed xs = packed xs := by
  simp [zeroed, packed, List.flatMap]

theorem fuzzyTexts_packed (L : FuzzyLang) (cs : List FuzzyClass) (w : List Byte) (xs : List FuzzyLemma) :
    fuzzyTexts L cs w xs = packed (xs.map (fuzzyText L cs w)) := by
  simp [fuzzyTexts, packed, List.flatMap, Function.comp_def]

theorem FuzzyLang.printed_text {L : FuzzyLang} (hL : L = rusFuzzy ∨ L = engFuzzy) (d : Nat) (hd : d ≤ 2) (w : List Byte) (hw : Text w) :
    Text (L.printed d w) := by
  rcases hL with rfl | rfl
  · exact rusPrinted_text d hd w hw
  · exact hw

/-- What a stem reported by the wide interface says of the lemma `x`: as `FuzzySays`, the text converted. -/
structure WideFuzzySays (wide : Byte → Nat) (R : FuzzyRank ω) (L : FuzzyLang) (cs : List FuzzyClass) (w : List Byte) (W : Option (List Nat))
    (G : Option (List Gram)) (s : FuzzyStem ω) (x : FuzzyLemma) : Prop where
  ccstem : s.ccstem = x.ccstem
  nclass : s.nclass = x.cls
  weight : s.weight = fuzzyWeight R cs w x
  text : ∀ v, W = some v → ∃ o, s.plemma = some o ∧ (fuzzyText L cs w x).map wide ++ [0] <+: v.drop o
  null : W = none → s.plemma = none
  grams : ∀ g, G = some g → ∃ o, s.pgrams = some o ∧ s.ngrams = x.refs.length ∧
    (g.drop o).take s.ngrams = x.refs.map fun r => ⟨(classOf cs x.cls).partSp, r.form, 0, 0⟩

theorem fuzzyLay_wideSays (wide : Byte → Nat) (R : FuzzyRank ω) (L : FuzzyLang) (cs : List FuzzyClass) (w : List Byte) (W : Option (List Nat))
    (G : Option (List Gram)) (xs : List FuzzyLemma) : ∀ (x y : List Nat) (p q : List Gram),
    (∀ b, W = some b → b = x ++ widePacked wide (xs.map (fuzzyText L cs w)) ++ y) → (∀ g, G = some g → g = p ++ fuzzyGrams cs xs ++ q) →
    List.Forall₂ (WideFuzzySays wide R L cs w W G) (fuzzyLay R L cs w W.isSome G.isSome x.length p.length xs) xs := by
  induction xs with
  | nil => intro x y p q h1 h2; exact .nil
  | cons a xs ih =>
    intro x y p q h1 h2
    have e1 : widePacked wide ((a :: xs).map (fuzzyText L cs w)) =
        ((fuzzyText L cs w a).map wide ++ [0]) ++ widePacked wide (xs.map (fuzzyText L cs w)) := by simp [widePacked]
    have e2 : fuzzyGrams cs (a :: xs) = (a.refs.map fun r => ⟨(classOf cs a.cls).partSp, r.form, 0, 0⟩) ++ fuzzyGrams cs xs := by
      simp [fuzzyGrams]
    rw [fuzzyLay]
    refine .cons ⟨rfl, rfl, rfl, ?_, ?_, ?_⟩ ?_
    · intro b hb
      refine ⟨x.length, by simp [hb], ?_⟩
      rw [h1 b hb, e1]
      simp only [List.append_assoc, List.drop_left]
      exact ⟨widePacked wide (xs.map (fuzzyText L cs w)) ++ y, by simp⟩
    · intro hW; simp [hW]
    · intro g hg
      refine ⟨p.length, by simp [hg], by simp [hg], ?_⟩
      simp only [hg, Option.isSome_some, if_true]
      rw [h2 g hg, e2]
      simp only [List.append_assoc, List.drop_left]
      exact List.take_left' (by simp)
    · have := ih (x ++ ((fuzzyText L cs w a).map wide ++ [0])) y (p ++ (a.refs.map fun r => ⟨(classOf cs a.cls).partSp, r.form, 0, 0⟩)) q
        (by intro b hb; rw [h1 b hb, e1]; simp) (by intro g hg; rw [h2 g hg, e2]; simp)
      simpa [Nat.add_assoc] using this

theorem wideStems_eq (tl : List (FuzzyStem ω)) : ∀ (rs done x y : List (FuzzyStem ω)), x.length = done.length → rs.length ≤ y.length →
    wideStems (done ++ rs ++ tl) rs.length x.length (x ++ y) = some (x ++ rs ++ y.drop rs.length) := by
  intro rs
  induction rs with
  | nil => intro done x y _ _; simp [wideStems]
  | cons r rs ih =>
    intro done x y h1 h2
    cases y with
    | nil => simp at h2
    | cons a y =>
      rw [List.length_cons, wideStems, h1, List.append_assoc, List.getElem?_append_right (by omega)]
      simp only [Nat.sub_self, List.cons_append, List.getElem?_cons_zero, Option.bind_eq_bind, Option.bind_some]
      rw [if_pos (by simp; omega)]
      have e : (x ++ a :: y).set done.length r = (x ++ [r]) ++ y := by rw [← h1]; simp
      have := ih (done ++ [r]) (x ++ [r]) y (by simp [h1]) (by simpa using h2)
      rw [e]
      simp only [List.length_append, List.length_cons, List.length_nil, h1, List.append_assoc, List.cons_append, List.nil_append] at this ⊢
      rw [this]
      simp

theorem fuzzyText_zero {R : FuzzyRank ω} {L : FuzzyLang} (hL : L = rusFuzzy ∨ L = engFuzzy) {cs : List FuzzyClass} (hok : FuzzyOk R L cs)
    {w : List Byte} (hw : Text w) (x : FuzzyLemma) : 0 ∉ fuzzyText L cs w x := by
  refine Text.zero (FuzzyLang.printed_text hL _ (pspMinCap_le _) _ (Text.append (fun b hb => hw b (List.mem_of_mem_take hb)) ?_))
  simp only [FuzzyClass.normal, classOf]
  cases hc : cs[x.cls]? with
  | none => intro b hb; simp at hb
  | some c =>
    simp only [Option.getD_some]
    cases hf : c.flexes with
    | nil => intro b hb; simp at hb
    | cons f fs =>
      simp only [List.head?_cons, Option.map_some, Option.getD_some]
      exact hok.text c (List.mem_of_getElem? hc) f (by rw [hf]; simp)

/-- **C53** Lemmatize: under the conditions of C39, when there are at most 32 lemmas and their texts take less than 240 bytes, the client
gets one stem for each lemma of the converted word, ordered by descending weight, with the converted text and the descriptions, and the
array is unchanged beyond.  Missing: as in `C39_report_partial`; without an array of stems. -/
theorem C53_report_partial [LinearOrder ω] (hC : C.Ok byte wide) (R : FuzzyRank ω) (L : FuzzyLang) (hL : L = rusFuzzy ∨ L = engFuzzy)
    (cs : List FuzzyClass) (hok : FuzzyOk R L cs) (t : PTree) (ht : t.WF) (hh : t.Holds (fuzzyMap cs)) (w : List Nat)
    (hw : Text (w.map byte)) (hlen : w.length < 240) (hparts : (wordParts L.tab (w.map byte)).length ≤ 8)
    (sort : List (FuzzyStem ω) → List (FuzzyStem ω))
    (hsort : ∀ l, (sort l).Perm l ∧ (sort l).Pairwise fun a b => b.weight ≤ a.weight)
    (b : Byte) (bf junk : List Byte) (stbuff : List (FuzzyStem ω)) (szlemm : List Byte) (hst : stbuff.length = 32) (hsz : szlemm.length = 240)
    (out : List (FuzzyStem ω)) (W : Option (List Nat)) (G : Option (List Gram)) (dwsets : Nat) (xs : List FuzzyLemma)
    (hxs : xs = fuzzyLemmas (fuzzyFits L (w.map byte) dwsets) cs ((w.map byte).map L.tab.lower))
    (hj : W.isSome → ∀ x ∈ xs, FuzzyStops L junk (x.ccstem + (classOf cs x.cls).normal.length))
    (hcount : xs.length ≤ 32) (hout : xs.length ≤ out.length)
    (hwords : W.isSome → ∀ x ∈ xs, x.ccstem + (classOf cs x.cls).normal.length < 64)
    (htexts : ∀ v, W = some v → xs ≠ [] → (fuzzyTexts L cs ((w.map byte).map L.tab.lower) xs).length < min v.length 240)
    (hgrams : ∀ g, G = some g → (fuzzyGrams cs xs).length ≤ g.length) :
    ∃ stems W' G', wideFuzzyLemmatize C (fun s o p g => fuzzyLemmatize L (fuzzyImages cs t) R sort (b :: bf) junk s o p g dwsets) stbuff szlemm w
        (some out) W G = some ((xs.length : Int), some (stems ++ out.drop xs.length), W', G') ∧
      stems.length = xs.length ∧ stems.Pairwise (fun a b => b.weight ≤ a.weight) ∧
      (∃ xs', xs'.Perm xs ∧ List.Forall₂ (WideFuzzySays wide R L cs ((w.map byte).map L.tab.lower) W' G') stems xs') ∧
      W'.map List.length = W.map List.length ∧ G'.map List.length = G.map List.length := by
  obtain ⟨s0, hn⟩ := Option.isSome_iff_exists.1 (hC.narrow_room 0xf0 w hlen)
  obtain ⟨hn1, -⟩ := hC.narrow_some _ _ _ hn
  subst hn1
  have hnil : sort [] = [] := List.Perm.eq_nil (hsort []).1
  have hnB : (narrowB szlemm W).isSome = W.isSome := by cases W <;> rfl
  obtain ⟨st, h1, h2, h0, h3⟩ := (fuzzyLemmatize_eq (pforms := narrowB szlemm W) (pgrams := G) hL hok ht hh hw (by simp; omega) hparts sort hnil b bf junk
    (some (stbuff.take (min out.length 0x20))) dwsets xs hxs (fun h x hx _ => hj (hnB ▸ h) x hx)).1
    ⟨⟨by omega, fun h => hwords (hnB ▸ h), by
        intro B hB hne
        cases W with
        | none => simp [narrowB] at hB
        | some v =>
          simp only [narrowB, Option.map_some, Option.some.injEq] at hB
          have := htexts v rfl hne
          rw [← hB, List.length_take, hsz]; omega,
      hgrams⟩, by
      intro o ho
      simp only [Option.some.injEq] at ho
      rw [← ho, List.length_take]; omega⟩
  rw [hnB] at h1
  set lay := fuzzyLay R L cs ((w.map byte).map L.tab.lower) W.isSome G.isSome 0 0 xs with hlay
  have hll : (sort lay).length = xs.length := by rw [(hsort _).1.length_eq, hlay, fuzzyLay_length]
  have hcall : wideFuzzyLemmatize C (fun s o p g => fuzzyLemmatize L (fuzzyImages cs t) R sort (b :: bf) junk s o p g dwsets) stbuff szlemm w
        (some out) W G = some ((xs.length : Int), some (sort lay ++ out.drop xs.length),
          W.map (fun v => widePacked wide (xs.map (fuzzyText L cs ((w.map byte).map L.tab.lower))) ++
            v.drop (fuzzyTexts L cs ((w.map byte).map L.tab.lower) xs).length), st.grams) := by
    rw [wideFuzzyLemmatize, hn]
    simp only [Option.bind_eq_bind]
    change (fuzzyLemmatize L (fuzzyImages cs t) R sort (b :: bf) junk (w.map byte) (some (stbuff.take (min out.length 0x20))) (narrowB szlemm W) G dwsets).bind _ = _
    rw [h1]
    simp only [Option.bind_some]
    by_cases hx : xs = []
    · subst hx
      rw [if_pos (by simp)]
      have : sort lay = [] := List.eq_nil_of_length_eq_zero hll
      rw [this]
      simp [widePacked, fuzzyTexts]
    · have hpos := List.length_pos_iff.2 hx
      rw [if_neg (by omega)]
      have hA : wideStems (((some (stbuff.take (min out.length 0x20))).map fun out => sort lay ++ out.drop xs.length).getD []) ((xs.length : Int)).toNat 0 out
          = some (sort lay ++ out.drop xs.length) := by
        have := wideStems_eq ((stbuff.take (min out.length 0x20)).drop xs.length) (sort lay) [] [] out rfl (by omega)
        rw [hll] at this
        simpa using this
      have hB : (whenPtr W fun p => wideLoop C ((xs.length : Int)).toNat (st.forms.buf.getD []) p 0) =
          some (W.map (fun v => widePacked wide (xs.map (fuzzyText L cs ((w.map byte).map L.tab.lower))) ++
            v.drop (fuzzyTexts L cs ((w.map byte).map L.tab.lower) xs).length)) := by
        cases W with
        | none => rfl
        | some v =>
          obtain ⟨-, tail, k1, k2⟩ := h2 _ rfl
          have := htexts v rfl hx
          have k3 := wideLoop_eq hC (xs.map (fuzzyText L cs ((w.map byte).map L.tab.lower))) (by
            intro t ht
            obtain ⟨x, -, rfl⟩ := List.mem_map.1 ht
            exact fuzzyText_zero hL hok (fuzzyLower_text hL hw) x) tail [] v (by rw [← fuzzyTexts_packed]; omega)
          simp only [whenPtr, Option.map_some, k1, Option.getD_some, Int.toNat_natCast]
          rw [fuzzyTexts_packed]
          simp only [List.nil_append, List.length_nil, List.length_map] at k3
          rw [k3]; rfl
      simp only [whenPtr, Option.map_some, Option.getD_some] at hA
      simp only [whenPtr, Option.map_some, Option.getD_some, hA, Option.bind_some]
      cases W with
      | none => rfl
      | some v =>
        simp only [whenPtr] at hB
        simp only [hB, Option.bind_some]; rfl
  refine ⟨sort lay, _, _, hcall, hll, (hsort _).2, ?_, ?_, ?_⟩
  · have hsays := fuzzyLay_wideSays wide R L cs ((w.map byte).map L.tab.lower)
      (W.map (fun v => widePacked wide (xs.map (fuzzyText L cs ((w.map byte).map L.tab.lower))) ++
            v.drop (fuzzyTexts L cs ((w.map byte).map L.tab.lower) xs).length)) st.grams xs []
      ((W.getD []).drop (fuzzyTexts L cs ((w.map byte).map L.tab.lower) xs).length) [] ((G.getD []).drop (fuzzyGrams cs xs).length)
      (by
        intro v hv
        cases W with
        | none => simp at hv
        | some u => simp only [Option.map_some, Option.some.injEq] at hv; rw [← hv]; simp)
      (by
        intro g hg
        rw [h3] at hg
        cases G with
        | none => simp at hg
        | some u => simp only [Option.map_some, Option.some.injEq] at hg; rw [← hg]; simp)
    have e1 : (W.map (fun v => widePacked wide (xs.map (fuzzyText L cs ((w.map byte).map L.tab.lower))) ++
            v.drop (fuzzyTexts L cs ((w.map byte).map L.tab.lower) xs).length)).isSome = W.isSome := by cases W <;> rfl
    have e2 : st.grams.isSome = G.isSome := by rw [h3]; cases G <;> rfl
    rw [e1, e2] at hsays
    simp only [List.length_nil] at hsays
    obtain ⟨v, hv1, hv2⟩ := List.perm_comp_forall₂ (hsort _).1 hsays
    exact ⟨v, hv2, hv1⟩
  · cases W with
    | none => rfl
    | some v =>
      simp only [Option.map_some, Option.some.injEq, List.length_append, List.length_drop, widePacked_length, ← fuzzyTexts_packed]
      by_cases hx : xs = []
      · subst hx; simp [fuzzyTexts]
      · have := htexts v rfl hx
        omega
  · rw [h3]
    cases G with
    | none => rfl
    | some g =>
      have := hgrams g rfl
      simp; omega

/-- **C53** BuildForm: for a class whose form numbers ascend and a stem below 64 characters, exactly the endings of the form number,
appended to the stem, converted; when something has no room, an error, and the buffer is as it was. -/
theorem C53_forms_partial (hC : C.Ok byte wide) (R : FuzzyRank ω) (L : FuzzyLang) (hL : L = rusFuzzy ∨ L = engFuzzy) (cs : List FuzzyClass)
    (hok : FuzzyOk R L cs) (t : PTree) (stem : List Nat) (hw : Text (stem.map byte)) (hne : stem ≠ [])
    (hlen : stem.length < 64) (hparts : (wordParts L.tab (stem.map byte)).length ≤ 8) (junk szform : List Byte) (hs96 : szform.length = 96)
    (out : List Nat) (ho : out ≠ []) (i : Nat) (c : FuzzyClass)
    (hc : cs[i]? = some c) (hs : (c.flexes.map (·.1)).Pairwise (· ≤ ·)) (form : Nat) (fs : List (List Byte))
    (hfs : fs = ((c.flexes.filter (·.1 = form)).map fun f => L.printed (pspMinCap c.partSp) ((stem.map byte).map L.tab.lower ++ f.2)))
    (hj : ∀ e ∈ c.endings form, stem.length + e.length ≤ 64 → FuzzyStops L junk (stem.length + e.length)) :
    (((∀ e ∈ c.endings form, stem.length + e.length ≤ 64) ∧ (fs ≠ [] → (packed fs).length < min out.length 95)) →
      wideFuzzyForm C (fun B s => fuzzyBuildForm L (fuzzyImages cs t) junk B s i form) szform out stem =
        some ((fs.length : Int), widePacked wide fs ++ out.drop (packed fs).length)) ∧
    (¬ ((∀ e ∈ c.endings form, stem.length + e.length ≤ 64) ∧ (fs ≠ [] → (packed fs).length < min out.length 95)) →
      ∃ e, wideFuzzyForm C (fun B s => fuzzyBuildForm L (fuzzyImages cs t) junk B s i form) szform out stem = some (e, out) ∧
        (e = -1 ∨ e = -4)) := by
  obtain ⟨s0, hn⟩ := Option.isSome_iff_exists.1 (hC.narrow_room 0x40 stem hlen)
  obtain ⟨hn1, -⟩ := hC.narrow_some _ _ _ hn
  subst hn1
  have hol := List.length_pos_iff.2 ho
  have hBl : (szform.take (min out.length 0x5f)).length = min out.length 95 := by rw [List.length_take, hs96]; omega
  have hB : szform.take (min out.length 0x5f) ≠ [] := by
    intro h0
    rw [h0, List.length_nil] at hBl; omega
  obtain ⟨k1, k2⟩ := C50_forms_partial R L hL cs hok t (stem.map byte) hw (by simpa using hne) (by simp; omega) hparts junk
    (szform.take (min out.length 0x5f)) hB i c hc hs form fs hfs (by simpa using hj)
  rw [zeroed_packed, hBl] at k1 k2
  simp only [List.length_map] at k1 k2
  refine ⟨fun hroom => ?_, fun hno => ?_⟩
  · obtain ⟨tail, h1, h2⟩ := k1 hroom
    have hz : ∀ f ∈ fs, 0 ∉ f := by
      intro f hf
      rw [hfs] at hf
      obtain ⟨e, he, rfl⟩ := List.mem_map.1 hf
      refine Text.zero (FuzzyLang.printed_text hL _ (pspMinCap_le _) _ (Text.append (fuzzyLower_text hL hw) ?_))
      exact hok.text c (List.mem_of_getElem? hc) e (List.mem_of_mem_filter he)
    rw [wideFuzzyForm, hn]
    simp only [Option.bind_eq_bind, h1, Option.bind_some, Option.getD_some, Int.toNat_natCast]
    have hfit : (packed fs).length ≤ out.length := by
      clear h1 h2
      by_cases h0 : fs = []
      · simp [h0, packed]
      · have hlt := hroom.2 h0
        exact Nat.le_trans (Nat.le_of_lt hlt) (Nat.min_le_left _ _)
    have := wideLoop_eq hC fs hz tail [] out hfit
    simp only [List.nil_append, List.length_nil] at this
    rw [this]; rfl
  · obtain ⟨e, o, h1, h2⟩ := k2 hno
    refine ⟨e, ?_, h2⟩
    rw [wideFuzzyForm, hn]
    simp only [Option.bind_eq_bind, h1, Option.bind_some]
    have : e.toNat = 0 := by rcases h2 with rfl | rfl <;> rfl
    rw [this]
    rfl

theorem wideModelsLoop_eq (hC : C.Ok byte wide) (mc : Int) (ts : List (List Byte)) (hz : ∀ t ∈ ts, 0 ∉ t) (rest : List Byte) :
    ∀ (x y : List Nat), (packed ts).length ≤ y.length →
      wideModelsLoop C mc ts.length (packed ts ++ rest) (x ++ y) x.length =
        some (mc, x ++ widePacked wide ts ++ y.drop (packed ts).length) := by
  induction ts with
  | nil => intro x y _; simp [wideModelsLoop, widePacked, packed]
  | cons t ts ih =>
    intro x y hy
    have e1 : packed (t :: ts) = t ++ 0 :: packed ts := by simp [packed]
    have e2 : widePacked wide (t :: ts) = t.map wide ++ 0 :: widePacked wide ts := by simp [widePacked]
    have ht := hz t (by simp)
    rw [e1] at hy
    simp only [List.length_append, List.length_cons] at hy
    rw [e1, e2, List.length_cons, wideModelsLoop, if_pos (by simp)]
    rw [List.append_assoc, List.cons_append, takeWhile_zero t _ ht,
      hC.widen _ t (by rw [List.length_append]; omega) ht]
    simp only [Option.bind_eq_bind]
    rw [pokes, if_pos (by simp; omega)]
    simp only [Option.bind_some]
    have e3 : (t ++ 0 :: (packed ts ++ rest)).drop (t.length + 1) = packed ts ++ rest := by
      rw [show t.length + 1 = (t ++ [0]).length by simp, show t ++ 0 :: (packed ts ++ rest) = (t ++ [0]) ++ (packed ts ++ rest) by simp,
        List.drop_left]
    rw [e3, List.take_left]
    have e4 : x.length + t.length + 1 = (x ++ (t.map wide ++ [0])).length := by simp; omega
    have e5 : (x ++ y).drop (x.length + (t.map wide ++ [0]).length) = y.drop (t.length + 1) := by
      rw [List.drop_append]; simp
    rw [e4, e5, ih (fun u hu => hz u (by simp [hu])) _ _ (by rw [List.length_drop]; omega)]
    simp [List.drop_drop, Nat.add_comm, Nat.add_left_comm]

/-- **C53** GetModels: the samples of the class in the order of C51, converted, as many as fit 1024 bytes and the buffer. -/
theorem C53_models (hC : C.Ok byte wide) (R : FuzzyRank ω) (L : FuzzyLang) (cs : List FuzzyClass) (hok : FuzzyOk R L cs) (t : PTree)
    (buffer : List Byte) (hb : buffer.length = 0x400) (out : List Nat) (ho : out ≠ []) (i : Nat) (c : FuzzyClass) (hc : cs[i]? = some c)
    (hn : c.models.length < 2 ^ 32) (hm : ∀ m ∈ c.models, m.weight < 2 ^ 32 ∧ m.sample.length < 2 ^ 32 ∧ 0 ∉ m.sample) :
    ∃ (ms : List FuzzyModel) (k : Nat), ms.Perm c.models ∧
      ms.Pairwise (fun a b => b.weight < a.weight ∨ a.weight = b.weight ∧ bytesLt b.sample a.sample = false) ∧
      k ≤ ms.length ∧ (packed ((ms.take k).map (·.sample))).length ≤ min 0x400 out.length ∧
      (∀ m, ms[k]? = some m → min 0x400 out.length < (packed ((ms.take k).map (·.sample))).length + m.sample.length + 1) ∧
      wideGetModels C (fun B => fuzzyGetModels (fuzzyImages cs t) B i) buffer out =
        some (if k = 0 ∧ c.models ≠ [] then LEMMBUFF_FAILED else (k : Int),
          widePacked wide ((ms.take k).map (·.sample)) ++ out.drop (packed ((ms.take k).map (·.sample))).length) := by
  have hol := List.length_pos_iff.2 ho
  have hBl : (buffer.take (min 0x400 out.length)).length = min 0x400 out.length := by rw [List.length_take, hb]; omega
  have hB : buffer.take (min 0x400 out.length) ≠ [] := by
    intro h0
    rw [h0, List.length_nil] at hBl; omega
  obtain ⟨ms, k, tail, h1, h2, h3, h4, h5, h6, h7⟩ := C51_models R L cs hok t (buffer.take (min 0x400 out.length)) hB i c hc hn
    (fun m hm' => ⟨(hm m hm').1, (hm m hm').2.1⟩)
  rw [hBl] at h4 h5
  simp only [zeroed_packed] at h4 h5 h6
  refine ⟨ms, k, h1, h2, h3, h4, h5, ?_⟩
  rw [wideGetModels]
  simp only [h6, Option.bind_eq_bind, Option.bind_some, Option.getD_some]
  by_cases hk : k = 0
  · subst hk
    rw [if_pos (by split <;> simp [LEMMBUFF_FAILED])]
    simp [widePacked, packed]
  · rw [if_neg (by rw [if_neg (fun hh => hk hh.1)]; omega), if_neg (fun hh => hk hh.1)]
    have hlen : ((ms.take k).map (·.sample)).length = k := by simp; omega
    have := wideModelsLoop_eq hC (k : Int) ((ms.take k).map (·.sample)) (by
      intro s hs
      obtain ⟨m, hm', rfl⟩ := List.mem_map.1 hs
      exact (hm m (h1.mem_iff.1 (List.mem_of_mem_take hm'))).2.2) tail [] out (by omega)
    rw [hlen] at this
    simpa using this

/-- Non-vacuity: the wide interface over the sample dictionary, the codec of one-byte code points. -/
def wideStolov : Option (Int × Option (List (FuzzyStem Nat)) × Option (List Nat) × Option (List Gram)) :=
  wideFuzzyLemmatize idCodec (fun s o p g => fuzzyLemmatize rusFuzzy (fuzzyImages fuzzySample fuzzySampleTree) sampleRank sampleSort
      (List.replicate 240 0) (List.replicate 64 0) s o p g 0) (List.replicate 32 ⟨none, 0, 0, none, 0, 0⟩) (List.replicate 240 0) stolov
    (some (List.replicate 3 ⟨none, 9, 9, none, 9, 9⟩)) (some (List.replicate 14 1)) none

example : (wideStolov.map fun r => (r.1, r.2.1.map (·.map fun s => (s.nclass, s.plemma)))) =
    some (2, some [(0, some 7), (1, some 0), (9, none)]) := by decide +kernel

example : (wideStolov.map fun r => r.2.2.1) =
    some (some [209, 242, 238, 235, 238, 226, 0, 241, 242, 238, 235, 0, 1, 1]) := by decide +kernel

example : wideFuzzyForm idCodec (fun B s => fuzzyBuildForm rusFuzzy (fuzzyImages fuzzySample fuzzySampleTree) (List.replicate 64 0) B s 0 7)
      (List.replicate 96 0) (List.replicate 8 1) [241, 242, 238, 235] =
    some (1, [241, 242, 238, 235, 238, 226, 0, 1]) := by decide +kernel

example : wideGetModels idCodec (fun B => fuzzyGetModels (fuzzyImages fuzzySample fuzzySampleTree) B 0) (List.replicate 0x400 0)
      (List.replicate 10 1) = some (2, [228, 238, 236, 0, 241, 242, 238, 235, 0, 1]) := by decide +kernel

end Libmorph
