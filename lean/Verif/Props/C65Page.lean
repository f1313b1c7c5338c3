import Verif.Props.C85Exact
import Verif.Spec.PythonPage
import Verif.Props.C67
/-
C65: the Python class over the Russian dictionary in another code page; it works in UTF-8.
-/
namespace Libmorph
open Libmorph.Spec

variable {A : List Byte} {D : RusDict} {st : RusState}

theorem enc_text_zero {P : Page} {enc : Byte → List Byte} {known : Byte → Prop} (hP : P.Ok enc known) {t : List Byte} (h : 0 ∉ t) :
    0 ∉ inPage enc t := by
  simp only [inPage, List.mem_flatMap, not_exists, not_and]
  intro b hb
  exact (hP.code b (by rintro rfl; exact h hb)).2

/-- Another code page: what Python gets follows from how the library ends in code page 1251 with a buffer `B`. -/
theorem pyLemmatize_page {enc : Byte → List Byte}
    {native page : Option (List Lemm) → Option (List Byte) → Option (List Gram) → Nat → Option (Int × LemmState)}
    {H : List LemmStep} (dwsets : Nat) (h4 : dwsets &&& 4 = 0) (lx : List Lemm) (gr : List Gram)
    (h : ∀ B, AnswersAs (some lx) (some B) (pyGrams dwsets gr) (lemmGroups true H) (native (some lx) (some B) (pyGrams dwsets gr) (pySettings dwsets))
      (lemmEnd (some lx.length) (some B.length) ((pyGrams dwsets gr).map List.length) [] H))
    (hz : ∀ p ∈ H, 0 ∉ p.text) (henc : ∀ t : List Byte, 0 ∉ t → 0 ∉ inPage enc t)
    (hs : SameLemmas enc (fun B => native (some lx) (some B) (pyGrams dwsets gr) (pySettings dwsets))
      (fun B => page (some lx) (some B) (pyGrams dwsets gr) (pySettings dwsets)))
    (B sb : List Byte) (hroom : lemmEnd (some lx.length) (some B.length) ((pyGrams dwsets gr).map List.length) [] H = .done) :
    let texts := (lemmGroups true H).map fun g => inPage enc g.1.text
    ((packed texts).length < sb.length → pyLemmatize page lx sb gr dwsets = some ((lemmGroups true H).map (pyRecordIn (inPage enc) dwsets))) ∧
    (sb.length < (packed texts).length → pyLemmatize page lx sb gr dwsets = some []) := by
  have hzg : ∀ g ∈ lemmGroups true H, 0 ∉ g.1.text := fun g hgg => hz _ (mem_lemmGroups hgg)
  have hspec : ∀ B : List Byte, lemmEnd (some lx.length) (some B.length) ((pyGrams dwsets gr).map List.length) [] H = .done → ∃ s,
      native (some lx) (some B) (pyGrams dwsets gr) (pySettings dwsets) = some (((lemmGroups true H).length : Int), s) ∧
        GroupReported (some lx) (some B) (pyGrams dwsets gr) (lemmGroups true H) s := by
    intro B hB
    have := h B
    rw [hB] at this
    obtain ⟨s, k1, k2, -⟩ := this
    exact ⟨s, k1, k2⟩
  clear h
  have hsb4 : ∀ sb : List Byte, pyStrings dwsets sb = some sb := fun sb => by rw [pyStrings, if_pos h4]
  have b8 : (pyGrams dwsets gr).isSome = decide (dwsets &&& 8 = 0) := by rw [pyGrams]; split <;> simp_all
  generalize hGe : pyGrams dwsets gr = G at *
  generalize hgs : lemmGroups true H = gs at *
  intro texts
  obtain ⟨s, k1, k2⟩ := hspec B hroom
  obtain ⟨ts, t1, t2, t3, t4⟩ := hs.there B _ s k1 (by omega)
  have hlen : ts.length = gs.length := by omega
  -- the texts are those of the records
  have hts : ts = gs.map fun g => g.1.text := by
    by_cases h0 : gs = []
    · subst h0; simpa using hlen
    have hne : ts ≠ [] := by rintro rfl; simp at hlen; exact h0 (List.length_eq_zero_iff.1 hlen.symm)
    obtain ⟨s', q1, q2⟩ := t3 (List.replicate (B.length + (packed ts).length + (groupTexts gs).length + 2) 1) (by simp; omega)
    have hroom' := lemmEnd_more (nb' := (List.replicate (B.length + (packed ts).length + (groupTexts gs).length + 2) (1 : Byte)).length) hroom (by simp; omega)
    obtain ⟨s2, v1, v2⟩ := hspec _ hroom'
    rw [v1] at q1
    cases q1
    have v3 := v2.texts
    rw [q2] at v3
    simp only [Option.map_some, if_neg h0, Option.some.injEq] at v3
    rw [filled_room (by simp; omega) hne, List.drop_replicate, List.drop_replicate] at v3
    have := ones_end v3
    rw [groupTexts] at this
    exact packed_inj this (by simpa using hlen) (by
      intro u hu
      obtain ⟨g, hg, rfl⟩ := List.mem_map.1 hu
      exact hzg g hg)
  subst hts
  have hmap : (gs.map fun g => g.1.text).map (inPage enc) = texts := by simp [texts]
  rw [hmap] at t4
  refine ⟨fun hsb => ?_, fun hsb => ?_⟩
  · obtain ⟨t, p1, p2, p3, p4⟩ := (t4 sb).1 hsb
    obtain ⟨l, l1, l2, l3, -, l5⟩ := reported_says k2
    rw [l1] at p4
    rcases p4 with ⟨p4, -⟩ | ⟨a, b, pa, pb, pl, -, pi⟩
    · cases p4
    cases pa
    have p1' : page (some lx) (some sb) G (pySettings dwsets) = some ((gs.length : Int), t) := p1
    have hm : (b.take gs.length).mapM (readPyLemm (some (filled sb texts)) (s.grams.getD [])) = some (gs.map (pyRecordIn (inPage enc) dwsets)) := by
      refine mapM_of_forall₂ (R := fun r g => readPyLemm (some (filled sb texts)) (s.grams.getD []) r = some (pyRecordIn (inPage enc) dwsets g))
        (fun _ _ h => h) ?_
      rw [List.forall₂_iff_get] at l3 ⊢
      obtain ⟨m1, m2⟩ := l3
      refine ⟨by simp at m1 ⊢; omega, fun i hi hi2 => ?_⟩
      have hi' : i < l.length := by omega
      have hib : i < b.length := by omega
      have hsays := m2 i (by simp; omega) hi2
      simp only [List.get_eq_getElem, List.getElem_take] at hsays ⊢
      obtain ⟨e1, e2, e3, e4⟩ := pi i l[i] b[i] (List.getElem?_eq_getElem hi') (List.getElem?_eq_getElem hib)
      obtain ⟨-, e5⟩ := e4 (by simpa using hi2)
      obtain ⟨r, hr⟩ := filled_drop hsb (i := i) (by simpa [texts] using hi2)
      have hn : (readPyLemm s.forms.buf (s.grams.getD []) l[i]) = some (pyRecord dwsets gs[i]) := by
        refine readPyLemm_says hsays dwsets ?_ (by rw [l5]; exact b8) (hzg _ (List.getElem_mem _))
        rw [t2]; simp [h4]
      simp only [readPyLemm, bind, Option.bind_eq_some_iff, pure, Option.some.injEq] at hn ⊢
      obtain ⟨x, hx, y, hy, hxy⟩ := hn
      have hx2 : readPyText (some (filled sb texts)) b[i].plemma = some (some (inPage enc gs[i].1.text)) := by
        rw [readPyText, e5, List.map_take, hmap, hr, cstring_zero]
        · simp [texts]
        · simp only [texts, List.getElem_map]
          exact henc _ (hzg _ (List.getElem_mem _))
      refine ⟨_, hx2, y, by rw [← e2, ← e3]; exact hy, ?_⟩
      simp only [pyRecord, pyRecordIn, PyLemm.mk.injEq] at hxy ⊢
      exact ⟨by rw [← e1]; exact hxy.1, by rw [if_pos h4], hxy.2.2⟩
    simp only [pyLemmatize, hsb4, hGe, p1', bind, Option.bind_some, pb, Option.getD_some, Int.toNat_natCast, p2, p3]
    rw [if_pos (by omega)]
    exact hm
  · obtain ⟨t, p1⟩ := (t4 sb).2 hsb
    have p1' : page (some lx) (some sb) G (pySettings dwsets) = some (LEMMBUFF_FAILED, t) := p1
    simp only [pyLemmatize, hsb4, hGe, p1', bind, Option.bind_some]
    rw [show (LEMMBUFF_FAILED).toNat = 0 by decide]
    simp

/-- **C65** lemmatize in the code page the library was opened with, UTF-8 for example (`utf8Page_ok`), whatever the sizes.  `lemmEnd` works out how the
library ends in code page 1251 with 32 records, 512 descriptions (or none) and room `B` for the texts.  With SF_NO_LEMMA_STRING the list is that of 1251.  Without: when it
reports the records with some `B`, the list has them all, the dictionary forms converted, or is empty when the converted forms do not fit into the
2048 bytes; when it refuses some `B` and blames the records or the descriptions, the list is empty.
Missing: an article the dictionary forms of which do not fit into the 256 bytes of the library's own array; what happens in the code page when in 1251
there is a write behind the records; converted forms that take the 2048 bytes to the last. -/
theorem C65_code_page_partial {P : Page} {enc : Byte → List Byte} {known : Byte → Prop} (hP : P.Ok enc known) (h : RusOk A D st)
    (w junk : List Byte) (dwsets s : Nat) (hs : s = if dwsets &&& 2 ≠ 0 then 2 else 0) (hk : ∀ b ∈ w, known b)
    (hne : w ≠ []) (hlen : w.length < 48) (hparts : (wordParts rusTab w).length ≤ 8) (hD : dwsets &&& 4 = 0 → D.HasDict (w.map rusTab.lower) s) :
    ∃ H, D.Readings (rusAdmits w s) (w.map rusTab.lower) H ∧
    ∃ F : RusReading → List (List Byte), (dwsets &&& 4 = 0 → ∀ r ∈ H, D.DictForms r.art r.first s (F r)) ∧
    ∀ (lx : List Lemm) (sb : List Byte) (gr : List Gram), lx.length = 32 → sb.length = 2048 → gr.length = 512 →
      let hs := H.map fun r => r.step (F r)
      let texts := (lemmGroups true hs).map fun g => inPage enc g.1.text
      let ng := if dwsets &&& 8 = 0 then some 512 else none
      let answer := pyLemmatize (rusLemmatizeIn P (st.images D.mtab) junk (inPage enc w)) lx sb gr dwsets
      (dwsets &&& 4 ≠ 0 → answer = pyEnd dwsets (lemmGroups true hs) (lemmEnd (some 32) none ng [] hs)) ∧
      (dwsets &&& 4 = 0 → ∀ B : Nat,
        (lemmEnd (some 32) (some B) ng [] hs = .done →
          ((packed texts).length < 2048 → answer = some ((lemmGroups true hs).map (pyRecordIn (inPage enc) dwsets))) ∧
          (2048 < (packed texts).length → answer = some [])) ∧
        (∀ r, lemmEnd (some 32) (some B) ng [] hs = .code r → r ≠ LEMMBUFF_FAILED → answer = some [])) := by
  subst hs
  obtain ⟨H, h1, F, hF, h2⟩ := C90_russian h w (if dwsets &&& 2 ≠ 0 then 2 else 0) hne hlen hparts
  have hF' : dwsets &&& 4 = 0 → ∀ r ∈ H, D.DictForms r.art r.first (if dwsets &&& 2 ≠ 0 then 2 else 0) (F r) := by
    intro h4 r hr
    have hp := (h1.proper r hr).1
    obtain ⟨fs, hfs⟩ := hD h4 _ hp.art _ _ _ (first_reads hp) hp.word
    exact hF r hr fs hfs
  have hz : dwsets &&& 4 = 0 → ∀ p ∈ H.map (fun r => r.step (F r)), 0 ∉ p.text := by
    intro h4 p hp
    obtain ⟨r, hr, rfl⟩ := List.mem_map.1 hp
    obtain ⟨k1, k2, -⟩ := rusDictForms_eq h (h1.proper r hr).1.art r.first _ (F r) (hF' h4 r hr)
    exact (rusPrinted_text _ r.art.demand_le _ (k2 _ (leastForm_mem k1))).zero
  refine ⟨H, h1, F, hF', fun lx sb gr hl hb hg => ?_⟩
  intro hs texts ng answer
  have e2 : (pyGrams dwsets gr).map List.length = ng := by
    simp only [pyGrams, ng]; split <;> simp_all
  constructor
  · intro h4
    have k := h2 junk (some lx) (pyStrings dwsets sb) (pyGrams dwsets gr) (fun hb => absurd hb (by simp [pyStrings, h4]))
    have e1 : pyStrings dwsets sb = none := by rw [pyStrings, if_neg h4]
    have ep : answer = pyLemmatize (rusLemmatize (st.images D.mtab) junk w) lx sb gr dwsets := by
      simp only [answer, pyLemmatize, e1, C84_lemmatize_numbers hP (st.images D.mtab) junk w hk hlen]
    rw [e2, Option.map_some, hl] at k
    rw [ep, pyLemmatize_exact k fun p _ hb => absurd hb (by simp [pyStrings, h4]), e1]
    rfl
  · intro h4 B
    have ans : ∀ B : List Byte, AnswersAs (some lx) (some B) (pyGrams dwsets gr) (lemmGroups true hs)
        (rusLemmatize (st.images D.mtab) junk w (some lx) (some B) (pyGrams dwsets gr) (pySettings dwsets))
        (lemmEnd (some lx.length) (some B.length) ((pyGrams dwsets gr).map List.length) [] hs) :=
      fun B => h2 junk (some lx) (some B) (pyGrams dwsets gr) fun _ => hD h4
    have same := C84_lemmatize hP (st.images D.mtab) junk w hk hlen (some lx) (pyGrams dwsets gr) (pySettings dwsets)
    have hB : (List.replicate B (0 : Byte)).length = B := List.length_replicate
    rw [← hl, ← e2, ← hB]
    constructor
    · intro hend
      have := pyLemmatize_page (native := fun L B G f => rusLemmatize (st.images D.mtab) junk w L B G f)
        (page := fun L B G f => rusLemmatizeIn P (st.images D.mtab) junk (inPage enc w) L B G f) dwsets h4 lx gr ans (hz h4) (fun t => enc_text_zero hP) same
        (List.replicate B 0) sb hend
      rw [hb] at this
      exact this
    · intro r hend hne1
      have k := ans (List.replicate B 0)
      rw [hend] at k
      obtain ⟨s, k1, k2, -⟩ := k
      have fail : ∀ e t, e < 0 → rusLemmatizeIn P (st.images D.mtab) junk (inPage enc w) (some lx) (some sb) (pyGrams dwsets gr) (pySettings dwsets) = some (e, t) →
          answer = some [] := by
        intro e t he h
        simp only [answer, pyLemmatize, pyStrings, if_pos h4, h, bind, Option.bind_some, show e.toNat = 0 by omega]
        simp
      obtain ⟨t, k3 | k3⟩ := same.refused (List.replicate B 0) r s k1 k2.neg hne1 sb
      · exact fail _ _ k2.neg k3
      · exact fail _ _ (by decide) k3

/-! ### check_word, build_form -/

/-- What the wrapper gets in another code page follows from what the library delivers in code page 1251. -/
theorem wrapForms_page {P : Page} {enc : Byte → List Byte} {known : Byte → Prop} (hP : P.Ok enc known)
    {native page : List Byte → Option (Int × Option (List Byte))} (hs : SameTexts enc native page) {fs : List (List Byte)} {scratch : Prop}
    (h : ∀ B, B ≠ [] → (fs = [] → scratch → native B = some (0, some B)) ∧
      (fs ≠ [] → scratch → (packed fs).length + 1 ≤ B.length → native B = some ((fs.length : Int), some (packed fs ++ 0 :: B.drop ((packed fs).length + 1)))) ∧
      (¬ scratch → ∃ e out, native B = some (e, out) ∧ e < 0)) (hz : ∀ f ∈ fs, 0 ∉ f) (C : List Byte) (hC : C ≠ []) :
    (scratch → (packed (fs.map (inPage enc))).length < C.length → wrapForms page C = some (fs.map (inPage enc))) ∧
    (scratch → C.length < (packed (fs.map (inPage enc))).length → wrapForms page C = some []) ∧
    (¬ scratch → ∀ ls, wrapForms page C = some ls → ls = []) := by
  have hB : ∀ (n : Nat) (v : Byte), List.replicate (n + 1) v ≠ [] := by intro n v h; simp at h
  have main : scratch → ∀ ts : List (List Byte), ts.length = fs.length →
      (∀ B, B ≠ [] → (packed ts).length < B.length → native B = some ((fs.length : Int), some (filled B ts))) → ts = fs := by
    intro hsc ts hl ht
    by_cases h0 : fs = []
    · subst h0; simpa using hl
    have hne : ts ≠ [] := by rintro rfl; simp at hl; exact h0 (List.length_eq_zero_iff.1 hl.symm)
    have k1 := ht (List.replicate ((packed ts).length + (packed fs).length + 1 + 1) 1) (hB _ _) (by simp; omega)
    have k2 := (h (List.replicate ((packed ts).length + (packed fs).length + 1 + 1) 1) (hB _ _)).2.1 h0 hsc (by simp; omega)
    rw [k1] at k2
    simp only [Option.some.injEq, Prod.mk.injEq, true_and] at k2
    rw [filled_room (by simp; omega) hne, List.drop_replicate, List.drop_replicate] at k2
    exact packed_inj (ones_end k2) hl hz
  have texts : scratch → ∃ B B', B ≠ [] ∧ native B = some ((fs.length : Int), some B') := by
    intro hsc
    by_cases h0 : fs = []
    · exact ⟨List.replicate (0 + 1) 1, _, hB _ _, by rw [(h _ (hB _ _)).1 h0 hsc, h0]; rfl⟩
    · exact ⟨List.replicate ((packed fs).length + 1 + 1) 1, _, hB _ _, (h _ (hB _ _)).2.1 h0 hsc (by simp)⟩
  have conv : ∀ f ∈ fs.map (inPage enc), 0 ∉ f := by
    intro f hf
    obtain ⟨g, hg, rfl⟩ := List.mem_map.1 hf
    exact enc_text_zero hP (hz g hg)
  have there : scratch → ((packed (fs.map (inPage enc))).length < C.length → page C = some ((fs.length : Int), some (filled C (fs.map (inPage enc))))) ∧
      (C.length < (packed (fs.map (inPage enc))).length → ∃ C', page C = some (LEMMBUFF_FAILED, some C') ∧ C'.length = C.length) := by
    intro hsc
    obtain ⟨B, B', hBne, k⟩ := texts hsc
    obtain ⟨ts, t1, -, t3⟩ := hs.there B _ B' hBne k (by omega)
    have hl : ts.length = fs.length := by omega
    have e : ts.map (inPage enc) = fs.map (inPage enc) := by
      by_cases h0 : fs = []
      · subst h0
        rw [List.length_eq_zero_iff.1 hl]
      -- into the page and back
      have hp := (t3 (List.replicate ((packed (ts.map (inPage enc))).length + (packed (fs.map (inPage enc))).length + 1 + 1) 1) (hB _ _)).1 (by simp; omega)
      obtain ⟨us, u1, u2, -, u4⟩ := hs.back _ _ _ (hB _ _) hp (by omega)
      obtain rfl : us = fs := main hsc us (by omega) fun Y hY hr => (u4 Y hY).1 hr
      have hne : ts.map (inPage enc) ≠ [] := by
        intro h
        have := congrArg List.length h
        simp only [List.length_map, List.length_nil] at this
        exact h0 (List.length_eq_zero_iff.1 (by omega))
      rw [filled_room (by simp; omega) hne, filled_room (by simp; omega) (by simpa using h0), List.drop_replicate, List.drop_replicate] at u2
      exact packed_inj (ones_end u2) (by simpa using hl) conv
    rw [← e]
    exact t3 C hC
  refine ⟨fun hsc hr => ?_, fun hsc hr => ?_, fun hsc ls hls => ?_⟩
  · simp only [wrapForms, (there hsc).1 hr, bind, Option.bind_some, Int.toNat_natCast, Option.getD_some]
    by_cases h0 : fs = []
    · subst h0; rfl
    · rw [filled_room hr (by simpa using h0),]
      have := splitForms_zeroed (fs.map (inPage enc)) (0 :: C.drop ((packed (fs.map (inPage enc))).length + 1)) conv
      rw [List.length_map] at this
      simpa [zeroed, packed, List.flatMap_def] using this
  · obtain ⟨C', k, -⟩ := (there hsc).2 hr
    simp only [wrapForms, k, bind, Option.bind_some]
    rfl
  · simp only [wrapForms, bind, Option.bind_eq_some_iff] at hls
    obtain ⟨⟨n, out⟩, k, k2⟩ := hls
    by_cases hn : n ≤ 0
    · rw [show n.toNat = 0 by omega] at k2
      simpa [splitForms] using k2.symm
    · cases out with
      | none =>
        obtain ⟨m, hm⟩ : ∃ m, n.toNat = m + 1 := ⟨n.toNat - 1, by omega⟩
        simp [hm, splitForms, cstring] at k2
      | some C' =>
        obtain ⟨us, u1, -, -, u4⟩ := hs.back C n C' hC k (by omega)
        have k3 := (u4 (List.replicate ((packed us).length + 1) 1) (hB _ _)).1 (by simp)
        obtain ⟨e, b, k4, k5⟩ := (h (List.replicate ((packed us).length + 1) 1) (hB _ _)).2.2 hsc
        rw [k3] at k4
        simp only [Option.some.injEq, Prod.mk.injEq] at k4
        omega

/-- The outcome as `wrapForms_page` needs it. -/
theorem FormOutcome.weak {r : Option (Int × Option (List Byte))} {fs : List (List Byte)} {scratch : Prop} {B : List Byte} (h : FormOutcome r fs scratch B) :
    (fs = [] → scratch → r = some (0, some B)) ∧
      (fs ≠ [] → scratch → (packed fs).length + 1 ≤ B.length → r = some ((fs.length : Int), some (packed fs ++ 0 :: B.drop ((packed fs).length + 1)))) ∧
      (¬ scratch → ∃ e out, r = some (e, out) ∧ e < 0) :=
  ⟨h.1, h.2.1, fun hn => by obtain ⟨b, k, -⟩ := h.2.2 (.inl hn); exact ⟨-1, some b, k, by decide⟩⟩

theorem rusBuildForm_all (h : RusOk A D st) (hi : RusIdsOk D st) (junk : List Byte) (id i : Nat)
    (hj : (lexkey id).length + junk.length = 16) (hex : ∃ a ∈ D.arts, a.id = id) :
    ∃ a ∈ D.arts, a.id = id ∧ ∃ fs, D.BuiltForms a i fs ∧ ∀ B, B ≠ [] → FormOutcome (rusBuildForm (st.images D.mtab) junk (some B) id i)
      (fs.map (rusPrinted a.demand)) ((packed fs).length ≤ 256) B := by
  obtain ⟨pos, a, ha, h1, h2, -, h3⟩ := rus_lid_present h hi junk id hj hex
  obtain ⟨fs, f1, f2, f3⟩ := rusFormBuild_built h ha i
  refine ⟨a, ha, h1, fs, f1, fun B hB => ?_⟩
  have hrun := formRun_outcome_gen B (fun _ : Unit => fs) (fun _ => fs.map (rusPrinted a.demand)) [()]
    (fun _ s => rusFormBuild (st.images D.mtab) i a.stem a.post (st.infoFor a) s) (fun _ _ => f3 B)
  have hb : rusBuildForm (st.images D.mtab) junk (some B) id i
      = (runList (fun (_ : Unit) s => rusFormBuild (st.images D.mtab) i a.stem a.post (st.infoFor a) s)
          [()] ⟨⟨some B, 0⟩, 0⟩).map fun r => ((formResult r).1, (formResult r).2.buf) := by
    simp only [rusBuildForm, if_neg (show ¬ B.length = 0 from fun h0 => hB (List.length_eq_zero_iff.1 h0)), h2, h3, bind,
      Option.bind_some, rusBuildClass, rus_load h ha, pure, runList, formLength]
    cases rusFormBuild (st.images D.mtab) i a.stem a.post (st.infoFor a) ⟨⟨some B, 0⟩, 0⟩ with
    | none => rfl
    | some z => obtain ⟨q, s⟩ := z; cases q <;> rfl
  rw [hb]
  simpa using hrun

/-- **C64** FindForms of the C++ wrapper in another code page: the forms of every reading of the word, converted. -/
theorem C64_code_page_find_forms_partial {P : Page} {enc : Byte → List Byte} {known : Byte → Prop} (hP : P.Ok enc known) (h : RusOk A D st)
    (w : List Byte) (dwsets : Nat) (hk : ∀ b ∈ w, known b) (hne : w ≠ []) (hlen : w.length < 48) (hparts : (wordParts rusTab w).length ≤ 8) :
    ∃ H, D.Readings (rusAdmits w dwsets) (w.map rusTab.lower) H ∧
      ∀ i, ∃ F : RusArticle → List (List Byte), (∀ a ∈ D.arts, D.FoundForms a i (F a)) ∧ ∀ junk buffer : List Byte, buffer.length = 256 →
        let texts := H.flatMap fun r => (F r.art).map fun f => inPage enc (rusPrinted r.art.demand f)
        let answer := wrapForms (fun b => rusFindFormsIn P (st.images D.mtab) junk (some b) (inPage enc w) i dwsets) buffer
        ((∀ r ∈ H, (packed (F r.art)).length ≤ 256) → (packed texts).length < 256 → answer = some texts) ∧
        ((∀ r ∈ H, (packed (F r.art)).length ≤ 256) → 256 < (packed texts).length → answer = some []) ∧
        (¬ (∀ r ∈ H, (packed (F r.art)).length ≤ 256) → ∀ ls, answer = some ls → ls = []) := by
  obtain ⟨H, h1, h2⟩ := C46_find_forms h w dwsets hne hlen hparts
  refine ⟨H, h1, fun i => ?_⟩
  obtain ⟨F, h3, h4⟩ := h2 i
  refine ⟨F, h3, fun junk buffer hb => ?_⟩
  intro texts answer
  have := wrapForms_page hP (C84_find_forms hP (st.images D.mtab) junk w hk hlen i dwsets) (fun B hB => (h4 junk B hB).weak) (fun f hf => by
    obtain ⟨r, hr, hf⟩ := List.mem_flatMap.1 hf
    obtain ⟨g, hg, rfl⟩ := List.mem_map.1 hf
    have ha := (h1.proper r hr).1.art
    exact (rusPrinted_text _ r.art.demand_le _ (foundForms_text h ha (h3 _ ha) g hg)).zero) buffer (by rintro rfl; simp at hb)
  rw [hb] at this
  have e : (H.flatMap fun r => (F r.art).map (rusPrinted r.art.demand)).map (inPage enc) = texts := by
    simp only [texts, List.map_flatMap, List.map_map]; rfl
  rw [e] at this
  exact this

/-- **C65** check_word in another code page is check_word in code page 1251. -/
theorem C65_code_page_check {P : Page} {enc : Byte → List Byte} {known : Byte → Prop} (hP : P.Ok enc known) (im : RusImages) (junk w : List Byte)
    (hk : ∀ b ∈ w, known b) (hl : w.length < 48) (dwsets : Nat) :
    pyCheckWord (rusCheckIn P im junk (inPage enc w)) dwsets = pyCheckWord (rusCheck im junk w) dwsets := C84_check hP im junk w hk hl _

/-- **C65** build_form in another code page: the forms converted, when they take 256 bytes at most before (the library's own array) and less than the
2048 bytes after.  Missing: that there is an answer when they take more before, and what it is when they take 2048 to the last after. -/
theorem C65_code_page_build_form_partial {P : Page} {enc : Byte → List Byte} {known : Byte → Prop} (hP : P.Ok enc known) (h : RusOk A D st) (hi : RusIdsOk D st)
    (junk : List Byte) (id i : Nat) (hj : (lexkey id).length + junk.length = 16) (hex : ∃ a ∈ D.arts, a.id = id) :
    ∃ a ∈ D.arts, a.id = id ∧ ∃ fs, D.BuiltForms a i fs ∧ ∀ sb : List Byte, sb.length = 2048 →
      let texts := fs.map fun f => inPage enc (rusPrinted a.demand f)
      let answer := pyBuildForm (fun b => rusBuildFormIn P (st.images D.mtab) junk (some b) id i) sb
      ((packed fs).length ≤ 256 → (packed texts).length < 2048 → answer = some texts) ∧
      ((packed fs).length ≤ 256 → 2048 < (packed texts).length → answer = some []) ∧
      (256 < (packed fs).length → ∀ ls, answer = some ls → ls = []) := by
  obtain ⟨a, ha, h1, fs, h2, h3⟩ := rusBuildForm_all h hi junk id i hj hex
  refine ⟨a, ha, h1, fs, h2, fun sb hb => ?_⟩
  intro texts answer
  have := wrapForms_page hP (C84_build_form hP (st.images D.mtab) junk id i) (fun B hB => (h3 B hB).weak) (fun f hf => by
    obtain ⟨g, hg, rfl⟩ := List.mem_map.1 hf
    exact (rusPrinted_text _ a.demand_le _ (builtForms_text h ha h2 g hg)).zero) sb (by rintro rfl; simp at hb)
  rw [List.map_map, hb] at this
  refine ⟨this.1, this.2.1, fun hl => this.2.2 (by omega)⟩

/-- "сна" and "СНа" from Python in UTF-8: the dictionary form comes in UTF-8. -/
example : (pyLemmatize (rusLemmatizeIn utf8Page (rusSampleState.images rusSample.mtab) [] [0xd1, 0x81, 0xd0, 0xbd, 0xd0, 0xb0]) (junkLemms 32) (junkBytes 2048)
      (junkGrams 512) 0 = some [⟨300, some [0xd1, 0x81, 0xd0, 0xbe, 0xd0, 0xbd], some [⟨7, 1, 0x1000, 3⟩]⟩]) ∧
    (pyLemmatize (rusLemmatizeIn utf8Page (rusSampleState.images rusSample.mtab) [] [0xd1, 0x81, 0xd0, 0xbd, 0xd0, 0xb0]) (junkLemms 32) (junkBytes 2048)
      (junkGrams 512) 12 = some [⟨300, none, none⟩]) ∧
    (pyLemmatize (rusLemmatizeIn utf8Page (rusSampleState.images rusSample.mtab) [] [0xd0, 0xa1, 0xd0, 0x9d, 0xd0, 0xb0]) (junkLemms 32) (junkBytes 2048)
      (junkGrams 512) 0 = some []) := by
  decide +kernel

/-- build_form in UTF-8: "Иваны"; FindForms: "сну". -/
example : (pyBuildForm (fun b => rusBuildFormIn utf8Page (rusSampleState.images rusSample.mtab) (List.replicate 15 0) (some b) 7 10) (junkBytes 2048)
      = some [[0xd0, 0x98, 0xd0, 0xb2, 0xd0, 0xb0, 0xd0, 0xbd, 0xd1, 0x8b]]) ∧
    wrapForms (fun b => rusFindFormsIn utf8Page (rusSampleState.images rusSample.mtab) [] (some b) (inPage utf8Enc [241, 237, 224]) 2 0) (junkBytes 256)
      = some [[0xd1, 0x81, 0xd0, 0xbd, 0xd1, 0x83]] := by
  decide +kernel

end Libmorph
