import Verif.Props.C85
import Verif.Props.C90
/-
C85: the command line tool `lemmatize` in code page 1251, whatever the sizes of the answer.
-/
namespace Libmorph
open Json

variable {A : List Byte} {D : RusDict} {st : RusState}

/-- What the tool prints for an outcome of the library: a JSON array with the records; an empty array; undefined. -/
def ToolEnds (gs : List LemmGroup) (res : Option (List Byte × Nat)) : LemmEnd → Prop
  | .done => (∀ g ∈ gs, Plain g.1.text) → ∃ out, res = some (out, 0) ∧ read out = some (.arr (gs.map (lemmaJson id)))
  | .code _ => res = some (asciiBytes "[\n]", 0)
  | .undefined => res = none

theorem lemmatizeTool_exact {call : Option (List Lemm) → Option (List Byte) → Option (List Gram) → Option (Int × LemmState)}
    {H : List LemmStep} {e : LemmEnd} {lx : List Lemm} {gr : List Gram} {sb : List Byte}
    (h : AnswersAs (some lx) (some sb) (some gr) (lemmGroups true H) (call (some lx) (some sb) (some gr)) e)
    (hg : ∀ p ∈ H, p.grs ≠ []) : ToolEnds (lemmGroups true H) (lemmatizeTool call lx sb gr) e := by
  cases e with
  | done =>
    intro hp
    obtain ⟨s, k1, k2, -⟩ := h
    obtain ⟨l, l1, l2, l3, l4, l5⟩ := reported_says k2
    obtain ⟨b, hb⟩ := Option.isSome_iff_exists.1 l4
    obtain ⟨x, hx⟩ := Option.isSome_iff_exists.1 l5
    rw [hb, hx] at l3
    exact lemmatizeTool_prints (conv := id) k1 l1 hb hx l2 (l3.imp fun _ _ h => says_of_group h) hp fun g hgg => hg _ (mem_lemmGroups hgg)
  | code r =>
    obtain ⟨s, k1, k2, -⟩ := h
    exact lemmatizeTool_error k1 k2.neg
  | undefined =>
    have h : _ = none := h
    simp [ToolEnds, lemmatizeTool, h]

/-- **C85** The Russian library in code page 1251, whatever the sizes: `lemmEnd` works out from the sizes alone how the call ends with 16 records, 256 bytes and 64
descriptions, and the tool prints a JSON array with all records, an empty array, or writes behind its array of records (`C90_undefined` says when). -/
theorem C85_russian_exact (h : RusOk A D st) (w junk : List Byte) (hne : w ≠ []) (hlen : w.length < 48) (hparts : (wordParts rusTab w).length ≤ 8)
    (hD : D.HasDict (w.map rusTab.lower) 2) :
    ∃ H, D.Readings (rusAdmits w 2) (w.map rusTab.lower) H ∧
    ∃ F : RusReading → List (List Byte), (∀ r ∈ H, D.DictForms r.art r.first 2 (F r)) ∧
    ∀ (pages : ApiInst → Page) (lx : List Lemm) (gr : List Gram) (sb : List Byte), lx.length = 16 → gr.length = 64 → sb.length = 256 →
      let hs := H.map fun r => r.step (F r)
      ToolEnds (lemmGroups true hs) (rusToolRun pages (st.images D.mtab) junk lx sb gr .cp1251 w) (lemmEnd (some 16) (some 256) (some 64) [] hs) := by
  obtain ⟨H, h1, F, hF, h2⟩ := C90_russian h w 2 hne hlen hparts
  refine ⟨H, h1, F, ?_, ?_⟩
  · intro r hr
    have hp := (h1.proper r hr).1
    obtain ⟨fs, hfs⟩ := hD _ hp.art _ _ _ (first_reads hp) hp.word
    exact hF r hr fs hfs
  · intro pages lx gr sb hl hg hs
    have k := h2 junk (some lx) (some sb) (some gr) (fun _ => hD)
    simp only [Option.map_some, hl, hg, hs] at k
    exact lemmatizeTool_exact (call := fun L B G => rusLemmatize (st.images D.mtab) junk w L B G 2) k (rusSteps_grs h1 F)

/-- Readings have descriptions. -/
theorem engSteps_grs {as : List Article} {w : List Byte} {dwsets : Nat} {H : List (Article × List Byte)} (h1 : Readings as w dwsets H) :
    ∀ p ∈ H.map Article.step, p.grs ≠ [] := by
  intro p hp
  obtain ⟨q, hq, rfl⟩ := List.mem_map.1 hp
  have hm := h1.mem hq
  simp only [Matches, matchesOf, List.mem_filterMap, Option.bind_eq_some_iff] at hm
  obtain ⟨a, -, e, -, he⟩ := hm
  split at he
  · rename_i ht
    cases he
    simp only [Bool.and_eq_true, Article.takes] at ht
    simp only [Article.step]
    split
    · rename_i hi
      have := ht.1
      rw [if_pos hi] at this
      simpa using this
    · simp
  · cases he

/-- **C85** The English library, whatever the sizes. -/
theorem C85_english_exact {as : List Article} (h : EngOk A as) (w junk : List Byte) (hne : w ≠ []) (hlen : w.length < 48)
    (hparts : (wordParts engTab w).length ≤ 8) (hD : ∀ p ∈ Matches as w 2, p.1.dictForms ≠ []) :
    ∃ H, Readings as w 2 H ∧
    ∀ (lx : List Lemm) (gr : List Gram) (sb : List Byte), lx.length = 16 → gr.length = 64 → sb.length = 256 →
      let hs := H.map Article.step
      ToolEnds (lemmGroups true hs) (lemmatizeTool (fun L B G => lemmatize (engBuild as).images junk w L B G 2) lx sb gr)
        (lemmEnd (some 16) (some 256) (some 64) [] hs) := by
  obtain ⟨H, h1, h2⟩ := C90_english h w 2 hne hlen hparts
  refine ⟨H, h1, fun lx gr sb hl hg hs => ?_⟩
  have k := h2 junk (some lx) (some sb) (some gr) (fun _ => hD)
  simp only [Option.map_some, hl, hg, hs] at k
  exact lemmatizeTool_exact (call := fun L B G => lemmatize (engBuild as).images junk w L B G 2) k (engSteps_grs h1)

/-- All three outcomes occur: no readings; seventeen lexemes; seventeen readings of which the last two are of one lexeme. -/
example : lemmEnd (some 16) (some 256) (some 64) [] [] = .done := rfl
example : lemmEnd (some 16) (some 256) (some 64) [] ((List.range 17).map fun i => ⟨i + 1, 0, [97], [⟨0, 0, 0, 0⟩], id⟩) = .code (-2) := by decide +kernel
example : lemmEnd (some 16) (some 256) (some 64) [] (((List.range 16).map fun i => (⟨i + 1, 0, [97], [⟨0, 0, 0, 0⟩], id⟩ : LemmStep)) ++ [⟨16, 0, [97], [⟨0, 0, 0, 0⟩], id⟩]) = .undefined := by
  decide +kernel

/-- More room for the texts does no harm. -/
theorem lemmEnd_more {nl ng : Option Nat} {nb nb' : Nat} {gs : List LemmGroup} {H : List LemmStep} (h : lemmEnd nl (some nb) ng gs H = .done)
    (hle : nb ≤ nb') : lemmEnd nl (some nb') ng gs H = .done := by
  have hnew : ∀ gs p, newEnd nl (some nb) ng gs p = .done → newEnd nl (some nb') ng gs p = .done := by
    intro gs p h
    have hc : (Option.any (fun b => decide (256 < p.scratch) || decide (b ≤ (groupTexts (gs ++ [(p, [])])).length)) (some nb')) = true →
        (Option.any (fun b => decide (256 < p.scratch) || decide (b ≤ (groupTexts (gs ++ [(p, [])])).length)) (some nb)) = true := by
      intro hc
      simp only [Option.any_some, Bool.or_eq_true, decide_eq_true_eq] at hc ⊢
      omega
    simp only [newEnd] at h ⊢
    by_cases h1 : (nl.any fun l => decide (l ≤ gs.length)) = true
    · rw [if_pos h1] at h; cases h
    rw [if_neg h1] at h ⊢
    by_cases h2 : (Option.any (fun b => decide (256 < p.scratch) || decide (b ≤ (groupTexts (gs ++ [(p, [])])).length)) (some nb)) = true
    · rw [if_pos h2] at h; cases h
    rw [if_neg h2] at h
    rw [if_neg (fun hh => h2 (hc hh))]
    exact h
  have hstep : ∀ gs p, stepEnd nl (some nb) ng gs p = .done → stepEnd nl (some nb') ng gs p = .done := by
    intro gs p
    simp only [stepEnd]
    split
    · split
      · exact id
      · exact hnew gs p
    · exact hnew gs p
  induction H generalizing gs with
  | nil => rfl
  | cons p H ih =>
    simp only [lemmEnd] at h ⊢
    split at h
    · rename_i h1
      rw [if_pos (hstep gs p h1)]
      exact ih h
    · rename_i h1
      exact absurd h h1

/-- Another code page: what `lemmatize` prints follows from how the library ends in code page 1251 with a buffer `B`. -/
theorem lemmatizeTool_page_exact {enc : Byte → List Byte} {native page : Option (List Lemm) → Option (List Byte) → Option (List Gram) → Option (Int × LemmState)}
    {H : List LemmStep} (lx : List Lemm) (gr : List Gram)
    (h : ∀ B, AnswersAs (some lx) (some B) (some gr) (lemmGroups true H) (native (some lx) (some B) (some gr))
      (lemmEnd (some lx.length) (some B.length) (some gr.length) [] H))
    (hz : ∀ p ∈ H, 0 ∉ p.text) (hg : ∀ p ∈ H, p.grs ≠ [])
    (hs : SameLemmas enc (fun B => native (some lx) (some B) (some gr)) (fun B => page (some lx) (some B) (some gr)))
    (B sb : List Byte) (hroom : lemmEnd (some lx.length) (some B.length) (some gr.length) [] H = .done)
    (hp : sb.length < (packed ((lemmGroups true H).map fun g => inPage enc g.1.text)).length ∨ ∀ g ∈ lemmGroups true H, Plain (inPage enc g.1.text)) :
    let texts := (lemmGroups true H).map fun g => inPage enc g.1.text
    ((packed texts).length < sb.length → ∃ out, lemmatizeTool page lx sb gr = some (out, 0) ∧
      read out = some (.arr ((lemmGroups true H).map (lemmaJson (inPage enc))))) ∧
    (sb.length < (packed texts).length → lemmatizeTool page lx sb gr = some (asciiBytes "[\n]", 0)) := by
  have hzg : ∀ u ∈ (lemmGroups true H).map (fun g => g.1.text), 0 ∉ u := by
    intro u hu
    obtain ⟨g, hgg, rfl⟩ := List.mem_map.1 hu
    exact hz _ (mem_lemmGroups hgg)
  have hgg : ∀ g ∈ lemmGroups true H, g.1.grs ≠ [] := fun g hgg => hg _ (mem_lemmGroups hgg)
  have hspec : ∀ B : List Byte, lemmEnd (some lx.length) (some B.length) (some gr.length) [] H = .done → ∃ s,
      native (some lx) (some B) (some gr) = some (((lemmGroups true H).length : Int), s) ∧ GroupReported (some lx) (some B) (some gr) (lemmGroups true H) s := by
    intro B hB
    have := h B
    rw [hB] at this
    obtain ⟨s, k1, k2, -⟩ := this
    exact ⟨s, k1, k2⟩
  clear h
  generalize hgs : lemmGroups true H = gs at *
  intro texts
  obtain ⟨s, k1, k2⟩ := hspec B hroom
  obtain ⟨ts, t1, t2, t3, t4⟩ := hs.there B _ s k1 (by omega)
  have hlen : ts.length = gs.length := by omega
  -- the texts are those of the records
  have hts : ts = gs.map fun g => g.1.text := by
    by_cases h0 : gs = []
    · subst h0; simpa using hlen
    have hne : ts ≠ [] := by rintro rfl; simp at hlen; exact h0 (List.length_eq_zero_iff.1 hlen.symm)
    obtain ⟨s', q1, q2⟩ := t3 (List.replicate (B.length + (packed ts).length + (groupTexts gs).length + 2) 1) (by simp; omega)
    have hroom' := lemmEnd_more (nb' := (List.replicate (B.length + (packed ts).length + (groupTexts gs).length + 2) (1 : Byte)).length) hroom (by simp; omega)
    obtain ⟨s2, v1, v2⟩ := hspec _ hroom'
    rw [v1] at q1
    cases q1
    have v3 := v2.texts
    rw [q2] at v3
    simp only [Option.map_some, if_neg h0, Option.some.injEq] at v3
    rw [filled_room (by simp; omega) hne, List.drop_replicate, List.drop_replicate] at v3
    have := ones_end v3
    rw [groupTexts] at this
    exact packed_inj this (by simpa using hlen) hzg
  subst hts
  have hmap : (gs.map fun g => g.1.text).map (inPage enc) = texts := by simp [texts]
  rw [hmap] at t4
  refine ⟨fun hsb => ?_, fun hsb => ?_⟩
  · obtain ⟨t, p1, p2, p3, p4⟩ := (t4 sb).1 hsb
    obtain ⟨l, l1, l2, l3, -, l5⟩ := reported_says k2
    obtain ⟨x, hx⟩ := Option.isSome_iff_exists.1 l5
    rw [l1] at p4
    rcases p4 with ⟨p4, -⟩ | ⟨a, b, pa, pb, pl, -, pi⟩
    · cases p4
    cases pa
    have p1' : page (some lx) (some sb) (some gr) = some ((gs.length : Int), t) := p1
    refine lemmatizeTool_prints (conv := inPage enc) p1' pb p2 (by rw [p3, hx]) (by omega) ?_ (hp.resolve_left (Nat.lt_asymm hsb)) hgg
    rw [List.forall₂_iff_get] at l3 ⊢
    obtain ⟨m1, m2⟩ := l3
    refine ⟨by simp at m1 ⊢; omega, fun i hi hi2 => ?_⟩
    have hi' : i < l.length := by omega
    have hib : i < b.length := by omega
    have hsays := m2 i (by simp; omega) hi2
    simp only [List.get_eq_getElem, List.getElem_take] at hsays ⊢
    obtain ⟨e1, e2, e3, e4⟩ := pi i l[i] b[i] (List.getElem?_eq_getElem hi') (List.getElem?_eq_getElem hib)
    obtain ⟨-, e5⟩ := e4 (by simpa using hi2)
    have hgr := hsays.grams x hx
    refine ⟨by rw [← e1]; exact hsays.id, ?_, by rw [← e2, ← e3]; exact hgr⟩
    obtain ⟨r, hr⟩ := filled_drop hsb (i := i) (by simpa [texts] using hi2)
    refine ⟨r, ?_⟩
    rw [e5, List.map_take, hmap, hr]
    simp [texts]
  · obtain ⟨t, p1⟩ := (t4 sb).2 hsb
    exact lemmatizeTool_error p1 (by decide)


/-- **C85** The Russian library in another code page, UTF-8 for example, whatever the sizes: `lemmEnd` works out how the library ends in code page 1251 with 16 records,
64 descriptions and `B` for the texts.  When it reports the records with some `B`, the array with all records is printed, the dictionary forms converted, or an empty
array when the converted forms do not fit into the 256 bytes; when it refuses some `B` and blames the records or the descriptions, an empty array.
Missing: an article the dictionary forms of which do not fit into the 256 bytes of the library's own array; what happens in the code page when in 1251 there is a write behind
the records; converted forms that take the 256 bytes to the last; dictionary forms with quotation marks. -/
theorem C85_code_page_exact_partial {P : ApiInst → Page} {i : ApiInst} {enc : Byte → List Byte} {known : Byte → Prop} (hi : i ≠ .wide ∧ i ≠ .cp1251)
    (hP : (P i).Ok enc known) (h : RusOk A D st) (w junk : List Byte) (hk : ∀ b ∈ w, known b)
    (hne : w ≠ []) (hlen : w.length < 48) (hparts : (wordParts rusTab w).length ≤ 8) (hD : D.HasDict (w.map rusTab.lower) 2) :
    ∃ H, D.Readings (rusAdmits w 2) (w.map rusTab.lower) H ∧
    ∃ F : RusReading → List (List Byte), (∀ r ∈ H, D.DictForms r.art r.first 2 (F r)) ∧
    ∀ (lx : List Lemm) (gr : List Gram) (B sb : List Byte), lx.length = 16 → gr.length = 64 → sb.length = 256 →
      let hs := H.map fun r => r.step (F r)
      let texts := (lemmGroups true hs).map fun g => inPage enc g.1.text
      let tool := rusToolRun P (st.images D.mtab) junk lx sb gr i (inPage enc w)
      (lemmEnd (some 16) (some B.length) (some 64) [] hs = .done →
        ((packed texts).length < 256 → (∀ g ∈ lemmGroups true hs, Plain (inPage enc g.1.text)) →
          ∃ out, tool = some (out, 0) ∧ read out = some (.arr ((lemmGroups true hs).map (lemmaJson (inPage enc))))) ∧
        (256 < (packed texts).length → tool = some (asciiBytes "[\n]", 0))) ∧
      (∀ r, lemmEnd (some 16) (some B.length) (some 64) [] hs = .code r → r ≠ LEMMBUFF_FAILED → tool = some (asciiBytes "[\n]", 0)) := by
  obtain ⟨H, h1, F, hF, h2⟩ := C90_russian h w 2 hne hlen hparts
  have hF' : ∀ r ∈ H, D.DictForms r.art r.first 2 (F r) := by
    intro r hr
    have hp := (h1.proper r hr).1
    obtain ⟨fs, hfs⟩ := hD _ hp.art _ _ _ (first_reads hp) hp.word
    exact hF r hr fs hfs
  refine ⟨H, h1, F, hF', ?_⟩
  have hz : ∀ p ∈ H.map (fun r => r.step (F r)), 0 ∉ p.text := by
    intro p hp
    obtain ⟨r, hr, rfl⟩ := List.mem_map.1 hp
    obtain ⟨k1, k2, -⟩ := rusDictForms_eq h (h1.proper r hr).1.art r.first 2 (F r) (hF' r hr)
    exact (rusPrinted_text _ r.art.demand_le _ (k2 _ (leastForm_mem k1))).zero
  intro lx gr B sb hl hg hsb hs texts tool
  have e : tool = lemmatizeTool (fun L B G => rusLemmatizeIn (P i) (st.images D.mtab) junk (inPage enc w) L B G 2) lx sb gr := by
    cases i <;> first | rfl | simp at hi
  have ans : ∀ B : List Byte, AnswersAs (some lx) (some B) (some gr) (lemmGroups true hs) (rusLemmatize (st.images D.mtab) junk w (some lx) (some B) (some gr) 2)
      (lemmEnd (some lx.length) (some B.length) (some gr.length) [] hs) := fun B => h2 junk (some lx) (some B) (some gr) fun _ => hD
  have same := C84_lemmatize hP (st.images D.mtab) junk w hk hlen (some lx) (some gr) 2
  rw [e]
  constructor
  · intro hend
    rw [← hl, ← hg] at hend
    refine ⟨fun hr hp => ?_, fun hr => ?_⟩
    · exact (lemmatizeTool_page_exact (native := fun L B G => rusLemmatize (st.images D.mtab) junk w L B G 2) lx gr ans hz (rusSteps_grs h1 F) same B sb hend (.inr hp)).1 (by rw [hsb]; exact hr)
    · exact (lemmatizeTool_page_exact (native := fun L B G => rusLemmatize (st.images D.mtab) junk w L B G 2) lx gr ans hz (rusSteps_grs h1 F) same B sb hend (.inl (by rw [hsb]; exact hr))).2 (by rw [hsb]; exact hr)
  · intro r hend hne1
    rw [← hl, ← hg] at hend
    have k := ans B
    rw [hend] at k
    obtain ⟨s, k1, k2, -⟩ := k
    obtain ⟨t, k3 | k3⟩ := same.refused B r s k1 k2.neg hne1 sb
    · exact lemmatizeTool_error k3 k2.neg
    · exact lemmatizeTool_error k3 (by decide)

/-- For example: with seventeen lexemes the records are too few whatever the buffer. -/
example : lemmEnd (some 16) (some 1000) (some 64) [] ((List.range 17).map fun i => ⟨i + 1, 0, [97], [⟨0, 0, 0, 0⟩], id⟩) = .code LIDSBUFF_FAILED ∧
    LIDSBUFF_FAILED ≠ LEMMBUFF_FAILED := by decide +kernel

end Libmorph
