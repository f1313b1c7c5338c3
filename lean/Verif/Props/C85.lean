import Verif.Lemmas.ToolText
import Verif.Props.C84
/-
C85: the command line tool `lemmatize` prints the lemmas of a word as a JSON text.
-/
namespace Libmorph
open Json

variable {A : List Byte} {D : RusDict} {st : RusState}

theorem says_of_group {b : List Byte} {x : List Gram} {r : Lemm} {g : LemmGroup} (h : GroupSays (some b) (some x) r g) : RecordSays b x id r g :=
  ⟨h.id, h.text b rfl, h.grams x rfl⟩

theorem lemmatizeTool_spec {call : Option (List Lemm) → Option (List Byte) → Option (List Gram) → Option (Int × LemmState)} {H : List LemmStep}
    (h : LemmSpec call H) (hg : ∀ p ∈ H, p.grs ≠ []) (lx : List Lemm) (st : List Byte) (gr : List Gram) :
    (GroupRoomy (some lx) (some st) (some gr) (lemmGroups true H) → (∀ g ∈ lemmGroups true H, Plain g.1.text) →
      ∃ out, lemmatizeTool call lx st gr = some (out, 0) ∧ read out = some (.arr ((lemmGroups true H).map (lemmaJson id)))) ∧
    (JoinSafe (some lx) (some gr) H → ¬ GroupFits (some lx) (some st) (some gr) (lemmGroups true H) →
      lemmatizeTool call lx st gr = some (asciiBytes "[\n]", 0)) := by
  obtain ⟨h1, h2⟩ := h (some lx) (some st) (some gr)
  refine ⟨fun hr hp => ?_, fun hj hf => ?_⟩
  · obtain ⟨s, k1, k2⟩ := h1 hr
    obtain ⟨l, l1, l2, l3, l4, l5⟩ := reported_says k2
    obtain ⟨b, hb⟩ := Option.isSome_iff_exists.1 l4
    obtain ⟨x, hx⟩ := Option.isSome_iff_exists.1 l5
    rw [hb, hx] at l3
    exact lemmatizeTool_prints (conv := id) k1 l1 hb hx l2 (l3.imp fun _ _ h => says_of_group h) hp fun g hgg => hg _ (mem_lemmGroups hgg)
  · obtain ⟨r, s, k1, k2⟩ := h2 hj hf
    exact lemmatizeTool_error k1 k2

/-- The readings have descriptions. -/
theorem rusSteps_grs {w : List Byte} {dwsets : Nat} {H : List RusReading} (h : D.Readings (rusAdmits w dwsets) (w.map rusTab.lower) H)
    (F : RusReading → List (List Byte)) : ∀ p ∈ H.map (fun r => r.step (F r)), p.grs ≠ [] := by
  intro p hp
  obtain ⟨r, hr, rfl⟩ := List.mem_map.1 hp
  have := (h.proper r hr).1.some_
  simpa [RusReading.step] using this

/-- **C85** The Russian library in code page 1251.  When 16 records, 256 bytes and 64 descriptions suffice, the text printed is a JSON
array with an object for each record: dictionary form, lexeme number, part of speech, form numbers; when they do not, an empty
array is printed.  The status is 0 in both cases.
Missing: words of articles without dictionary form; sizes between the sufficient and the necessary (C44); lemmas with quotation
marks, backslashes or control characters, which are not quoted (`C85_quote_counterexample`). -/
theorem C85_russian_partial (h : RusOk A D st) (w junk : List Byte) (hne : w ≠ []) (hlen : w.length < 48) (hparts : (wordParts rusTab w).length ≤ 8)
    (hD : D.HasDict (w.map rusTab.lower) 2) :
    ∃ H, D.Readings (rusAdmits w 2) (w.map rusTab.lower) H ∧
    ∃ F : RusReading → List (List Byte), (∀ r ∈ H, D.DictForms r.art r.first 2 (F r)) ∧
    ∀ (pages : ApiInst → Page) (lx : List Lemm) (gr : List Gram) (sb : List Byte), lx.length = 16 → gr.length = 64 → sb.length = 256 →
      let hs := H.map fun r => r.step (F r)
      (GroupRoomy (some lx) (some sb) (some gr) (lemmGroups true hs) → (∀ g ∈ lemmGroups true hs, Plain g.1.text) →
        ∃ out, rusToolRun pages (st.images D.mtab) junk lx sb gr .cp1251 w = some (out, 0) ∧
          read out = some (.arr ((lemmGroups true hs).map (lemmaJson id)))) ∧
      (JoinSafe (some lx) (some gr) hs → ¬ GroupFits (some lx) (some sb) (some gr) (lemmGroups true hs) →
        rusToolRun pages (st.images D.mtab) junk lx sb gr .cp1251 w = some (asciiBytes "[\n]", 0)) := by
  obtain ⟨H, h1, F, hF, h2, -⟩ := rus_lemmSpec h w junk 2 hne hlen hparts hD
  exact ⟨H, h1, F, hF, fun _ lx gr sb _ _ _ => lemmatizeTool_spec h2 (rusSteps_grs h1 F) lx sb gr⟩

/-- **C85** The part of speech printed is that of the article of the first reading, and the form numbers are those of its descriptions. -/
theorem C85_part_of_speech (r : RusReading) (fs : List (List Byte)) (more : List LemmStep) (hr : r.grams ≠ []) :
    posOf (r.step fs, more) = r.art.pos := by
  obtain ⟨g, gs, hg⟩ := List.exists_cons_of_ne_nil hr
  simp only [posOf, LemmGroup.counted, RusReading.step, hg, List.map_cons, List.headD_cons, RusArticle.pos]
  split <;> simp only
  omega

/-! ### Other code pages -/

theorem packed_count (ts : List (List Byte)) : (packed ts).count 0 = ts.length + (ts.map fun t => t.count 0).sum := by
  induction ts with
  | nil => rfl
  | cons t ts ih => rw [packed_cons]; simp [ih]; omega

theorem packed_inj {ts us : List (List Byte)} (h : packed ts = packed us) (hl : ts.length = us.length) (hu : ∀ u ∈ us, 0 ∉ u) : ts = us := by
  have sum0 : ∀ l : List (List Byte), (l.map fun t => t.count 0).sum = 0 ↔ ∀ t ∈ l, 0 ∉ t := by
    intro l
    induction l with
    | nil => simp
    | cons t l ih =>
      simp only [List.map_cons, List.sum_cons, List.mem_cons, forall_eq_or_imp, ← ih, Nat.add_eq_zero_iff, List.count_eq_zero]
  have ht : ∀ t ∈ ts, 0 ∉ t := by
    have h1 := packed_count ts
    have h2 := packed_count us
    have h3 := (sum0 us).2 hu
    rw [h] at h1
    exact (sum0 ts).1 (by omega)
  clear hl
  have key : ∀ (t u r q : List Byte), 0 ∉ t → 0 ∉ u → t ++ 0 :: r = u ++ 0 :: q → t = u ∧ r = q := by
    intro t
    induction t with
    | nil =>
      intro u r q _ hu h
      cases u with
      | nil => simpa using h
      | cons b u => simp at h; exact absurd h.1 (by rintro rfl; simp at hu)
    | cons a t ih =>
      intro u r q ht hu h
      cases u with
      | nil => simp at h; exact absurd h.1 (by rintro rfl; simp at ht)
      | cons b u =>
        simp only [List.cons_append, List.cons.injEq] at h
        obtain ⟨h1, h2⟩ := ih u r q (fun hh => ht (by simp [hh])) (fun hh => hu (by simp [hh])) h.2
        exact ⟨by rw [h1, h.1], h2⟩
  induction ts generalizing us with
  | nil =>
    cases us with
    | nil => rfl
    | cons u us => rw [packed_cons] at h; simp [packed] at h
  | cons t ts ih =>
    cases us with
    | nil => rw [packed_cons] at h; simp [packed] at h
    | cons u us =>
      rw [packed_cons, packed_cons] at h
      obtain ⟨h1, h2⟩ := key t u _ _ (ht t (by simp)) (hu u (by simp)) h
      rw [h1, ih h2 (fun v hv => hu v (by simp [hv])) fun v hv => ht v (by simp [hv])]

/-- A row of ones tells where the texts end. -/
theorem ones_end {p q : List Byte} {m n : Nat} (h : p ++ 0 :: List.replicate m 1 = q ++ 0 :: List.replicate n 1) : p = q := by
  have h' := congrArg List.reverse h
  simp only [List.reverse_append, List.reverse_cons, List.reverse_replicate, List.append_assoc, List.cons_append, List.nil_append] at h'
  have key : ∀ (m n : Nat) (x y : List Byte), List.replicate m 1 ++ 0 :: x = List.replicate n 1 ++ 0 :: y → x = y := by
    intro m
    induction m with
    | zero =>
      intro n x y h
      cases n with
      | zero => simpa using h
      | succ n => simp [List.replicate_succ] at h
    | succ m ih =>
      intro n x y h
      cases n with
      | zero => simp [List.replicate_succ] at h
      | succ n =>
        simp only [List.replicate_succ, List.cons_append, List.cons.injEq, true_and] at h
        exact ih n x y h
  have := key _ _ _ _ h'
  simpa using congrArg List.reverse this

/-- Another code page: what `lemmatize` prints follows from what the library answers in code page 1251. -/
theorem lemmatizeTool_page {enc : Byte → List Byte} {native page : Option (List Lemm) → Option (List Byte) → Option (List Gram) → Option (Int × LemmState)}
    {H : List LemmStep} (h : LemmSpec native H) (hz : ∀ p ∈ H, 0 ∉ p.text) (hg : ∀ p ∈ H, p.grs ≠ []) (lx : List Lemm) (gr : List Gram)
    (hs : SameLemmas enc (fun B => native (some lx) (some B) (some gr)) (fun B => page (some lx) (some B) (some gr)))
    (B sb : List Byte) (hroom : GroupRoomy (some lx) (some B) (some gr) (lemmGroups true H))
    (hp : ∀ g ∈ lemmGroups true H, Plain (inPage enc g.1.text)) :
    let texts := (lemmGroups true H).map fun g => inPage enc g.1.text
    ((packed texts).length < sb.length → ∃ out, lemmatizeTool page lx sb gr = some (out, 0) ∧
      read out = some (.arr ((lemmGroups true H).map (lemmaJson (inPage enc))))) ∧
    (sb.length < (packed texts).length → lemmatizeTool page lx sb gr = some (asciiBytes "[\n]", 0)) := by
  have hzg : ∀ u ∈ (lemmGroups true H).map (fun g => g.1.text), 0 ∉ u := by
    intro u hu
    obtain ⟨g, hgg, rfl⟩ := List.mem_map.1 hu
    exact hz _ (mem_lemmGroups hgg)
  have hgg : ∀ g ∈ lemmGroups true H, g.1.grs ≠ [] := fun g hgg => hg _ (mem_lemmGroups hgg)
  have hspec := fun B => (h (some lx) (some B) (some gr)).1
  simp only [Option.isSome_some] at hspec
  generalize hgs : lemmGroups true H = gs at *
  intro texts
  obtain ⟨s, k1, k2⟩ := hspec B hroom
  obtain ⟨ts, t1, t2, t3, t4⟩ := hs.there B _ s k1 (by omega)
  have hlen : ts.length = gs.length := by omega
  -- the texts are those of the records
  have hts : ts = gs.map fun g => g.1.text := by
    by_cases h0 : gs = []
    · subst h0; simpa using hlen
    have hne : ts ≠ [] := by rintro rfl; simp at hlen; exact h0 (List.length_eq_zero_iff.1 hlen.symm)
    obtain ⟨s', q1, q2⟩ := t3 (List.replicate ((packed ts).length + (groupTexts gs).length + 2) 1) (by simp; omega)
    have hroom' : GroupRoomy (some lx) (some (List.replicate ((packed ts).length + (groupTexts gs).length + 2) 1)) (some gr) gs := by
      obtain ⟨⟨r1, r2, r3, r4⟩, r5, r6⟩ := hroom
      refine ⟨⟨r1, ?_, fun _ _ => r3 B (by simp), r4⟩, r5, r6⟩
      intro b hb _
      simp only [Option.mem_def, Option.some.injEq] at hb
      subst hb
      simp; omega
    obtain ⟨s2, v1, v2⟩ := hspec _ hroom'
    rw [v1] at q1
    cases q1
    have v3 := v2.texts
    rw [q2] at v3
    simp only [Option.map_some, if_neg h0, Option.some.injEq] at v3
    rw [filled_room (by simp; omega) hne, List.drop_replicate, List.drop_replicate] at v3
    have := ones_end v3
    rw [groupTexts] at this
    exact packed_inj this (by simpa using hlen) hzg
  subst hts
  have hmap : (gs.map fun g => g.1.text).map (inPage enc) = texts := by simp [texts]
  rw [hmap] at t4
  refine ⟨fun hsb => ?_, fun hsb => ?_⟩
  · obtain ⟨t, p1, p2, p3, p4⟩ := (t4 sb).1 hsb
    obtain ⟨l, l1, l2, l3, -, l5⟩ := reported_says k2
    obtain ⟨x, hx⟩ := Option.isSome_iff_exists.1 l5
    rw [l1] at p4
    rcases p4 with ⟨p4, -⟩ | ⟨a, b, pa, pb, pl, -, pi⟩
    · cases p4
    cases pa
    have p1' : page (some lx) (some sb) (some gr) = some ((gs.length : Int), t) := p1
    refine lemmatizeTool_prints (conv := inPage enc) p1' pb p2 (by rw [p3, hx]) (by omega) ?_ hp hgg
    rw [List.forall₂_iff_get] at l3 ⊢
    obtain ⟨m1, m2⟩ := l3
    refine ⟨by simp at m1 ⊢; omega, fun i hi hi2 => ?_⟩
    have hi' : i < l.length := by omega
    have hib : i < b.length := by omega
    have hsays := m2 i (by simp; omega) hi2
    simp only [List.get_eq_getElem, List.getElem_take] at hsays ⊢
    obtain ⟨e1, e2, e3, e4⟩ := pi i l[i] b[i] (List.getElem?_eq_getElem hi') (List.getElem?_eq_getElem hib)
    obtain ⟨-, e5⟩ := e4 (by simpa using hi2)
    have hgr := hsays.grams x hx
    refine ⟨by rw [← e1]; exact hsays.id, ?_, by rw [← e2, ← e3]; exact hgr⟩
    obtain ⟨r, hr⟩ := filled_drop hsb (i := i) (by simpa [texts] using hi2)
    refine ⟨r, ?_⟩
    rw [e5, List.map_take, hmap, hr]
    simp [texts]
  · obtain ⟨t, p1⟩ := (t4 sb).2 hsb
    exact lemmatizeTool_error p1 (by decide)

/-- **C85** The Russian library in another code page, UTF-8 for example: the array describes the same records, the dictionary forms
converted.  The 256 bytes have to hold the converted forms; when they do not, an empty array is printed. -/
theorem C85_code_page_partial {P : ApiInst → Page} {i : ApiInst} {enc : Byte → List Byte} {known : Byte → Prop} (hi : i ≠ .wide ∧ i ≠ .cp1251)
    (hP : (P i).Ok enc known) (h : RusOk A D st) (w junk : List Byte) (hk : ∀ b ∈ w, known b)
    (hne : w ≠ []) (hlen : w.length < 48) (hparts : (wordParts rusTab w).length ≤ 8) (hD : D.HasDict (w.map rusTab.lower) 2) :
    ∃ H, D.Readings (rusAdmits w 2) (w.map rusTab.lower) H ∧
    ∃ F : RusReading → List (List Byte), (∀ r ∈ H, D.DictForms r.art r.first 2 (F r)) ∧
    ∀ (lx : List Lemm) (gr : List Gram) (B sb : List Byte), lx.length = 16 → gr.length = 64 → sb.length = 256 →
      let gs := lemmGroups true (H.map fun r => r.step (F r))
      let texts := gs.map fun g => inPage enc g.1.text
      GroupRoomy (some lx) (some B) (some gr) gs → (∀ g ∈ gs, Plain (inPage enc g.1.text)) →
      ((packed texts).length < 256 → ∃ out, rusToolRun P (st.images D.mtab) junk lx sb gr i (inPage enc w) = some (out, 0) ∧
        read out = some (.arr (gs.map (lemmaJson (inPage enc))))) ∧
      (256 < (packed texts).length → rusToolRun P (st.images D.mtab) junk lx sb gr i (inPage enc w) = some (asciiBytes "[\n]", 0)) := by
  obtain ⟨H, h1, F, hF, h2, h3⟩ := rus_lemmSpec h w junk 2 hne hlen hparts hD
  refine ⟨H, h1, F, hF, fun lx gr B sb _ _ hsb hroom hp => ?_⟩
  have := lemmatizeTool_page (page := fun L B G => rusLemmatizeIn (P i) (st.images D.mtab) junk (inPage enc w) L B G 2) h2 h3 (rusSteps_grs h1 F) lx gr (C84_lemmatize hP (st.images D.mtab) junk w hk hlen (some lx) (some gr) 2)
    B sb hroom hp
  rw [hsb] at this
  have e : rusToolRun P (st.images D.mtab) junk lx sb gr i (inPage enc w) =
      lemmatizeTool (fun L B G => rusLemmatizeIn (P i) (st.images D.mtab) junk (inPage enc w) L B G 2) lx sb gr := by
    cases i <;> first | rfl | simp at hi
  rw [e]
  exact this

/-! ### English -/

/-- **C85** The English library; it has code page 1251 only, and any code page asked for but UTF-16 is taken for it (C32). -/
theorem C85_english_partial {as : List Article} (h : EngOk A as) (w junk : List Byte) (hne : w ≠ []) (hlen : w.length < 48)
    (hparts : (wordParts engTab w).length ≤ 8) (hD : ∀ p ∈ Matches as w 2, p.1.dictForms ≠ []) :
    ∃ H, Readings as w 2 H ∧
    ∀ (lx : List Lemm) (gr : List Gram) (sb : List Byte), lx.length = 16 → gr.length = 64 → sb.length = 256 →
      let hs := H.map Article.step
      let call := fun L B G => lemmatize (engBuild as).images junk w L B G 2
      (GroupRoomy (some lx) (some sb) (some gr) (lemmGroups true hs) → (∀ g ∈ lemmGroups true hs, Plain g.1.text) →
        ∃ out, lemmatizeTool call lx sb gr = some (out, 0) ∧ read out = some (.arr ((lemmGroups true hs).map (lemmaJson id)))) ∧
      (JoinSafe (some lx) (some gr) hs → ¬ GroupFits (some lx) (some sb) (some gr) (lemmGroups true hs) →
        lemmatizeTool call lx sb gr = some (asciiBytes "[\n]", 0)) := by
  obtain ⟨H, h1, h2, -⟩ := eng_lemmSpec h w junk 2 hne hlen hparts hD
  refine ⟨H, h1, fun lx gr sb _ _ _ => lemmatizeTool_spec h2 ?_ lx sb gr⟩
  intro p hp
  obtain ⟨q, hq, rfl⟩ := List.mem_map.1 hp
  have hm := h1.mem hq
  simp only [Matches, matchesOf, List.mem_filterMap, Option.bind_eq_some_iff] at hm
  obtain ⟨a, -, e, -, he⟩ := hm
  split at he
  · rename_i ht
    cases he
    simp only [Bool.and_eq_true, Article.takes] at ht
    simp only [Article.step]
    split
    · rename_i hi
      have := ht.1
      rw [if_pos hi] at this
      simpa using this
    · simp
  · cases he

/-! ### `main` -/

/-- The program `lemmatize` with a library that is found at one path. -/
def rusProgram (path : List Byte) (pages : ApiInst → Page) (im : RusImages) (junk : List Byte) (lexset : List Lemm) (stbuff : List Byte)
    (grbuff : List Gram) (args : List (List Byte)) : Option ToolRun :=
  toolMain libmorphMagic [] (fun p => if p = path then some rusToolLibrary else none) (rusToolRun pages im junk lexset stbuff grbuff) args

theorem rusProgram_runs (path : List Byte) (pages : ApiInst → Page) (im : RusImages) (junk : List Byte) (lx : List Lemm) (sb : List Byte) (gr : List Gram)
    (enc w : List Byte) (more : List (List Byte)) (i : ApiInst) (henc : enc = [] ∧ i = .utf8 ∨ enc.head? = some 58 ∧
      rusGetAPI libmorphMagic (some (asciiBytes libmorphMagic ++ enc ++ [0])) true = some (0, .inst i)) :
    rusProgram path pages im junk lx sb gr (path :: (asciiBytes "mlmaruGetAPI" ++ enc) :: w :: more) =
      (rusToolRun pages im junk lx sb gr i w).map fun r => ⟨r.1, [], r.2⟩ := by
  have hname : ∀ b ∈ asciiBytes "mlmaruGetAPI", (decide (b ≠ 58)) = true := by decide
  have hfn : ∀ r : List Byte, (r = [] ∨ r.head? = some 58) → (asciiBytes "mlmaruGetAPI" ++ r).takeWhile (· ≠ 58) = asciiBytes "mlmaruGetAPI" ∧
      (asciiBytes "mlmaruGetAPI" ++ r).dropWhile (· ≠ 58) = r := by
    intro r hr
    rw [List.takeWhile_append_of_pos hname, List.dropWhile_append_of_pos hname]
    rcases r with _ | ⟨b, r⟩
    · exact ⟨by simp, rfl⟩
    · have hb : b = 58 := by simpa using hr
      subst hb
      exact ⟨by simp, by simp⟩
  have hutf : rusGetAPI libmorphMagic (some (asciiBytes libmorphMagic ++ asciiBytes ":utf-8" ++ [0])) true = some (0, .inst .utf8) := by decide +kernel
  have hlib : rusToolLibrary (asciiBytes "mlmaruGetAPI") = some fun key => rusGetAPI libmorphMagic (some key) true := by rw [rusToolLibrary, if_pos rfl]
  rcases henc with ⟨rfl, rfl⟩ | ⟨h1, h2⟩
  · obtain ⟨k1, -⟩ := hfn [] (.inl rfl)
    have hno : 58 ∉ asciiBytes "mlmaruGetAPI" ++ [] := by decide
    have hne : asciiBytes ":utf-8" ≠ [] := by decide
    simp only [rusProgram, toolMain, if_pos, k1, if_neg hno, if_neg hne, hlib, bind, hutf, Option.bind_some, ne_eq, not_true_eq_false, if_false]
    rcases rusToolRun pages im junk lx sb gr .utf8 w with _ | ⟨o, n⟩ <;> rfl
  · obtain ⟨k1, k2⟩ := hfn enc (.inr h1)
    have hin : 58 ∈ asciiBytes "mlmaruGetAPI" ++ enc := by
      cases enc with
      | nil => cases h1
      | cons b enc => simp at h1; subst h1; simp
    have hne : enc ≠ [] := by rintro rfl; cases h1
    simp only [rusProgram, toolMain, if_pos, k1, k2, if_pos hin, if_neg hne, hlib, bind, h2, Option.bind_some, ne_eq, not_true_eq_false, if_false]
    rcases rusToolRun pages im junk lx sb gr i w with _ | ⟨o, n⟩ <;> rfl

/-- **C85** Without a code page the program works in UTF-8, with ":" and a name in the code page of that name (small and capital letters
alike); the printed text is that of C85_code_page_partial and C85_russian_partial, nothing goes to the standard error. -/
theorem C85_main (path : List Byte) (pages : ApiInst → Page) (im : RusImages) (junk : List Byte) (lx : List Lemm) (sb : List Byte) (gr : List Gram)
    (w : List Byte) (more : List (List Byte)) :
    rusProgram path pages im junk lx sb gr (path :: asciiBytes "mlmaruGetAPI" :: w :: more) =
      (rusToolRun pages im junk lx sb gr .utf8 w).map (fun r => ⟨r.1, [], r.2⟩) ∧
    ∀ name ∈ ["1251", "koi8", "866", "utf-8", "UTF8", "Windows-1251"], ∃ i, i ≠ .wide ∧
      rusProgram path pages im junk lx sb gr (path :: (asciiBytes "mlmaruGetAPI:" ++ asciiBytes name) :: w :: more) =
        (rusToolRun pages im junk lx sb gr i w).map (fun r => ⟨r.1, [], r.2⟩) := by
  refine ⟨by simpa using rusProgram_runs path pages im junk lx sb gr [] w more .utf8 (.inl ⟨rfl, rfl⟩), ?_⟩
  have hall : ∀ name ∈ ["1251", "koi8", "866", "utf-8", "UTF8", "Windows-1251"], ∃ i ∈ [ApiInst.cp1251, .koi8, .cp866, .utf8], i ≠ .wide ∧
      rusGetAPI libmorphMagic (some (asciiBytes libmorphMagic ++ (58 :: asciiBytes name) ++ [0])) true = some (0, .inst i) := by decide +kernel
  intro name hname
  obtain ⟨i, -, h1, h2⟩ := hall name hname
  refine ⟨i, h1, ?_⟩
  have e : asciiBytes "mlmaruGetAPI:" ++ asciiBytes name = asciiBytes "mlmaruGetAPI" ++ (58 :: asciiBytes name) := by
    have : asciiBytes "mlmaruGetAPI:" = asciiBytes "mlmaruGetAPI" ++ [58] := by decide
    rw [this]; simp
  rw [e]
  exact rusProgram_runs path pages im junk lx sb gr (58 :: asciiBytes name) w more i (.inr ⟨rfl, h2⟩)

/-- **C85** What goes wrong in the program: `:utf-16`, a name the library knows, gives it the object for wide characters, whose functions
it cannot call; a library that cannot be loaded is reported on the standard error, and the status is the length of the message: 0 when
the path has 223 characters. -/
theorem C85_main_counterexample (path : List Byte) (pages : ApiInst → Page) (im : RusImages) (junk : List Byte) (lx : List Lemm) (sb : List Byte)
    (gr : List Gram) (w : List Byte) :
    rusProgram path pages im junk lx sb gr [path, asciiBytes "mlmaruGetAPI:utf-16", w] = none ∧
    ∀ other fn, other ≠ path → other.length = 223 →
      ∃ msg, rusProgram path pages im junk lx sb gr [other, fn, w] = some ⟨[], msg, 0⟩ ∧ msg ≠ [] := by
  constructor
  · have := rusProgram_runs path pages im junk lx sb gr (asciiBytes ":utf-16") w [] .wide (.inr ⟨by decide, by decide +kernel⟩)
    have e : asciiBytes "mlmaruGetAPI" ++ asciiBytes ":utf-16" = asciiBytes "mlmaruGetAPI:utf-16" := by decide
    rw [e] at this
    rw [this]; rfl
  · intro other fn ho hl
    have e1 : (asciiBytes "Error: could not load library '").length = 31 := by decide
    have e2 : (asciiBytes "'\n").length = 2 := by decide
    refine ⟨asciiBytes "Error: could not load library '" ++ other ++ asciiBytes "'\n", ?_, ?_⟩
    · simp only [rusProgram, toolMain, if_neg ho, failWith, List.length_append, e1, e2, hl]
    · intro h0
      have := congrArg List.length h0
      simp only [List.length_append, e1, e2, hl] at this
      cases this

/-- **C85** Nothing is quoted: with an article whose dictionary form has a quotation mark, the text printed for one of its other forms
is no JSON text. -/
theorem C85_quote_counterexample :
    ∃ out, lemmatizeTool (fun L B G => lemmatize (engBuild [⟨[105, 110], [124, 34, 124, 115], 1, [], 7⟩]).images [] [105, 110, 115] L B G 2)
      (junkLemms 16) (junkBytes 256) (junkGrams 64) = some (out, 0) ∧ (read out).isNone = true := by
  have h : (lemmatizeTool (fun L B G => lemmatize (engBuild [⟨[105, 110], [124, 34, 124, 115], 1, [], 7⟩]).images [] [105, 110, 115] L B G 2)
      (junkLemms 16) (junkBytes 256) (junkGrams 64)).any (fun r => r.2 = 0 && (read r.1).isNone) = true := by decide +kernel
  obtain ⟨⟨out, n⟩, h1, h2⟩ := (Option.any_eq_true _ _).1 h
  simp only [Bool.and_eq_true, decide_eq_true_eq] at h2
  exact ⟨out, by rw [h1, h2.1], h2.2⟩

/-! ### A small dictionary -/

/-- "сна" is printed in code page 1251 as the noun "сон"; an unknown word gives an empty array. -/
example : rusToolRun (fun _ => utf8Page) (rusSampleState.images rusSample.mtab) [] (junkLemms 16) (junkBytes 256) (junkGrams 64) .cp1251 [241, 237, 224]
      = some (asciiBytes "[\n  { \"lemma\": \"" ++ [241, 238, 237] ++ asciiBytes "\",\t\"lexid\":    300, \"psp\":  7, \"forms\": [1] }\n]", 0) ∧
    rusToolRun (fun _ => utf8Page) (rusSampleState.images rusSample.mtab) [] (junkLemms 16) (junkBytes 256) (junkGrams 64) .cp1251 [241, 241]
      = some (asciiBytes "[]", 0) := by decide +kernel

/-- The program in UTF-8. -/
example : rusProgram [47] (fun _ => utf8Page) (rusSampleState.images rusSample.mtab) [] (junkLemms 16) (junkBytes 256) (junkGrams 64)
      [[47], asciiBytes "mlmaruGetAPI", inPage utf8Enc [241, 237, 224]]
      = some ⟨asciiBytes "[\n  { \"lemma\": \"" ++ inPage utf8Enc [241, 238, 237] ++ asciiBytes "\",\t\"lexid\":    300, \"psp\":  7, \"forms\": [1] }\n]", [], 0⟩ := by
  decide +kernel

/-- The theorem applies to UTF-8 and "сна". -/
example : ∃ H, rusSample.Readings (rusAdmits [241, 237, 224] 2) [241, 237, 224] H ∧
    ∃ F : RusReading → List (List Byte), (∀ r ∈ H, rusSample.DictForms r.art r.first 2 (F r)) ∧
    ∀ (lx : List Lemm) (gr : List Gram) (B sb : List Byte), lx.length = 16 → gr.length = 64 → sb.length = 256 →
      let gs := lemmGroups true (H.map fun r => r.step (F r))
      let texts := gs.map fun g => inPage utf8Enc g.1.text
      GroupRoomy (some lx) (some B) (some gr) gs → (∀ g ∈ gs, Plain (inPage utf8Enc g.1.text)) →
      ((packed texts).length < 256 → ∃ out, rusToolRun (fun _ => utf8Page) (rusSampleState.images rusSample.mtab) [] lx sb gr .utf8
        (inPage utf8Enc [241, 237, 224]) = some (out, 0) ∧ read out = some (.arr (gs.map (lemmaJson (inPage utf8Enc))))) ∧
      (256 < (packed texts).length → rusToolRun (fun _ => utf8Page) (rusSampleState.images rusSample.mtab) [] lx sb gr .utf8
        (inPage utf8Enc [241, 237, 224]) = some (asciiBytes "[\n]", 0)) :=
  C85_code_page_partial (P := fun _ => utf8Page) (i := .utf8) (by decide) utf8Page_ok rusSample_ok [241, 237, 224] [] (by decide) (by decide) (by decide)
    (by decide) (rusSample_hasDict _ _)

end Libmorph
