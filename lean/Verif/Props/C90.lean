import Verif.Lemmas.LemmEnd
import Verif.Props.C65
/-
C90: Lemmatize with buffers of any size.
-/
namespace Libmorph
open Libmorph.Spec

variable {A : List Byte} {D : RusDict} {st : RusState}

/-- The dictionary forms of a reading, where it has any (any list where it has none). -/
noncomputable def RusDict.formsOf (D : RusDict) (dwsets : Nat) (r : RusReading) : List (List Byte) :=
  open Classical in if h : ∃ fs, D.DictForms r.art r.first dwsets fs then h.choose else []

theorem RusDict.formsOf_spec {dwsets : Nat} {r : RusReading} {fs : List (List Byte)} (h : D.DictForms r.art r.first dwsets fs) :
    D.DictForms r.art r.first dwsets (D.formsOf dwsets r) := by
  rw [RusDict.formsOf, dif_pos ⟨fs, h⟩]
  exact Exists.choose_spec _

/-- **C90** Russian Lemmatize, for any buffers, supplied or not, empty, too small or large enough, and whatever they held: the records and
the descriptions are those of the readings of the word (`C43`), and how the call ends is worked out from the sizes alone by `lemmEnd`.
Where that says `done`, it returns the number of records, and they, the dictionary forms and the descriptions are in the buffers; where it says a
code, it returns that code, the code blames the buffer that lacks room, and no buffer has changed its size; where it says `undefined`, the program has written
behind the record buffer.  The dictionary forms matter only if a buffer for them is supplied. -/
theorem C90_russian (h : RusOk A D st) (w : List Byte) (dwsets : Nat)
    (hne : w ≠ []) (hlen : w.length < 48) (hparts : (wordParts rusTab w).length ≤ 8) :
    ∃ H, D.Readings (rusAdmits w dwsets) (w.map rusTab.lower) H ∧
    ∃ F : RusReading → List (List Byte), (∀ r ∈ H, ∀ fs, D.DictForms r.art r.first dwsets fs → D.DictForms r.art r.first dwsets (F r)) ∧
      ∀ junk (L : Option (List Lemm)) (B : Option (List Byte)) (G : Option (List Gram)),
        (B.isSome → D.HasDict (w.map rusTab.lower) dwsets) →
        AnswersAs L B G (lemmGroups L.isSome (H.map fun r => r.step (F r))) (rusLemmatize (st.images D.mtab) junk w L B G dwsets)
          (lemmEnd (L.map List.length) (B.map List.length) (G.map List.length) [] (H.map fun r => r.step (F r))) := by
  obtain ⟨H, hH⟩ := rusScanOf_exists h (w.map rusTab.lower) (by simpa using hlen)
  have hr := rusHeard_readings (dwsets := dwsets) hH
  refine ⟨rusHeard H w dwsets, hr, D.formsOf dwsets, fun r _ fs hfs => RusDict.formsOf_spec hfs, fun junk L B G hD => ?_⟩
  refine rusLemmatize_exact h w junk dwsets hne hlen hparts hH L B G _ (fun hB r hm => ?_) (fun r hm => proper_few h (hr.proper r hm).1)
  have hp := (hr.proper r hm).1
  obtain ⟨fs, hfs⟩ := hD hB _ hp.art _ _ _ (first_reads hp) hp.word
  exact RusDict.formsOf_spec hfs

/-- **C90** English Lemmatize, for any buffers. -/
theorem C90_english {as : List Article} (h : EngOk A as) (w : List Byte) (dwsets : Nat)
    (hne : w ≠ []) (hlen : w.length < 48) (hparts : (wordParts engTab w).length ≤ 8) :
    ∃ H, Readings as w dwsets H ∧ ∀ junk (L : Option (List Lemm)) (B : Option (List Byte)) (G : Option (List Gram)),
      (B.isSome → ∀ p ∈ Matches as w dwsets, p.1.dictForms ≠ []) →
      AnswersAs L B G (lemmGroups L.isSome (H.map Article.step)) (lemmatize (engBuild as).images junk w L B G dwsets)
        (lemmEnd (L.map List.length) (B.map List.length) (G.map List.length) [] (H.map Article.step)) := by
  obtain ⟨V, hV⟩ := scanOf_exists h (w.map engTab.lower) (by simpa using hlen)
  have hr := heard_readings hV.visits dwsets
  exact ⟨_, hr, fun junk L B G hD => lemmatize_exact h w junk dwsets hne hlen hparts hV L B G (fun hB p hp => hD hB p (hr.mem hp))⟩

/-! ### The wrappers -/

/-- What the C++ wrapper answers for an outcome of the library. -/
def wrapEnd (gs : List LemmGroup) : LemmEnd → Option (Except Int (List Lexeme))
  | .done => some (.ok (gs.map groupLexeme))
  | .code r => some (.error r)
  | .undefined => none

theorem GroupBlames.neg {L : Option (List Lemm)} {B : Option (List Byte)} {G : Option (List Gram)} {gs : List LemmGroup} {r : Int}
    (h : GroupBlames L B G gs r) : r < 0 := by
  rcases h with ⟨h2, -⟩ | ⟨h2, -⟩ | ⟨h2, -⟩ <;> rw [h2] <;> decide

theorem wrapLemmas_exact {call : Option (List Lemm) → Option (List Byte) → Option (List Gram) → Option (Int × LemmState)}
    {H : List LemmStep} {e : LemmEnd} {lx : List Lemm} {gr : List Gram} {sb : List Byte}
    (h : AnswersAs (some lx) (some sb) (some gr) (lemmGroups true H) (call (some lx) (some sb) (some gr)) e)
    (hz : ∀ p ∈ H, 0 ∉ p.text) : wrapLemmas call lx gr sb = wrapEnd (lemmGroups true H) e := by
  cases e with
  | done =>
    obtain ⟨s, k1, k2, -⟩ := h
    obtain ⟨l, l1, l2, l3, l4, l5⟩ := reported_says k2
    obtain ⟨b, hb⟩ := Option.isSome_iff_exists.1 l4
    obtain ⟨x, hx⟩ := Option.isSome_iff_exists.1 l5
    rw [hb, hx] at l3
    have := mapM_of_forall₂ (f := readLexeme b x) (k := groupLexeme) (fun r g (hg : _ ∧ 0 ∉ g.1.text) => readLexeme_says hg.1 hg.2)
      (forall₂_and_right l3 fun g hg => hz _ (mem_lemmGroups hg))
    simp only [wrapLemmas, k1, bind, Option.bind_some]
    rw [if_neg (by omega)]
    simp only [l1, Option.getD_some, Int.toNat_natCast, hb, hx, if_pos l2, this, Option.bind_some]
    rfl
  | code r =>
    obtain ⟨s, k1, k2, -⟩ := h
    simp [wrapLemmas, k1, k2.neg, wrapEnd]
  | undefined => 
    have h : _ = none := h
    simp [wrapLemmas, h, wrapEnd]

/-- What the Python class answers for an outcome of the library. -/
def pyEnd (dwsets : Nat) (gs : List LemmGroup) : LemmEnd → Option (List PyLemm)
  | .done => some (gs.map (pyRecord dwsets))
  | .code _ => some []
  | .undefined => none

theorem pyLemmatize_exact
    {call : Option (List Lemm) → Option (List Byte) → Option (List Gram) → Nat → Option (Int × LemmState)} {dwsets : Nat}
    {H : List LemmStep} {e : LemmEnd} {lx : List Lemm} {sb : List Byte} {gr : List Gram}
    (h : AnswersAs (some lx) (pyStrings dwsets sb) (pyGrams dwsets gr) (lemmGroups true H)
      (call (some lx) (pyStrings dwsets sb) (pyGrams dwsets gr) (pySettings dwsets)) e)
    (hz : ∀ p ∈ H, (pyStrings dwsets sb).isSome → 0 ∉ p.text) : pyLemmatize call lx sb gr dwsets = pyEnd dwsets (lemmGroups true H) e := by
  cases e with
  | done =>
    obtain ⟨s, k1, k2, -⟩ := h
    obtain ⟨l, l1, l2, l3, l4, l5⟩ := reported_says k2
    have b4 : s.forms.buf.isSome = decide (dwsets &&& 4 = 0) := by rw [l4, pyStrings]; split <;> simp_all
    have b8 : s.grams.isSome = decide (dwsets &&& 8 = 0) := by rw [l5, pyGrams]; split <;> simp_all
    have := mapM_of_forall₂ (f := readPyLemm s.forms.buf (s.grams.getD [])) (k := pyRecord dwsets)
      (fun r g (hg : _ ∧ ((pyStrings dwsets sb).isSome → 0 ∉ g.1.text)) => readPyLemm_says' hg.1 dwsets b4 b8 (fun h4 => hg.2 (by rw [← l4]; exact h4)))
      (forall₂_and_right l3 fun g hg => hz _ (mem_lemmGroups hg))
    simp only [pyLemmatize, k1, bind, Option.bind_some, l1, Option.getD_some, Int.toNat_natCast, if_pos l2, this]
    rfl
  | code r =>
    obtain ⟨s, k1, k2, -⟩ := h
    have := k2.neg
    have h0 : r.toNat = 0 := by omega
    simp only [pyLemmatize, k1, bind, Option.bind_some, h0, pyEnd, List.take_zero, List.mapM_nil]
    rw [if_pos (by omega)]
    rfl
  | undefined =>
    have h : _ = none := h
    simp [pyLemmatize, h, pyEnd]

/-- **C90** the C++ wrapper, which offers 32 records, 64 descriptions and 256 bytes: Russian. -/
theorem C90_wrapper_russian (h : RusOk A D st) (w : List Byte) (dwsets : Nat) (junk : List Byte)
    (hne : w ≠ []) (hlen : w.length < 48) (hparts : (wordParts rusTab w).length ≤ 8)
    (hD : D.HasDict (w.map rusTab.lower) dwsets) :
    ∃ H, D.Readings (rusAdmits w dwsets) (w.map rusTab.lower) H ∧
    ∃ F : RusReading → List (List Byte), (∀ r ∈ H, D.DictForms r.art r.first dwsets (F r)) ∧
    ∀ (lx : List Lemm) (gr : List Gram) (sb : List Byte), lx.length = 32 → gr.length = 64 → sb.length = 256 →
      let hs := H.map fun r => r.step (F r)
      rusWrapLemmatize (st.images D.mtab) junk lx gr sb w dwsets
        = wrapEnd (lemmGroups true hs) (lemmEnd (some 32) (some 256) (some 64) [] hs) := by
  obtain ⟨H, h1, F, hF, h2⟩ := C90_russian h w dwsets hne hlen hparts
  have hF' : ∀ r ∈ H, D.DictForms r.art r.first dwsets (F r) := by
    intro r hr
    have hp := (h1.proper r hr).1
    obtain ⟨fs, hfs⟩ := hD _ hp.art _ _ _ (first_reads hp) hp.word
    exact hF r hr fs hfs
  refine ⟨H, h1, F, hF', fun lx gr sb hl hg hs => ?_⟩
  have k := h2 junk (some lx) (some sb) (some gr) (fun _ => hD)
  simp only [Option.map_some, hl, hg, hs] at k
  refine wrapLemmas_exact (call := fun L B G => rusLemmatize (st.images D.mtab) junk w L B G dwsets) k ?_
  intro p hp
  obtain ⟨r, hr, rfl⟩ := List.mem_map.1 hp
  obtain ⟨k1, k2, -⟩ := rusDictForms_eq h (h1.proper r hr).1.art r.first dwsets (F r) (hF' r hr)
  exact (rusPrinted_text _ r.art.demand_le _ (k2 _ (leastForm_mem k1))).zero

/-- **C90** the C++ wrapper, English. -/
theorem C90_wrapper_english {as : List Article} (h : EngOk A as) (w : List Byte) (dwsets : Nat) (junk : List Byte)
    (hne : w ≠ []) (hlen : w.length < 48) (hparts : (wordParts engTab w).length ≤ 8)
    (hD : ∀ p ∈ Matches as w dwsets, p.1.dictForms ≠ []) :
    ∃ H, Readings as w dwsets H ∧
    ∀ (lx : List Lemm) (gr : List Gram) (sb : List Byte), lx.length = 32 → gr.length = 64 → sb.length = 256 →
      wrapLemmatize (engBuild as).images junk lx gr sb w dwsets
        = wrapEnd (lemmGroups true (H.map Article.step)) (lemmEnd (some 32) (some 256) (some 64) [] (H.map Article.step)) := by
  obtain ⟨H, h1, h2⟩ := C90_english h w dwsets hne hlen hparts
  refine ⟨H, h1, fun lx gr sb hl hg hs => ?_⟩
  have k := h2 junk (some lx) (some sb) (some gr) (fun _ => hD)
  simp only [Option.map_some, hl, hg, hs] at k
  refine wrapLemmas_exact (call := fun L B G => lemmatize (engBuild as).images junk w L B G dwsets) k ?_
  intro p hp
  obtain ⟨q, hq, rfl⟩ := List.mem_map.1 hp
  exact (h.lemmaText (mem_Matches.1 (h1.mem hq)).1).zero

/-- **C90** the Python class, which offers 32 records, 2048 bytes and 512 descriptions: Russian.  With SF_NO_LEMMA_STRING the dictionary
forms do not matter. -/
theorem C90_python_russian (h : RusOk A D st) (w junk : List Byte) (dwsets : Nat) (s : Nat) (hs : s = if dwsets &&& 2 ≠ 0 then 2 else 0)
    (hne : w ≠ []) (hlen : w.length < 48) (hparts : (wordParts rusTab w).length ≤ 8)
    (hD : dwsets &&& 4 = 0 → D.HasDict (w.map rusTab.lower) s) :
    ∃ H, D.Readings (rusAdmits w s) (w.map rusTab.lower) H ∧
    ∃ F : RusReading → List (List Byte), (dwsets &&& 4 = 0 → ∀ r ∈ H, D.DictForms r.art r.first s (F r)) ∧
    ∀ (lx : List Lemm) (sb : List Byte) (gr : List Gram), lx.length = 32 → sb.length = 2048 → gr.length = 512 →
      let hs := H.map fun r => r.step (F r)
      pyLemmatize (rusLemmatize (st.images D.mtab) junk w) lx sb gr dwsets
        = pyEnd dwsets (lemmGroups true hs) (lemmEnd (some 32) (if dwsets &&& 4 = 0 then some 2048 else none)
            (if dwsets &&& 8 = 0 then some 512 else none) [] hs) := by
  subst hs
  obtain ⟨H, h1, F, hF, h2⟩ := C90_russian h w (if dwsets &&& 2 ≠ 0 then 2 else 0) hne hlen hparts
  have hF' : dwsets &&& 4 = 0 → ∀ r ∈ H, D.DictForms r.art r.first (if dwsets &&& 2 ≠ 0 then 2 else 0) (F r) := by
    intro h4 r hr
    have hp := (h1.proper r hr).1
    obtain ⟨fs, hfs⟩ := hD h4 _ hp.art _ _ _ (first_reads hp) hp.word
    exact hF r hr fs hfs
  have h4i : ∀ sb, (pyStrings dwsets sb).isSome → dwsets &&& 4 = 0 := by
    intro sb hb
    by_contra h4
    simp [pyStrings, h4] at hb
  refine ⟨H, h1, F, hF', fun lx sb gr hl hb hg => ?_⟩
  have k := h2 junk (some lx) (pyStrings dwsets sb) (pyGrams dwsets gr) (fun hb => hD (h4i _ hb))
  have e1 : (pyStrings dwsets sb).map List.length = if dwsets &&& 4 = 0 then some 2048 else none := by
    rw [pyStrings]; split <;> simp_all
  have e2 : (pyGrams dwsets gr).map List.length = if dwsets &&& 8 = 0 then some 512 else none := by
    rw [pyGrams]; split <;> simp_all
  rw [e1, e2, Option.map_some, hl] at k
  refine pyLemmatize_exact k ?_
  intro p hp hb
  obtain ⟨r, hr, rfl⟩ := List.mem_map.1 hp
  obtain ⟨k1, k2, -⟩ := rusDictForms_eq h (h1.proper r hr).1.art r.first _ (F r) (hF' (h4i _ hb) r hr)
  exact (rusPrinted_text _ r.art.demand_le _ (k2 _ (leastForm_mem k1))).zero

/-- **C90** the Python class, English. -/
theorem C90_python_english {as : List Article} (h : EngOk A as) (w junk : List Byte) (dwsets : Nat) (s : Nat)
    (hs : s = if dwsets &&& 2 ≠ 0 then 2 else 0) (hne : w ≠ []) (hlen : w.length < 48) (hparts : (wordParts engTab w).length ≤ 8)
    (hD : dwsets &&& 4 = 0 → ∀ p ∈ Matches as w s, p.1.dictForms ≠ []) :
    ∃ H, Readings as w s H ∧
    ∀ (lx : List Lemm) (sb : List Byte) (gr : List Gram), lx.length = 32 → sb.length = 2048 → gr.length = 512 →
      let hs := H.map Article.step
      pyLemmatize (lemmatize (engBuild as).images junk w) lx sb gr dwsets
        = pyEnd dwsets (lemmGroups true hs) (lemmEnd (some 32) (if dwsets &&& 4 = 0 then some 2048 else none)
            (if dwsets &&& 8 = 0 then some 512 else none) [] hs) := by
  subst hs
  obtain ⟨H, h1, h2⟩ := C90_english h w (if dwsets &&& 2 ≠ 0 then 2 else 0) hne hlen hparts
  refine ⟨H, h1, fun lx sb gr hl hb hg => ?_⟩
  have k := h2 junk (some lx) (pyStrings dwsets sb) (pyGrams dwsets gr) (fun hb => hD (by
    by_contra h4
    simp [pyStrings, h4] at hb))
  have e1 : (pyStrings dwsets sb).map List.length = if dwsets &&& 4 = 0 then some 2048 else none := by
    rw [pyStrings]; split <;> simp_all
  have e2 : (pyGrams dwsets gr).map List.length = if dwsets &&& 8 = 0 then some 512 else none := by
    rw [pyGrams]; split <;> simp_all
  rw [e1, e2, Option.map_some, hl] at k
  refine pyLemmatize_exact k ?_
  intro p hp _
  obtain ⟨q, hq, rfl⟩ := List.mem_map.1 hp
  exact (h.lemmaText (mem_Matches.1 (h1.mem hq)).1).zero

/-! ### What the sizes do -/

/-- A buffer at least as large: supplied exactly if the other is. -/
def AtLeast : Option Nat → Option Nat → Prop
  | none, none => True
  | some a, some b => a ≤ b
  | _, _ => False

theorem newEnd_mono {nl nb ng nl' nb' ng' : Option Nat} (hl : AtLeast nl nl') (hb : AtLeast nb nb') (hg : AtLeast ng ng')
    {gs : List LemmGroup} {p : LemmStep} (h : newEnd nl nb ng gs p = .done) : newEnd nl' nb' ng' gs p = .done := by
  unfold newEnd at h ⊢
  split at h
  · cases h
  rename_i c1
  split at h
  · cases h
  rename_i c2
  split at h
  · cases h
  rename_i c3
  rw [if_neg, if_neg, if_neg]
  · cases nl <;> cases nl' <;> cases ng <;> cases ng' <;> simp_all [AtLeast] <;> omega
  · cases nb <;> cases nb' <;> simp_all [AtLeast] <;> omega
  · cases nl <;> cases nl' <;> simp_all [AtLeast] <;> omega

theorem joinEnd_mono {nl ng nl' ng' : Option Nat} (hl : AtLeast nl nl') (hg : AtLeast ng ng')
    {gs : List LemmGroup} {g : LemmGroup} {p : LemmStep} (h : joinEnd nl ng gs g p = .done) : joinEnd nl' ng' gs g p = .done := by
  cases nl <;> cases nl' <;> cases ng <;> cases ng' <;> simp only [AtLeast] at hl hg <;> first | rfl | skip
  simp only [joinEnd] at h ⊢
  split at h
  · cases h
  rename_i c1
  split at h
  · cases h
  rename_i c2
  rw [if_neg, if_neg]
  · omega
  · rintro ⟨k1, k2⟩
    exact c1 ⟨k1, by omega⟩

theorem stepEnd_mono {nl nb ng nl' nb' ng' : Option Nat} (hl : AtLeast nl nl') (hb : AtLeast nb nb') (hg : AtLeast ng ng')
    {gs : List LemmGroup} {p : LemmStep} (h : stepEnd nl nb ng gs p = .done) : stepEnd nl' nb' ng' gs p = .done := by
  have hs : nl.isSome = nl'.isSome := by cases nl <;> cases nl' <;> simp_all [AtLeast]
  unfold stepEnd at h ⊢
  rw [← hs]
  generalize gs.getLast? = o at h ⊢
  cases o with
  | none => exact newEnd_mono hl hb hg h
  | some g =>
    simp only at h ⊢
    split
    · rename_i hc; rw [if_pos hc] at h; exact joinEnd_mono hl hg h
    · rename_i hc; rw [if_neg hc] at h; exact newEnd_mono hl hb hg h

/-- **C90** larger buffers never turn an answer into a failure. -/
theorem C90_monotone {nl nb ng nl' nb' ng' : Option Nat} (hl : AtLeast nl nl') (hb : AtLeast nb nb') (hg : AtLeast ng ng')
    (gs : List LemmGroup) (H : List LemmStep) (h : lemmEnd nl nb ng gs H = .done) : lemmEnd nl' nb' ng' gs H = .done := by
  have hs : nl.isSome = nl'.isSome := by cases nl <;> cases nl' <;> simp_all [AtLeast]
  induction H generalizing gs with
  | nil => rfl
  | cons p H ih =>
    simp only [lemmEnd] at h ⊢
    split at h
    · rename_i hc
      rw [if_pos (stepEnd_mono hl hb hg hc), ← hs]
      exact ih _ h
    · rename_i hc; exact absurd h hc

theorem newEnd_defined (nl nb ng : Option Nat) (gs : List LemmGroup) (p : LemmStep) : newEnd nl nb ng gs p ≠ .undefined := by
  unfold newEnd
  split
  · simp
  split
  · simp
  split <;> simp

theorem stepEnd_undefined {nl nb ng : Option Nat} {gs : List LemmGroup} {p : LemmStep} (h : stepEnd nl nb ng gs p = .undefined) :
    ng.isSome ∧ (∃ l, nl = some l ∧ l ≤ gs.length) ∧ (gs.getLast?).map (fun g => g.1.id) = some p.id := by
  unfold stepEnd at h
  split at h
  · rename_i g hg
    split at h
    · rename_i hc
      unfold joinEnd at h
      split at h
      · split at h
        · cases h
        split at h
        · rename_i k; exact ⟨rfl, ⟨_, rfl, k⟩, by rw [hg, Option.map_some, hc.2]⟩
        · cases h
      · cases h
    · exact absurd h (newEnd_defined _ _ _ _ _)
  · exact absurd h (newEnd_defined _ _ _ _ _)

theorem foldl_joinStep_le (r : Bool) (gs : List LemmGroup) (H : List LemmStep) : gs.length ≤ (H.foldl (joinStep r) gs).length := by
  induction H generalizing gs with
  | nil => exact Nat.le_refl _
  | cons p H ih => exact Nat.le_trans (joinStep_le (r := r) gs p).1 (ih _)

/-- **C90** when it is that the program writes behind the record buffer: records and descriptions are asked for, the buffer is not larger
than the answer, and some reading is of the same lexeme as the one before it. -/
theorem C90_undefined {nl nb ng : Option Nat} {gs : List LemmGroup} {H : List LemmStep} (h : lemmEnd nl nb ng gs H = .undefined) :
    ng.isSome ∧ (∃ l, nl = some l ∧ l ≤ (H.foldl (joinStep true) gs).length) ∧
      ∃ P p Q, H = P ++ p :: Q ∧ ((P.foldl (joinStep true) gs).getLast?).map (fun g => g.1.id) = some p.id := by
  induction H generalizing gs with
  | nil => cases h
  | cons p H ih =>
    simp only [lemmEnd] at h
    split at h
    · obtain ⟨h1, ⟨l, rfl, h2⟩, P, q, Q, rfl, h3⟩ := ih h
      exact ⟨h1, ⟨l, rfl, h2⟩, p :: P, q, Q, rfl, h3⟩
    · obtain ⟨h1, ⟨l, rfl, h2⟩, h3⟩ := stepEnd_undefined h
      exact ⟨h1, ⟨l, rfl, Nat.le_trans h2 (Nat.le_trans (joinStep_le (r := true) gs p).1 (foldl_joinStep_le true _ H))⟩, [], p, H, rfl, h3⟩

/-- **C90** one record more than the answer has, and the call is defined, however small the other buffers. -/
theorem C90_spare (l : Nat) (nb ng : Option Nat) (H : List LemmStep) (h : (lemmGroups true H).length < l) :
    lemmEnd (some l) nb ng [] H ≠ .undefined := by
  intro hc
  obtain ⟨-, ⟨l', h1, h2⟩, -⟩ := C90_undefined hc
  cases h1
  exact absurd h (by rw [lemmGroups]; omega)

/-- **C90** without a buffer for the records, or without one for the descriptions, the call is defined. -/
theorem C90_defined (nl nb ng : Option Nat) (H : List LemmStep) (h : nl = none ∨ ng = none) : lemmEnd nl nb ng [] H ≠ .undefined := by
  intro hc
  obtain ⟨h1, ⟨l, h2, -⟩, -⟩ := C90_undefined hc
  rcases h with h | h
  · rw [h] at h2; cases h2
  · rw [h] at h1; cases h1

/-- **C90** what `C44` calls sufficient is sufficient. -/
theorem C90_roomy {L : Option (List Lemm)} {B : Option (List Byte)} {G : Option (List Gram)} (H : List LemmStep)
    (h : GroupRoomy L B G (lemmGroups L.isSome H)) :
    lemmEnd (L.map List.length) (B.map List.length) (G.map List.length) [] H = .done := by
  have key : ∀ (done H : List LemmStep), GroupRoomy L B G (lemmGroups L.isSome (done ++ H)) →
      lemmEnd (L.map List.length) (B.map List.length) (G.map List.length) (lemmGroups L.isSome done) H = .done := by
    intro done H h
    induction H generalizing done with
    | nil => rfl
    | cons p H ih =>
      rw [show done ++ p :: H = done ++ [p] ++ H by simp] at h
      have hp := h.left
      rw [lemmGroups_snoc] at hp
      have hd : stepEnd (L.map List.length) (B.map List.length) (G.map List.length) (lemmGroups L.isSome done) p = .done := by
        unfold stepEnd
        cases hg : (lemmGroups L.isSome done).getLast? with
        | none =>
          simp only
          rw [joinStep_new (by rw [hg]; simp)] at hp
          exact newEnd_done hp.toGroupFits
        | some g =>
          simp only [Option.isSome_map]
          split
          · rename_i hc
            obtain ⟨ys, hys⟩ := List.getLast?_eq_some_iff.1 hg
            cases L with
            | none => simp at hc
            | some l =>
              simp only [Option.isSome_some] at hys hp ⊢
              rw [hys] at hp ⊢
              rw [joinStep_join hc.2] at hp
              have hj : Joined (ys ++ [(g.1, g.2 ++ [p])]) := ⟨_, List.mem_append_right _ (List.mem_singleton_self _), by simp⟩
              cases G with
              | none => rfl
              | some G =>
                have h1 := hp.lemms' hj l rfl G rfl
                have h2 := hp.grams' hj l rfl G rfl
                simp only [Option.map_some, joinEnd]
                rw [if_neg, if_neg]
                · simp at h1 ⊢; omega
                · rintro ⟨k1, k2⟩
                  have h3 : (g.adds { p with grs := p.grs.dropLast }).length ≤ (g.adds p).length := by
                    simp only [LemmGroup.adds, List.length_map]
                    exact ((List.dropLast_sublist p.grs).filter _).length_le
                  simp only [groupGrams, List.flatMap_append, List.flatMap_cons, List.flatMap_nil, List.append_nil, List.length_append,
                    written_join] at h2 k2
                  omega
          · rename_i hc
            rw [joinStep_new (by intro h1; rw [hg]; simp; exact fun h2 => hc ⟨h1, h2⟩)] at hp
            exact newEnd_done hp.toGroupFits
      rw [lemmEnd, if_pos hd, Option.isSome_map, ← lemmGroups_snoc]
      exact ih _ h
  exact key [] H h

/-- **C90** refuted as an interface that keeps within its buffers: "там" of `C44_lost_description`, one record, room for two descriptions.  The answer
has one record, and the program writes into the next, which does not exist; with no room for the second description it returns the code for it,
with a second record it answers. -/
theorem C90_overflow :
    let call := fun l g => ((rusBuild [] [0] tamTwice).bind fun st => rusLemmatize (st.images [0]) [] [242, 224, 236]
      (some (List.replicate l ⟨0, 0, 0, 0⟩)) none (some (List.replicate g ⟨0, 0, 0, 0⟩)) 0).map (fun r => r.1)
    call 1 2 = none ∧ call 1 1 = some GRAMBUFF_FAILED ∧ call 2 2 = some 1 ∧ call 2 1 = some GRAMBUFF_FAILED ∧ call 0 0 = some LIDSBUFF_FAILED := by
  decide +kernel

/-- The rule says the same: two readings of one lexeme. -/
example : let p : LemmStep := ⟨9, 4, [242, 224, 236], [⟨52, 0, 0, 0⟩], fun g => { g with idForm := 255 }⟩
    lemmEnd (some 1) none (some 2) [] [p, p] = .undefined ∧ lemmEnd (some 1) none (some 1) [] [p, p] = .code GRAMBUFF_FAILED ∧
    lemmEnd (some 2) none (some 2) [] [p, p] = .done ∧ lemmEnd (some 0) none (some 0) [] [p, p] = .code LIDSBUFF_FAILED ∧
    lemmEnd none (some 10) none [] [p, p] = .done ∧ lemmEnd none (some 8) none [] [p, p] = .code LEMMBUFF_FAILED := by decide

end Libmorph
