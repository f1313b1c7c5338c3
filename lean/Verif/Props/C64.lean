import Verif.Spec.Python
import Verif.Props.C40
/-
C64, C65: the C++ wrappers and the Python classes over the dictionaries.
-/
namespace Libmorph
open Libmorph.Spec

/-! ### Reading the buffers back -/

theorem cstring_zero {w : List Byte} (hw : 0 ∉ w) (tail : List Byte) : cstring (w ++ 0 :: tail) = some w := by
  rw [cstring, if_pos (by simp)]
  congr 1
  induction w with
  | nil => simp
  | cons c w ih =>
    simp only [List.mem_cons, not_or] at hw
    have : c ≠ 0 := fun h => hw.1 h.symm
    simp [this, ih hw.2]

/-- What a record says. -/
structure GroupSays (B : Option (List Byte)) (G : Option (List Gram)) (r : Lemm) (g : LemmGroup) : Prop where
  id : r.nlexid = g.1.id
  text : ∀ b, B = some b → ∃ t, b.drop r.plemma = g.1.text ++ 0 :: t
  grams : ∀ x, G = some x → r.ngrams = g.counted.length ∧ r.pgrams + r.ngrams ≤ x.length ∧ (x.drop r.pgrams).take r.ngrams = g.counted
  none : G = none → r.ngrams = 0

theorem groupRecords_says (B : Option (List Byte)) (G : Option (List Gram)) (gs : List LemmGroup) : ∀ fpos gpos,
    (∀ b, B = some b → ∃ x y, x.length = fpos ∧ b = x ++ groupTexts gs ++ y) →
    (∀ b, G = some b → ∃ x y, x.length = gpos ∧ b = x ++ groupGrams gs ++ y) →
    List.Forall₂ (GroupSays B G) (groupRecords B.isSome G.isSome fpos gpos gs) gs := by
  induction gs with
  | nil => intro _ _ _ _; exact .nil
  | cons g gs ih =>
    intro fpos gpos h1 h2
    have e1 : groupTexts (g :: gs) = g.1.text ++ 0 :: groupTexts gs := by simp [groupTexts, packed_cons]
    have e2 : groupGrams (g :: gs) = g.counted ++ (g.2.flatMap g.adds ++ groupGrams gs) := by
      simp [groupGrams, LemmGroup.written]
    rw [groupRecords]
    refine .cons ⟨rfl, ?_, ?_, ?_⟩ (ih _ _ ?_ ?_)
    · intro b hb
      obtain ⟨x, y, rfl, rfl⟩ := h1 b hb
      refine ⟨groupTexts gs ++ y, ?_⟩
      simp [e1]
    · intro b hb
      obtain ⟨x, y, rfl, rfl⟩ := h2 b hb
      have hc : g.1.grs.length = g.counted.length := by simp [LemmGroup.counted]
      simp only [hb, Option.isSome_some, if_true]
      refine ⟨hc, ?_, ?_⟩
      · rw [e2, hc]; simp only [List.length_append]; omega
      · rw [e2, hc]; simp
    · intro hb; simp [hb]
    · intro b hb
      obtain ⟨x, y, rfl, rfl⟩ := h1 b hb
      refine ⟨x ++ g.1.text ++ [0], y, ?_, ?_⟩
      · simp [hb]; omega
      · simp [e1]
    · intro b hb
      obtain ⟨x, y, rfl, rfl⟩ := h2 b hb
      refine ⟨x ++ g.written, y, ?_, ?_⟩
      · simp [hb]
      · simp [groupGrams]

theorem mapM_of_forall₂ {α β γ : Type} {f : α → Option γ} {k : β → γ} {R : α → β → Prop} (hR : ∀ a b, R a b → f a = some (k b)) :
    ∀ {l : List α} {m : List β}, List.Forall₂ R l m → l.mapM f = some (m.map k) := by
  intro l m h
  induction h with
  | nil => rfl
  | cons h _ ih => simp [List.mapM_cons, hR _ _ h, ih]

theorem forall₂_and_right {α β : Type} {R : α → β → Prop} {P : β → Prop} : ∀ {l : List α} {m : List β}, List.Forall₂ R l m →
    (∀ b ∈ m, P b) → List.Forall₂ (fun a b => R a b ∧ P b) l m := by
  intro l m h
  induction h with
  | nil => intro _; exact .nil
  | cons h _ ih => intro hp; exact .cons ⟨h, hp _ (by simp)⟩ (ih fun b hb => hp b (by simp [hb]))

/-- The records of an answer with room. -/
theorem reported_says {lx : List Lemm} {B : Option (List Byte)} {G : Option (List Gram)} {gs : List LemmGroup} {s : LemmState}
    (h : GroupReported (some lx) B G gs s) : ∃ l, s.lemms = some l ∧ gs.length ≤ l.length ∧
      List.Forall₂ (GroupSays s.forms.buf s.grams) (l.take gs.length) gs ∧ s.forms.buf.isSome = B.isSome ∧ s.grams.isSome = G.isSome := by
  obtain ⟨h1, h2, h3⟩ := h
  obtain ⟨tl, h1, -⟩ := h1
  have hb : s.forms.buf.isSome = B.isSome := by rw [h2]; cases B <;> rfl
  have hg : s.grams.isSome = G.isSome := by rw [h3]; cases G <;> rfl
  have hlen : ∀ (a b : Bool) x y (l : List LemmGroup), (groupRecords a b x y l).length = l.length := by
    intro a b x y l
    induction l generalizing x y with
    | nil => rfl
    | cons g l ih => simp [groupRecords, ih]
  refine ⟨_, h1, by simp [hlen], ?_, hb, hg⟩
  rw [List.take_left' (hlen _ _ _ _ _), ← hb, ← hg]
  by_cases h0 : gs = []
  · subst h0; exact .nil
  refine groupRecords_says _ _ gs 0 0 ?_ ?_
  · intro b hb
    rw [h2] at hb
    cases B with
    | none => simp at hb
    | some b0 =>
      simp only [Option.map_some, if_neg h0, Option.some.injEq] at hb
      exact ⟨[], _, rfl, by rw [← hb, List.nil_append]⟩
  · intro b hb
    rw [h3] at hb
    cases G with
    | none => simp at hb
    | some b0 =>
      simp only [Option.isSome_some, if_true, Option.map_some, Option.some.injEq] at hb
      exact ⟨[], _, rfl, by rw [← hb, List.nil_append]⟩

theorem readLexeme_says {b : List Byte} {x : List Gram} {r : Lemm} {g : LemmGroup} (h : GroupSays (some b) (some x) r g)
    (hz : 0 ∉ g.1.text) : readLexeme b x r = some (groupLexeme g) := by
  obtain ⟨t, h1⟩ := h.text b rfl
  obtain ⟨h2, h3, h4⟩ := h.grams x rfl
  simp only [readLexeme, h1, cstring_zero hz, bind, Option.bind_some]
  rw [if_pos h3]
  split
  · rw [h4, h.id]; rfl
  · rename_i h0
    simp only [ne_eq, not_not] at h0
    have : g.counted = [] := List.length_eq_zero_iff.1 (h2 ▸ h0)
    simp [groupLexeme, this, h.id]

theorem readPyLemm_says' {B : Option (List Byte)} {G : Option (List Gram)} {r : Lemm} {g : LemmGroup} (h : GroupSays B G r g)
    (dwsets : Nat) (hB : B.isSome = decide (dwsets &&& 4 = 0)) (hG : G.isSome = decide (dwsets &&& 8 = 0))
    (hz : B.isSome → 0 ∉ g.1.text) : readPyLemm B (G.getD []) r = some (pyRecord dwsets g) := by
  have h1 : readPyText B r.plemma = some (if dwsets &&& 4 = 0 then some g.1.text else none) := by
    cases B with
    | none =>
      have : ¬ dwsets &&& 4 = 0 := by simpa using hB
      simp [readPyText, this]
    | some b =>
      have h4 : dwsets &&& 4 = 0 := by simpa using hB
      obtain ⟨t, h1⟩ := h.text b rfl
      simp [readPyText, h1, cstring_zero (hz rfl), h4]
  have h2 : readPyGrams (G.getD []) r.pgrams r.ngrams = some (if dwsets &&& 8 = 0 ∧ g.counted ≠ [] then some g.counted else none) := by
    cases G with
    | none =>
      have : ¬ dwsets &&& 8 = 0 := by simpa using hG
      simp [readPyGrams, h.none rfl, this]
    | some x =>
      have h8 : dwsets &&& 8 = 0 := by simpa using hG
      obtain ⟨k2, k3, k4⟩ := h.grams x rfl
      simp only [readPyGrams, Option.getD_some, if_pos k3]
      split
      · rename_i h0
        have : g.counted ≠ [] := fun hc => h0 (by rw [k2, hc]; rfl)
        rw [k4, if_pos ⟨h8, this⟩]
      · rename_i h0
        simp only [ne_eq, not_not] at h0
        have : g.counted = [] := List.length_eq_zero_iff.1 (k2 ▸ h0)
        simp [this]
  simp [readPyLemm, h1, h2, pyRecord, h.id]

theorem readPyLemm_says {B : Option (List Byte)} {G : Option (List Gram)} {r : Lemm} {g : LemmGroup} (h : GroupSays B G r g)
    (dwsets : Nat) (hB : B.isSome = decide (dwsets &&& 4 = 0)) (hG : G.isSome = decide (dwsets &&& 8 = 0))
    (hz : 0 ∉ g.1.text) : readPyLemm B (G.getD []) r = some (pyRecord dwsets g) := readPyLemm_says' h dwsets hB hG fun _ => hz

/-! ### C64: the C++ wrappers -/

theorem wrapLemmas_spec {call : Option (List Lemm) → Option (List Byte) → Option (List Gram) → Option (Int × LemmState)}
    {H : List LemmStep} (h : LemmSpec call H) (hz : ∀ p ∈ H, 0 ∉ p.text) (lx : List Lemm) (gr : List Gram) (st : List Byte) :
    (GroupRoomy (some lx) (some st) (some gr) (lemmGroups true H) →
      wrapLemmas call lx gr st = some (.ok ((lemmGroups true H).map groupLexeme))) ∧
    (JoinSafe (some lx) (some gr) H → ¬ GroupFits (some lx) (some st) (some gr) (lemmGroups true H) →
      ∃ e, e < 0 ∧ wrapLemmas call lx gr st = some (.error e)) := by
  obtain ⟨h1, h2⟩ := h (some lx) (some st) (some gr)
  refine ⟨fun hr => ?_, fun hj hf => ?_⟩
  · obtain ⟨s, k1, k2⟩ := h1 hr
    obtain ⟨l, l1, l2, l3, l4, l5⟩ := reported_says k2
    obtain ⟨b, hb⟩ := Option.isSome_iff_exists.1 l4
    obtain ⟨x, hx⟩ := Option.isSome_iff_exists.1 l5
    rw [hb, hx] at l3
    have := mapM_of_forall₂ (f := readLexeme b x) (k := groupLexeme) (fun r g (hg : _ ∧ 0 ∉ g.1.text) => readLexeme_says hg.1 hg.2)
      (forall₂_and_right l3 fun g hg => hz _ (mem_lemmGroups hg))
    simp only [Option.isSome_some] at this l2
    simp only [wrapLemmas, k1, bind, Option.bind_some, Option.isSome_some]
    rw [if_neg (by omega)]
    simp only [l1, Option.getD_some, Int.toNat_natCast, hb, hx, if_pos l2, this, Option.bind_some]
    rfl
  · obtain ⟨r, s, k1, k2⟩ := h2 hj hf
    exact ⟨r, k2, by simp [wrapLemmas, k1, k2]⟩

variable {A : List Byte} {D : RusDict} {st : RusState}

/-- **C64** Lemmatize, Russian.  When 32 records, 64 descriptions and 256 bytes suffice (whatever they contained), the wrapper
returns one lexeme for each record the library is to report (C44), with its number, its dictionary form and the descriptions of
its first reading; when they do not, it throws.
Missing: words of articles without dictionary form; sizes between the sufficient and the necessary (C90). -/
theorem C64_lemmatize_partial (h : RusOk A D st) (w : List Byte) (dwsets : Nat) (junk : List Byte)
    (hne : w ≠ []) (hlen : w.length < 48) (hparts : (wordParts rusTab w).length ≤ 8)
    (hD : D.HasDict (w.map rusTab.lower) dwsets) :
    ∃ H, D.Readings (rusAdmits w dwsets) (w.map rusTab.lower) H ∧
    ∃ F : RusReading → List (List Byte), (∀ r ∈ H, D.DictForms r.art r.first dwsets (F r)) ∧
    ∀ (lx : List Lemm) (gr : List Gram) (sb : List Byte), lx.length = 32 → gr.length = 64 → sb.length = 256 →
      let hs := H.map fun r => r.step (F r)
      (GroupRoomy (some lx) (some sb) (some gr) (lemmGroups true hs) →
        rusWrapLemmatize (st.images D.mtab) junk lx gr sb w dwsets = some (.ok ((lemmGroups true hs).map groupLexeme))) ∧
      (JoinSafe (some lx) (some gr) hs → ¬ GroupFits (some lx) (some sb) (some gr) (lemmGroups true hs) →
        ∃ e, e < 0 ∧ rusWrapLemmatize (st.images D.mtab) junk lx gr sb w dwsets = some (.error e)) := by
  obtain ⟨H, h1, F, hF, h2, h3⟩ := rus_lemmSpec h w junk dwsets hne hlen hparts hD
  exact ⟨H, h1, F, hF, fun lx gr sb _ _ _ => wrapLemmas_spec h2 h3 lx gr sb⟩

/-- **C64** Lemmatize, English, whether or not several readings belong to one lexeme. -/
theorem C64_english_partial {as : List Article} (h : EngOk A as) (w : List Byte) (dwsets : Nat) (junk : List Byte)
    (hne : w ≠ []) (hlen : w.length < 48) (hparts : (wordParts engTab w).length ≤ 8)
    (hD : ∀ p ∈ Matches as w dwsets, p.1.dictForms ≠ []) :
    ∃ H, Readings as w dwsets H ∧
    ∀ (lx : List Lemm) (gr : List Gram) (sb : List Byte), lx.length = 32 → gr.length = 64 → sb.length = 256 →
      let hs := H.map Article.step
      (GroupRoomy (some lx) (some sb) (some gr) (lemmGroups true hs) →
        wrapLemmatize (engBuild as).images junk lx gr sb w dwsets = some (.ok ((lemmGroups true hs).map groupLexeme))) ∧
      (JoinSafe (some lx) (some gr) hs → ¬ GroupFits (some lx) (some sb) (some gr) (lemmGroups true hs) →
        ∃ e, e < 0 ∧ wrapLemmatize (engBuild as).images junk lx gr sb w dwsets = some (.error e)) := by
  obtain ⟨H, h1, h2, h3⟩ := eng_lemmSpec h w junk dwsets hne hlen hparts hD
  exact ⟨H, h1, fun lx gr sb _ _ _ => wrapLemmas_spec h2 h3 lx gr sb⟩

theorem wrapForms_outcome {call : List Byte → Option (Int × Option (List Byte))} {buffer : List Byte} {fs : List (List Byte)}
    {scratch : Prop} [Decidable scratch] (h : FormOutcome (call buffer) fs scratch buffer) (ht : ∀ f ∈ fs, Text f) :
    wrapForms call buffer = some (if scratch ∧ (packed fs).length + 1 ≤ buffer.length then fs else []) := wrap_outcome h ht

/-- **C64** FindForms, Russian: the forms of every reading of the word, in the order of the readings; none at all if those of
one article exceed 256 bytes or all of them the buffer of 256. -/
theorem C64_find_forms (h : RusOk A D st) (w : List Byte) (dwsets : Nat)
    (hne : w ≠ []) (hlen : w.length < 48) (hparts : (wordParts rusTab w).length ≤ 8) :
    ∃ H, D.Readings (rusAdmits w dwsets) (w.map rusTab.lower) H ∧
      ∀ i, ∃ F : RusArticle → List (List Byte), (∀ a ∈ D.arts, D.FoundForms a i (F a)) ∧ ∀ junk buffer, buffer.length = 256 →
        let fs := H.flatMap fun r => (F r.art).map (rusPrinted r.art.demand)
        rusWrapFindForms (st.images D.mtab) junk buffer w i dwsets
          = some (if (∀ r ∈ H, (packed (F r.art)).length ≤ 256) ∧ (packed fs).length + 1 ≤ 256 then fs else []) := by
  obtain ⟨H, h1, h2⟩ := C46_find_forms h w dwsets hne hlen hparts
  refine ⟨H, h1, fun i => ?_⟩
  obtain ⟨F, h3, h4⟩ := h2 i
  refine ⟨F, h3, fun junk buffer hb => ?_⟩
  have := h4 junk buffer (by intro h0; simp [h0] at hb)
  rw [← hb]
  refine wrapForms_outcome (call := fun b => rusFindForms (st.images D.mtab) junk (some b) w i dwsets) ?_ ?_
  · rw [hb]; exact this
  · intro f hf
    obtain ⟨r, hr, hf⟩ := List.mem_flatMap.1 hf
    obtain ⟨g, hg, rfl⟩ := List.mem_map.1 hf
    have ha := (h1.proper r hr).1.art
    exact rusPrinted_text _ r.art.demand_le _ (foundForms_text h ha (h3 _ ha) g hg)

/-- **C64** BuildForm, Russian: the forms an article with this number has for the form number. -/
theorem C64_build_form (h : RusOk A D st) (hi : RusIdsOk D st) (junk : List Byte) (id i : Nat)
    (hj : (lexkey id).length + junk.length = 16) (hex : ∃ a ∈ D.arts, a.id = id) (buffer : List Byte) (hb : buffer.length = 256) :
    ∃ a ∈ D.arts, a.id = id ∧ ∃ fs, D.BuiltForms a i fs ∧ rusWrapBuildForm (st.images D.mtab) junk buffer id i
      = some (if (packed fs).length ≤ 256 ∧ (packed (fs.map (rusPrinted a.demand))).length + 1 ≤ 256 then fs.map (rusPrinted a.demand) else []) := by
  obtain ⟨a, ha, h1, fs, h2, h3⟩ := C46_build_form h hi junk id i hj hex buffer (by intro h0; simp [h0] at hb)
  refine ⟨a, ha, h1, fs, h2, ?_⟩
  rw [← hb]
  refine wrapForms_outcome (call := fun b => rusBuildForm (st.images D.mtab) junk (some b) id i) ?_ ?_
  · rw [hb]; exact h3
  · intro f hf
    obtain ⟨g, hg, rfl⟩ := List.mem_map.1 hf
    exact rusPrinted_text _ a.demand_le _ (builtForms_text h ha h2 g hg)

/-- **C64** numbers no article has: no form, part of speech 0. -/
theorem C64_unknown (h : RusOk A D st) (hi : RusIdsOk D st) (junk : List Byte) (id : Nat) (hid : id < 2 ^ 32)
    (hj : (lexkey id).length + junk.length = 16) (hno : ∀ a ∈ D.arts, a.id ≠ id) :
    (∀ i buffer, buffer.length = 256 → rusWrapBuildForm (st.images D.mtab) junk buffer id i = some []) ∧
    rusWrapWdInfo (st.images D.mtab) junk id = some 0 := by
  refine ⟨fun i buffer hb => ?_, ?_⟩
  · have := C46_build_form_unknown h hi junk id i hid hj hno buffer (by intro h0; simp [h0] at hb)
    simp [rusWrapBuildForm, wrapForms, this, splitForms]
  · simp [rusWrapWdInfo, wrapWdInfo, rusWdInfo, rus_lid_absent h hi junk id hid hj hno]

/-- **C64** GetWdInfo, Russian. -/
theorem C64_part_of_speech (h : RusOk A D st) (hi : RusIdsOk D st) (a : RusArticle) (ha : a ∈ D.arts)
    (hsame : ∀ b ∈ D.arts, b.id = a.id → b.pos = a.pos) (junk : List Byte) (hj : (lexkey a.id).length + junk.length = 16) :
    rusWrapWdInfo (st.images D.mtab) junk a.id = some a.pos := by
  simp [rusWrapWdInfo, wrapWdInfo, C47_part_of_speech h hi a ha hsame junk hj]

/-- The uninitialised buffers of the wrappers. -/
def junkLemms (n : Nat) : List Lemm := List.replicate n ⟨77, 77, 77, 77⟩
def junkGrams (n : Nat) : List Gram := List.replicate n ⟨77, 77, 77, 77⟩
def junkBytes (n : Nat) : List Byte := List.replicate n 77

/-- Non-vacuity: "сна", a form of "сон"; the dative singular; lexeme 7, nominative plural "Иваны". -/
example : (rusWrapLemmatize (rusSampleState.images rusSample.mtab) [] (junkLemms 32) (junkGrams 64) (junkBytes 256) [241, 237, 224] 0).map Except.toOption
      = some (some [⟨300, [241, 238, 237], [⟨7, 1, 0x1000, 3⟩]⟩]) ∧
    rusWrapFindForms (rusSampleState.images rusSample.mtab) [] (junkBytes 256) [241, 237, 224] 2 0 = some [[241, 237, 243]] ∧
    rusWrapBuildForm (rusSampleState.images rusSample.mtab) (List.replicate 15 0) (junkBytes 256) 7 10 = some [[200, 226, 224, 237, 251]] ∧
    rusWrapWdInfo (rusSampleState.images rusSample.mtab) (List.replicate 15 0) 7 = some 38 := by decide +kernel

end Libmorph
