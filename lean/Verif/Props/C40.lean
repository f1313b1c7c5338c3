import Verif.Lemmas.WideForms
import Verif.Props.C19
import Verif.Props.C30
import Verif.Props.C30Rus
import Verif.Props.C44
/-
C40: the wide-character interfaces mirror the byte interfaces.
-/
namespace Libmorph
open Libmorph.Spec

variable {C : Codec} {byte : Nat → Byte} {wide : Byte → Nat}

theorem rusUpper_byte : ∀ a, a < 256 → rusTab.ctype a ≠ ctDlm → rusTab.upper a ≠ 0 ∧ rusTab.upper a < 256 := by
  decide +kernel

theorem rusPrinted_text (d : Nat) (hd : d ≤ 2) (w : List Byte) (hw : Text w) : Text (rusPrinted d w) := by
  have h1 := (capSet_rusPrinted w [] d hd hw).1
  obtain ⟨w2, h4, h5⟩ := C16_only_case rusTab rusTab_ok rusTab_upOk w [] d hw
  have he : w2 = rusPrinted d w := by
    rw [h1] at h4
    simpa using h4.symm
  rw [← he]
  clear h1 h4 he
  induction h5 with
  | nil => intro b hb; simp at hb
  | @cons a b l1 l2 hab _ ih =>
    intro c hc
    have ha := hw a (by simp)
    rcases List.mem_cons.1 hc with rfl | hc
    · rcases hab with rfl | ⟨h1, rfl⟩
      · exact ha
      · exact rusUpper_byte a ha.2 h1
    · exact ih (fun x hx => hw x (by simp [hx])) c hc

theorem Text.zero {f : List Byte} (h : Text f) : 0 ∉ f := fun h0 => (h 0 h0).1 rfl

theorem formsOf_text {A : List Byte} {D : RusDict} {st : RusState} (h : RusOk A D st) {a : RusArticle} (ha : a ∈ D.arts) (hinf : a.Inflected)
    {fx : FlexInfo} {fs : List (List Byte)} (hf : D.FormsOf a fx fs) : ∀ f ∈ fs, Text f := by
  obtain ⟨gs, h1, h2, -⟩ := rusWordForms_inflected h ha hinf fx
  rw [formsOf_unique hf h1]; exact h2

theorem foundForms_text {A : List Byte} {D : RusDict} {st : RusState} (h : RusOk A D st) {a : RusArticle} (ha : a ∈ D.arts) {i : Nat}
    {fs : List (List Byte)} (hf : D.FoundForms a i fs) : ∀ f ∈ fs, Text f := by
  simp only [RusDict.FoundForms] at hf
  split at hf
  · rename_i hinf
    split at hf
    · subst hf; simp
    · exact formsOf_text h ha hinf hf
  · subst hf
    split
    · intro f hf
      simp only [List.mem_singleton] at hf
      subst hf
      exact (h.stemText ha).append (h.postText ha)
    · simp

theorem builtForms_text {A : List Byte} {D : RusDict} {st : RusState} (h : RusOk A D st) {a : RusArticle} (ha : a ∈ D.arts) {i : Nat}
    {fs : List (List Byte)} (hf : D.BuiltForms a i fs) : ∀ f ∈ fs, Text f := by
  simp only [RusDict.BuiltForms] at hf
  split at hf
  · subst hf
    split
    · simp
    · intro f hf
      simp only [List.mem_singleton] at hf
      subst hf
      exact (h.stemText ha).append (h.postText ha)
  · exact foundForms_text h ha hf

/-! ### CheckWord -/

/-- A wide check over a byte check that refuses words of 48 bytes. -/
theorem wideCheck_eq (hC : C.Ok byte wide) {check : List Byte → Option Int} (w : List Nat)
    (hlong : 48 ≤ w.length → check (w.map byte) = some WORDBUFF_FAILED) :
    wideCheckWord C check w = check (w.map byte) := by
  unfold wideCheckWord
  cases hn : C.narrow 0x30 w with
  | none =>
    have : 48 ≤ w.length := by
      by_contra hc
      have := hC.narrow_room 0x30 w (by omega)
      rw [hn] at this; simp at this
    rw [hlong this]
  | some s =>
    rw [(hC.narrow_some _ _ _ hn).1]

/-- **C40** CheckWord: for every word of wide characters the answer is that of the byte interface for the converted word (a word of
48 characters and more with more than 16 parts is outside: the byte interface is undefined for it). -/
theorem C40_check (hC : C.Ok byte wide) (im : Images) (junk : List Byte) (dwsets : Nat) (w : List Nat)
    (hw : w.length < 48 ∨ (wordParts engTab (w.map byte)).length ≤ 16) :
    wideCheckWord C (fun s => checkWord im junk s dwsets) w = checkWord im junk (w.map byte) dwsets :=
  wideCheck_eq hC (check := fun s => checkWord im junk s dwsets) w fun h48 =>
    (C14_too_long_partial im junk (w.map byte) dwsets (by simpa using h48) (hw.resolve_left (by omega))).1

/-- **C40** CheckWord, Russian. -/
theorem C40_rus_check (hC : C.Ok byte wide) (im : RusImages) (junk : List Byte) (dwsets : Nat) (w : List Nat)
    (hw : w.length < 48 ∨ (wordParts rusTab (w.map byte)).length ≤ 16) :
    wideCheckWord C (fun s => rusCheck im junk s dwsets) w = rusCheck im junk (w.map byte) dwsets := by
  refine wideCheck_eq hC (check := fun s => rusCheck im junk s dwsets) w fun h48 => ?_
  have := C15_too_long rusTab rusTab_ok formLength (w.map byte) (by simpa using h48) (hw.resolve_left (by omega))
  have hp : rusPrepare (w.map byte) dwsets = some (.error WORDBUFF_FAILED) := by
    simp [rusPrepare, rusCanonic, this, show ¬ w.length = 0 by omega]
  simp [rusCheck, hp]

/-! ### Lemmatize -/

/-- What the byte lemmatizer does, English. -/
theorem eng_lemmSpec {A : List Byte} {as : List Article} (h : EngOk A as) (w junk : List Byte) (dwsets : Nat)
    (hne : w ≠ []) (hlen : w.length < 48) (hparts : (wordParts engTab w).length ≤ 8)
    (hD : ∀ p ∈ Matches as w dwsets, p.1.dictForms ≠ []) :
    ∃ H, Readings as w dwsets H ∧
      LemmSpec (fun L B G => lemmatize (engBuild as).images junk w L B G dwsets) (H.map Article.step) ∧
      ∀ p ∈ H.map Article.step, 0 ∉ p.text := by
  obtain ⟨V, hV⟩ := scanOf_exists h (w.map engTab.lower) (by simpa using hlen)
  have hr := heard_readings hV.visits dwsets
  refine ⟨_, hr, ?_, ?_⟩
  · intro L B G
    have k := lemmatize_groups h w junk dwsets hne hlen hparts hV L B G (fun _ p hp => hD p (hr.mem hp))
    refine ⟨fun hroom => ?_, fun hsafe hfit => ?_⟩
    · rcases k hroom.safe with ⟨s, k1, k2⟩ | ⟨k0, -⟩
      · exact ⟨s, k1, k2.reported⟩
      · exact absurd hroom k0
    · rcases k hsafe with ⟨s, k1, k2⟩ | ⟨k0, r, s, k1, k2, k3⟩
      · exact absurd k2.fits hfit
      · refine ⟨r, s, k1, ?_⟩
        rcases k2 with ⟨h2, -⟩ | ⟨h2, -⟩ | ⟨h2, -⟩ <;> rw [h2] <;> decide
  · intro p hp
    obtain ⟨q, hq, rfl⟩ := List.mem_map.1 hp
    exact (h.lemmaText (mem_Matches.1 (hr.mem hq)).1).zero

/-- What the byte lemmatizer does, Russian. -/
theorem rus_lemmSpec {A : List Byte} {D : RusDict} {st : RusState} (h : RusOk A D st) (w junk : List Byte) (dwsets : Nat)
    (hne : w ≠ []) (hlen : w.length < 48) (hparts : (wordParts rusTab w).length ≤ 8) (hD : D.HasDict (w.map rusTab.lower) dwsets) :
    ∃ H, D.Readings (rusAdmits w dwsets) (w.map rusTab.lower) H ∧
    ∃ F : RusReading → List (List Byte), (∀ r ∈ H, D.DictForms r.art r.first dwsets (F r)) ∧
      LemmSpec (fun L B G => rusLemmatize (st.images D.mtab) junk w L B G dwsets) (H.map fun r => r.step (F r)) ∧
      ∀ p ∈ H.map (fun r => r.step (F r)), 0 ∉ p.text := by
  obtain ⟨H, h1, F, h2, h3⟩ := C44_lemmatize_partial h w dwsets hne hlen hparts hD
  refine ⟨H, h1, F, h2, ?_, ?_⟩
  · intro L B G
    obtain ⟨k1, k2⟩ := h3 junk L B G
    refine ⟨fun hroom => ?_, fun hs hf => ?_⟩
    · obtain ⟨s, s1, s2, -⟩ := k1 hroom
      exact ⟨s, s1, s2⟩
    · obtain ⟨r, s, s1, s2, -⟩ := k2 hs hf
      exact ⟨r, s, s1, s2⟩
  · intro p hp
    obtain ⟨r, hr, rfl⟩ := List.mem_map.1 hp
    obtain ⟨k1, k2, -⟩ := rusDictForms_eq h (h1.proper r hr).1.art r.first dwsets (F r) (h2 r hr)
    exact (rusPrinted_text _ r.art.demand_le _ (k2 _ (leastForm_mem k1))).zero

/-- **C40** Lemmatize, English: whatever the client's buffers, given or not, when the byte interface with buffers of the same sizes has
room for its answer and this answer keeps within 32 lemmas and 240 bytes, the wide interface returns the same number; the same
descriptions; and record by record the same lexeme, the same reference to descriptions, and a pointer to the converted dictionary form.
Beyond those limits (which no argument states) it fails, writing nothing.
Missing: lexemes without a dictionary form (C11), sizes between the sufficient and the necessary ones (C37). -/
theorem C40_lemmatize_partial (hC : C.Ok byte wide) {A : List Byte} {as : List Article} (h : EngOk A as) (w : List Nat) (junk : List Byte)
    (dwsets : Nat) (hne : w ≠ []) (hlen : w.length < 48) (hparts : (wordParts engTab (w.map byte)).length ≤ 8)
    (hD : ∀ p ∈ Matches as (w.map byte) dwsets, p.1.dictForms ≠ []) :
    ∃ H, Readings as (w.map byte) dwsets H ∧ ∀ lmbuff szlemm, lmbuff.length = 32 → szlemm.length = 240 →
      ∀ (out : Option (List LemmW)) (W : Option (List Nat)) (G : Option (List Gram)),
      let gs := lemmGroups out.isSome (H.map Article.step)
      let lem := fun s L B G => lemmatize (engBuild as).images junk s L B G dwsets
      (WideRoom out W G gs → ∀ L B, L.map List.length = out.map List.length → B.map List.length = W.map List.length → GroupRoomy L B G gs →
        ∃ s out' W' G', lem (w.map byte) L B G = some ((gs.length : Int), s) ∧
          wideLemmatize C lem lmbuff szlemm w out W G = some ((gs.length : Int), out', W', G') ∧
          WideMirrors wide gs.length s out W out' W' G') ∧
      ((out.isSome ∧ 32 < gs.length) ∨ (W.isSome ∧ 240 ≤ (groupTexts gs).length) →
        JoinSafe (narrowL lmbuff out) G (H.map Article.step) →
        ∃ r G', wideLemmatize C lem lmbuff szlemm w out W G = some (r, out, W, G') ∧ r < 0) := by
  obtain ⟨H, h1, h2, h3⟩ := eng_lemmSpec h (w.map byte) junk dwsets (by simpa using hne) (by simpa using hlen) hparts hD
  refine ⟨H, h1, fun lmbuff szlemm hl hs out W G => ⟨fun hw L B hL hB hroom => ?_, fun hbad hj => ?_⟩⟩
  · exact wide_mirrors hC (lem := fun s L B G => lemmatize (engBuild as).images junk s L B G dwsets) w (by omega) h2 h3 lmbuff szlemm hl hs out W L B G hL hB _ rfl hroom hw
  · exact wide_limit hC (lem := fun s L B G => lemmatize (engBuild as).images junk s L B G dwsets) w (by omega) h2 h3 lmbuff szlemm hl hs out W G _ rfl hj hbad

/-- **C40** Lemmatize, Russian: the same. -/
theorem C40_rus_lemmatize_partial (hC : C.Ok byte wide) {A : List Byte} {D : RusDict} {st : RusState} (h : RusOk A D st) (w : List Nat)
    (junk : List Byte) (dwsets : Nat) (hne : w ≠ []) (hlen : w.length < 48) (hparts : (wordParts rusTab (w.map byte)).length ≤ 8)
    (hD : D.HasDict ((w.map byte).map rusTab.lower) dwsets) :
    ∃ H, D.Readings (rusAdmits (w.map byte) dwsets) ((w.map byte).map rusTab.lower) H ∧
    ∃ F : RusReading → List (List Byte), (∀ r ∈ H, D.DictForms r.art r.first dwsets (F r)) ∧
      ∀ lmbuff szlemm, lmbuff.length = 32 → szlemm.length = 240 →
      ∀ (out : Option (List LemmW)) (W : Option (List Nat)) (G : Option (List Gram)),
      let gs := lemmGroups out.isSome (H.map fun r => r.step (F r))
      let lem := fun s L B G => rusLemmatize (st.images D.mtab) junk s L B G dwsets
      (WideRoom out W G gs → ∀ L B, L.map List.length = out.map List.length → B.map List.length = W.map List.length → GroupRoomy L B G gs →
        ∃ s out' W' G', lem (w.map byte) L B G = some ((gs.length : Int), s) ∧
          wideLemmatize C lem lmbuff szlemm w out W G = some ((gs.length : Int), out', W', G') ∧
          WideMirrors wide gs.length s out W out' W' G') ∧
      ((out.isSome ∧ 32 < gs.length) ∨ (W.isSome ∧ 240 ≤ (groupTexts gs).length) →
        JoinSafe (narrowL lmbuff out) G (H.map fun r => r.step (F r)) →
        ∃ r G', wideLemmatize C lem lmbuff szlemm w out W G = some (r, out, W, G') ∧ r < 0) := by
  obtain ⟨H, h1, F, hF, h2, h3⟩ := rus_lemmSpec h (w.map byte) junk dwsets (by simpa using hne) (by simpa using hlen) hparts hD
  refine ⟨H, h1, F, hF, fun lmbuff szlemm hl hs out W G => ⟨fun hw L B hL hB hroom => ?_, fun hbad hj => ?_⟩⟩
  · exact wide_mirrors hC (lem := fun s L B G => rusLemmatize (st.images D.mtab) junk s L B G dwsets) w (by omega) h2 h3 lmbuff szlemm hl hs out W L B G hL hB _ rfl hroom hw
  · exact wide_limit hC (lem := fun s L B G => rusLemmatize (st.images D.mtab) junk s L B G dwsets) w (by omega) h2 h3 lmbuff szlemm hl hs out W G _ rfl hj hbad

/-! ### BuildForm and FindForms -/

/-- **C40** BuildForm, English: the converted forms of (an article of) the lexeme, if they take at most 96 characters with their zeros and
two characters less than the buffer; otherwise LEMMBUFF_FAILED, and nothing is written. -/
theorem C40_buildForm (hC : C.Ok byte wide) {A : List Byte} {as : List Article} (h : EngOk A as) (hi : IdsOk as) (junk szform : List Byte)
    (id i : Nat) (hj : (lexkey id).length + junk.length = 16) (hs : szform.length = 98) (hex : ∃ a ∈ as, a.id = id)
    (out : List Nat) (ho : 2 ≤ out.length) :
    ∃ a ∈ as, a.id = id ∧ WideFormOutcome wide (wideBuildForm C (fun B => buildForm (engBuild as).images junk B id i) szform (some out))
      ((a.delivered i).map (printed a.demand))
      ((packed (a.delivered i)).length ≤ 256 ∧ ((a.delivered i).map (printed a.demand) = [] ∨
        (packed ((a.delivered i).map (printed a.demand))).length + 2 ≤ min out.length 98)) out := by
  have hr : formRoom szform out ≠ [] := by
    intro h0
    have := formRoom_length hs out
    rw [h0] at this
    simp only [List.length_nil] at this; omega
  obtain ⟨a, ha, h1, h2⟩ := buildForm_eq h hi junk id i hj hex (formRoom szform out) hr
  exact ⟨a, ha, h1, wideBuildForm_eq hC (build := fun B => buildForm (engBuild as).images junk B id i)
    (fun f hf => (h.deliveredText ha i f hf).zero) hs out (by rintro rfl; simp at ho) h2⟩

/-- **C40** BuildForm, Russian. -/
theorem C40_rus_buildForm (hC : C.Ok byte wide) {A : List Byte} {D : RusDict} {st : RusState} (h : RusOk A D st) (hi : RusIdsOk D st)
    (junk szform : List Byte) (id i : Nat) (hj : (lexkey id).length + junk.length = 16) (hs : szform.length = 98)
    (hex : ∃ a ∈ D.arts, a.id = id) (out : List Nat) (ho : 2 ≤ out.length) :
    ∃ a ∈ D.arts, a.id = id ∧ ∃ fs, D.BuiltForms a i fs ∧
      WideFormOutcome wide (wideBuildForm C (fun B => rusBuildForm (st.images D.mtab) junk B id i) szform (some out))
      (fs.map (rusPrinted a.demand))
      ((packed fs).length ≤ 256 ∧ (fs.map (rusPrinted a.demand) = [] ∨
        (packed (fs.map (rusPrinted a.demand))).length + 2 ≤ min out.length 98)) out := by
  have hr : formRoom szform out ≠ [] := by
    intro h0
    have := formRoom_length hs out
    rw [h0] at this
    simp only [List.length_nil] at this; omega
  obtain ⟨a, ha, h1, fs, h2, h3⟩ := C46_build_form h hi junk id i hj hex (formRoom szform out) hr
  refine ⟨a, ha, h1, fs, h2, wideBuildForm_eq hC (build := fun B => rusBuildForm (st.images D.mtab) junk B id i)
    ?_ hs out (by rintro rfl; simp at ho) h3⟩
  intro f hf
  obtain ⟨g, hg, rfl⟩ := List.mem_map.1 hf
  exact (rusPrinted_text _ a.demand_le _ (builtForms_text h ha h2 g hg)).zero

/-- **C40** FindForms, English: the converted forms of the readings of the converted word, within the same limits.  It is assumed that the
word is converted: the buffer for it is said to be as long as the word itself, see `C40_findForms_never`. -/
theorem C40_findForms (hC : C.Ok byte wide) {A : List Byte} {as : List Article} (h : EngOk A as) (w : List Nat) (dwsets : Nat)
    (hne : w ≠ []) (hlen : w.length < 48) (hparts : (wordParts engTab (w.map byte)).length ≤ 8) :
    ∃ H, Readings as (w.map byte) dwsets H ∧ ∀ junk szform i counted out, szform.length = 98 → 2 ≤ out.length →
      (C.narrow (if counted then min w.length 98 else 98) w).isSome →
      WideFormOutcome wide (wideFindForms C (fun B s => findForms (engBuild as).images junk B s i dwsets) szform (some out) w counted)
        (deliveredAll (H.map Prod.fst) i)
        ((∀ p ∈ H, (packed (p.1.delivered i)).length ≤ 256) ∧ (deliveredAll (H.map Prod.fst) i = [] ∨
          (packed (deliveredAll (H.map Prod.fst) i)).length + 2 ≤ min out.length 98)) out := by
  obtain ⟨V, hV⟩ := scanOf_exists h ((w.map byte).map engTab.lower) (by simpa using hlen)
  have hr := heard_readings hV.visits dwsets
  refine ⟨_, hr, fun junk szform i counted out hs ho hn => ?_⟩
  obtain ⟨s, hn⟩ := Option.isSome_iff_exists.1 hn
  obtain ⟨rfl, -⟩ := hC.narrow_some _ _ _ hn
  have hrm : formRoom szform out ≠ [] := by
    intro h0
    have := formRoom_length hs out
    rw [h0] at this
    simp only [List.length_nil] at this; omega
  have hmem : ∀ p ∈ heard V (w.map byte) dwsets, p.1 ∈ as := fun p hp => (mem_Matches.1 (hr.mem hp)).1
  have h2 := findForms_heard h (w.map byte) junk dwsets i (by simpa using hne) (by simpa using hlen) hparts hV (formRoom szform out) hrm
  refine wideFindForms_eq hC (find := fun B s => findForms (engBuild as).images junk B s i dwsets) ?_ hs out (by rintro rfl; simp at ho) w counted hne hn h2
  intro f hf
  simp only [deliveredAll, List.mem_flatMap] at hf
  obtain ⟨a, ha, hf⟩ := hf
  obtain ⟨p, hp, rfl⟩ := List.mem_map.1 ha
  exact (h.deliveredText (hmem p hp) i f hf).zero

/-- **C40** FindForms, Russian. -/
theorem C40_rus_findForms (hC : C.Ok byte wide) {A : List Byte} {D : RusDict} {st : RusState} (h : RusOk A D st) (w : List Nat) (dwsets : Nat)
    (hne : w ≠ []) (hlen : w.length < 48) (hparts : (wordParts rusTab (w.map byte)).length ≤ 8) :
    ∃ H, D.Readings (rusAdmits (w.map byte) dwsets) ((w.map byte).map rusTab.lower) H ∧
      ∀ i, ∃ F : RusArticle → List (List Byte), (∀ a ∈ D.arts, D.FoundForms a i (F a)) ∧
      ∀ junk szform counted out, szform.length = 98 → 2 ≤ out.length → (C.narrow (if counted then min w.length 98 else 98) w).isSome →
      WideFormOutcome wide (wideFindForms C (fun B s => rusFindForms (st.images D.mtab) junk B s i dwsets) szform (some out) w counted)
        (H.flatMap fun r => (F r.art).map (rusPrinted r.art.demand))
        ((∀ r ∈ H, (packed (F r.art)).length ≤ 256) ∧ ((H.flatMap fun r => (F r.art).map (rusPrinted r.art.demand)) = [] ∨
          (packed (H.flatMap fun r => (F r.art).map (rusPrinted r.art.demand))).length + 2 ≤ min out.length 98)) out := by
  obtain ⟨H, h1, h2⟩ := C46_find_forms h (w.map byte) dwsets (by simpa using hne) (by simpa using hlen) hparts
  refine ⟨H, h1, fun i => ?_⟩
  obtain ⟨F, h3, h4⟩ := h2 i
  refine ⟨F, h3, fun junk szform counted out hs ho hn => ?_⟩
  obtain ⟨s, hn⟩ := Option.isSome_iff_exists.1 hn
  obtain ⟨rfl, -⟩ := hC.narrow_some _ _ _ hn
  have hrm : formRoom szform out ≠ [] := by
    intro h0
    have := formRoom_length hs out
    rw [h0] at this
    simp only [List.length_nil] at this; omega
  refine wideFindForms_eq hC (find := fun B s => rusFindForms (st.images D.mtab) junk B s i dwsets) ?_ hs out (by rintro rfl; simp at ho) w counted hne hn
    (h4 junk _ hrm)
  intro f hf
  simp only [List.mem_flatMap] at hf
  obtain ⟨r, hr, hf⟩ := hf
  obtain ⟨g, hg, rfl⟩ := List.mem_map.1 hf
  have ha := (h1.proper r hr).1.art
  exact (rusPrinted_text _ r.art.demand_le _ (foundForms_text h ha (h3 _ ha) g hg)).zero

/-! ### FindMatch -/

theorem wildForms_text {A : List Byte} {as : List Article} (h : EngOk A as) {a : Article} (ha : a ∈ as) {m : StrMatch} (hm : m ∈ a.wildForms) :
    0 ∉ m.text := by
  simp only [Article.wildForms] at hm
  split at hm
  · obtain ⟨p, hp, rfl⟩ := List.mem_map.1 hm
    exact (((h.stemText ha).append (h.endText ha hp)).append (h.postText ha)).zero
  · simp only [List.mem_singleton] at hm
    subst hm
    exact (h.stemText ha).zero

/-- **C40** FindMatch, English: the client of the wide interface gets, call by call, the calls of the client of the byte interface - the
same lexeme, the same form numbers, the converted forms -, and its answer to the last one is returned.  What these calls are, C31 says. -/
theorem C40_findMatch (hC : C.Ok byte wide) {A : List Byte} {as : List Article} (h : EngOk A as) (hw : WildOk as)
    (tail smatch : List Byte) (htail : tail ≠ []) (hbuf : smatch.length = 48) (strbuf : List Nat) (hstr : strbuf.length = 0x200 * 0x30)
    (client : List (Nat × List StrMatchW) → Int) (w : List Nat) (hne : w ≠ []) (hlen : w.length < 48)
    (hparts : (wordParts engTab (w.map byte)).length ≤ 8) :
    ∃ cs, WildCalls (WildFound as ((w.map byte).map engTab.lower)) cs ∧
      wideFindMatch C strbuf (fun cl s => findMatch (engBuild as).images tail smatch cl s) client w
        = some (if cs = [] then 0 else client (cs.map (wideCall wide)), cs.map (wideCall wide)) := by
  refine wideFindMatch_eq hC strbuf hstr client w hne hlen _ fun cl => ?_
  obtain ⟨cs, h1, h2, -⟩ := C31_exact_partial h hw tail smatch htail hbuf cl (w.map byte) (by simpa using hne) (by simpa using hlen) hparts
  refine ⟨cs, h1, h2, fun c hc => ⟨?_, fun m hm => ?_⟩⟩
  · have hsub : c.2 ⊆ (as.filter fun a => a.id = c.1).flatMap Article.wildForms := by
      intro m hm
      obtain ⟨a, ha, hid, hma, -⟩ := (h2.mem c.1 m).1 ⟨c, hc, rfl, hm⟩
      exact List.mem_flatMap.2 ⟨a, by simp [ha, hid], hma⟩
    have := (List.Nodup.subperm (h2.nodup c hc) hsub).length_le
    have := hw.few c.1
    omega
  · obtain ⟨a, ha, -, hma, -⟩ := (h2.mem c.1 m).1 ⟨c, hc, rfl, hm⟩
    exact ⟨wildForms_text h ha hma, hw.short a ha m hma⟩

theorem RusOk.altText {A : List Byte} {D : RusDict} {st : RusState} (h : RusOk A D st) {a : RusArticle} (ha : a ∈ D.arts) {x : List Byte}
    (hx : x ∈ D.altsOf a) : Text x := by
  simp only [RusDict.altsOf] at hx
  split at hx
  · simp only [List.mem_singleton] at hx
    subst hx; intro b hb; simp at hb
  · rename_i hm
    obtain ⟨p, hp, rfl⟩ := List.mem_map.1 hx
    obtain ⟨-, h2, -⟩ := h.mixes a ha hm
    intro b hb
    have := h2 p hp b hb
    exact ⟨by omega, this.2⟩

theorem RusOk.endText {A : List Byte} {D : RusDict} {st : RusState} (h : RusOk A D st) {a : RusArticle} (ha : a ∈ D.arts) (hi : a.Inflected)
    {e : List Byte} {g fl : Nat} (he : Ending D.ftab a.tfoffs e g fl) : Text e := by
  obtain ⟨B, hB⟩ := h.tables a ha hi
  intro b hb
  have := hB.letters b (hB.endings e _ _ he b hb)
  exact ⟨by omega, this.2⟩

/-- A text reported by a Russian search. -/
theorem hit_text {A : List Byte} {D : RusDict} {st : RusState} (h : RusOk A D st) (hw : RusWildOk D) {T : List Byte} {x : WildHit}
    (hx : D.WildFound T x) : 0 ∉ x.report.2.text ∧ x.report.2.text.length < 48 := by
  by_cases hi : x.art.Inflected
  · have hr := hx.reads
    simp only [RusDict.Reads, hi, if_true] at hr
    have halt : x.alt ∈ D.altsOf x.art := by
      simp only [RusDict.altsOf]
      by_cases hm : x.art.mtoffs = 0
      · have := hr.2.2
        rw [if_pos hm] at this ⊢
        simp [this]
      · have := hr.2.2
        rw [if_neg hm] at this ⊢
        rcases this with h0 | h0
        · exact List.mem_map.2 ⟨_, h0, rfl⟩
        · exact List.mem_map.2 ⟨_, h0.1, rfl⟩
    simp only [WildHit.report, hi, if_true]
    constructor
    · have h1 := h.stemText hx.art
      have h2 := h.postText hx.art
      have h3 := h.altText hx.art halt
      have h4 := h.endText hx.art hi hr.1
      exact (((h1.append h3).append h4).append h2).zero
    · have := hw.short _ hx.art hi _ halt _ _ _ hr.1
      simpa [List.length_append, Nat.add_assoc] using this
  · simp only [WildHit.report, hi, if_false]
    exact ⟨(h.stemText hx.art).zero, hw.stems _ hx.art⟩

/-- The hits behind a call. -/
theorem call_hits {Cs : List (Nat × List StrMatch)} {R : List WildHit}
    (hr : (Cs.flatMap fun c => c.2.map fun m => (c.1, m)) = R.map WildHit.report) {c : Nat × List StrMatch} (hc : c ∈ Cs) :
    ∃ R' : List WildHit, R'.Sublist R ∧ R'.map WildHit.report = c.2.map fun m => (c.1, m) := by
  obtain ⟨C1, C2, rfl⟩ := List.append_of_mem hc
  rw [List.flatMap_append, List.flatMap_cons] at hr
  obtain ⟨R1, R2, rfl, h1, h2⟩ := List.append_eq_map_iff.1 hr
  obtain ⟨R3, R4, rfl, h3, h4⟩ := List.append_eq_map_iff.1 h2.symm
  exact ⟨R3, (List.sublist_append_left R3 R4).trans (List.sublist_append_right R1 _), h3⟩

/-- **C40** FindMatch, Russian: the same, for templates with an asterisk at the end only (others may need more room than there is:
`C31_rus_overflow`). -/
theorem C40_rus_findMatch (hC : C.Ok byte wide) {A : List Byte} {D : RusDict} {st : RusState} (h : RusOk A D st) (hw : RusWildOk D)
    (tail smatch : List Byte) (htail : tail ≠ []) (hbuf : smatch.length = 48) (strbuf : List Nat) (hstr : strbuf.length = 0x200 * 0x30)
    (client : List (Nat × List StrMatchW) → Int) (w : List Nat) (hne : w ≠ []) (hlen : w.length < 48)
    (hparts : (wordParts rusTab (w.map byte)).length ≤ 8) (hstar : StarLast ((w.map byte).map rusTab.lower))
    (hids : (D.arts.map RusArticle.id).Nodup) (hfew : D.FewReadings) :
    ∃ cs, (∃ R, D.WildOutcome ((w.map byte).map rusTab.lower) cs R ∧ R.Nodup) ∧
      wideFindMatch C strbuf (fun cl s => rusFindMatch (st.images D.mtab) tail smatch cl s) client w
        = some (if cs = [] then 0 else client (cs.map (wideCall wide)), cs.map (wideCall wide)) := by
  refine wideFindMatch_eq hC strbuf hstr client w hne hlen _ fun cl => ?_
  obtain ⟨cs, R, h1, h2, h3, -⟩ := (C31_rus_exact_partial h hw tail smatch htail hbuf cl (w.map byte) (by simpa using hne)
    (by simpa using hlen) hparts).2 hstar hids hfew
  refine ⟨cs, h1, ⟨R, h2, h3⟩, fun c hc => ?_⟩
  obtain ⟨R', k1, k2⟩ := call_hits h2.reported hc
  have hfound : ∀ x ∈ R', D.WildFound ((w.map byte).map rusTab.lower) x := fun x hx => (h2.found x).1 (k1.subset hx)
  have hid : ∀ x ∈ R', x.art.id = c.1 := by
    intro x hx
    have : x.report ∈ R'.map WildHit.report := List.mem_map.2 ⟨x, hx, rfl⟩
    rw [k2] at this
    obtain ⟨m, -, hm⟩ := List.mem_map.1 this
    have := congrArg Prod.fst hm
    exact this.symm
  constructor
  · have hl : c.2.length = R'.length := by
      have := congrArg List.length k2
      simpa using this.symm
    rw [hl]
    cases hR : R' with
    | nil => simp
    | cons x0 xs =>
      have hx0 : x0 ∈ R' := by rw [hR]; simp
      have hsame : ∀ x ∈ R', x.art = x0.art := by
        intro x hx
        exact List.inj_on_of_nodup_map hids (hfound x hx).art (hfound x0 hx0).art (by rw [hid x hx, hid x0 hx0])
      rw [← hR]
      have := hfew x0.art (hfound x0 hx0).art (R'.map fun x => (x.alt, x.ending, x.gram)) (by
        refine List.Nodup.map_on ?_ (k1.nodup h3)
        intro x hx y hy hxy
        simp only [Prod.mk.injEq] at hxy
        have e := (hsame _ hx).trans (hsame _ hy).symm
        cases x; cases y
        simp only [WildHit.mk.injEq]
        exact ⟨e, hxy.1, hxy.2.1, hxy.2.2⟩) (by
        intro q hq
        obtain ⟨x, hx, rfl⟩ := List.mem_map.1 hq
        have := (hfound x hx).reads
        rw [hsame x hx] at this
        exact this)
      simpa using this
  · intro m hm
    have : (c.1, m) ∈ R'.map WildHit.report := by rw [k2]; exact List.mem_map.2 ⟨m, hm, rfl⟩
    obtain ⟨x, hx, hxm⟩ := List.mem_map.1 this
    have := hit_text h hw (hfound x hx)
    rw [hxm] at this
    exact this

/-! ### What the wide interface refuses -/

/-- **C40** a missing buffer, an empty one, and one of one character are refused. -/
theorem C40_arguments (im : Images) (junk szform : List Byte) (id i : Nat) (x : Nat) :
    wideBuildForm C (fun B => buildForm im junk B id i) szform none = some (ARGUMENT_FAILED, none) ∧
    wideBuildForm C (fun B => buildForm im junk B id i) szform (some []) = some (ARGUMENT_FAILED, some []) ∧
    wideBuildForm C (fun B => buildForm im junk B id i) szform (some [x]) = some (ARGUMENT_FAILED, some [x]) := by
  refine ⟨rfl, rfl, ?_⟩
  simp [wideBuildForm, buildForm, ARGUMENT_FAILED]

/-- **C40** FindForms of a counted word tells the conversion that its buffer is as long as the word: with a conversion that needs room for a
zero behind the word, no counted word has forms. -/
theorem C40_findForms_never (find : Option (List Byte) → List Byte → Option (Int × Option (List Byte))) (szform : List Byte)
    (out w : List Nat) (ho : out ≠ []) (hw : w ≠ []) :
    idCodec.Ok (fun c => c % 256) id ∧ wideFindForms idCodec find szform (some out) w true = some (WORDBUFF_FAILED, some out) := by
  refine ⟨idCodec_ok, ?_⟩
  have h1 : ¬ out.length = 0 := by simpa using ho
  have h2 : ¬ w.length = 0 := by simpa using hw
  have h3 : ¬ w.length < min w.length 98 := by omega
  simp [wideFindForms, ho, hw, idCodec, h3]

/-- **C40** refuted beyond the limits: 33 words "a", records for all of them: the byte interface reports them, the wide one fails. -/
def manyA : List Article := (List.range 33).map fun i => ⟨[97], [], 5, [], i + 1⟩

theorem C40_counterexample :
    (lemmatize (engBuild manyA).images [] [97] (some (List.replicate 33 ⟨0, 0, 0, 0⟩)) none none 0).map Prod.fst = some 33 ∧
    (wideLemmatize idCodec (fun s L B G => lemmatize (engBuild manyA).images [] s L B G 0) (List.replicate 32 ⟨0, 0, 0, 0⟩) (List.replicate 240 0)
      [97] (some (List.replicate 33 ⟨0, none, 0, 0⟩)) none none).map Prod.fst = some LIDSBUFF_FAILED := by
  decide +kernel

/-- **C40** refuted for a buffer that just fits: "Paris" with two zeros. -/
theorem C40_form_counterexample :
    (buildForm (engBuild engSample).images (List.replicate 15 0) (some (List.replicate 7 0)) 7 0).map Prod.fst = some 1 ∧
    (wideBuildForm idCodec (fun B => buildForm (engBuild engSample).images (List.replicate 15 0) B 7 0) (List.replicate 98 0)
      (some (List.replicate 7 0))).map Prod.fst = some LEMMBUFF_FAILED := by
  decide +kernel

/-! ### The hypotheses are met -/

/-- "Paris's" of the sample, in wide characters (here Latin letters with the same codes). -/
example : (wideLemmatize idCodec (fun s L B G => lemmatize (engBuild engSample).images [] s L B G 0) (List.replicate 32 ⟨0, 0, 0, 0⟩)
      (List.replicate 240 0) [80, 97, 114, 105, 115, 39, 115] (some [⟨0, none, 0, 0⟩, ⟨9, none, 9, 9⟩]) (some (List.replicate 8 1))
      (some [⟨0, 0, 0, 0⟩])).map (fun r => (r.1, r.2.1, r.2.2.1)) =
    some (1, some [⟨7, some 0, 0, 1⟩, ⟨9, none, 9, 9⟩], some [80, 97, 114, 105, 115, 0, 1, 1]) := by
  decide +kernel

example :=
  C40_lemmatize_partial idCodec_ok engSample_ok [80, 97, 114, 105, 115, 39, 115] [] 0 (by decide) (by decide) (by decide +kernel) (by decide +kernel)

/-- Russian: "сну". -/
example : (wideLemmatize idCodec (fun s L B G => rusLemmatize (rusSampleState.images rusSample.mtab) [] s L B G 0) (List.replicate 32 ⟨0, 0, 0, 0⟩)
      (List.replicate 240 0) [241, 237, 243] (some [⟨0, none, 0, 0⟩, ⟨9, none, 9, 9⟩]) (some (List.replicate 6 1)) none).map
        (fun r => (r.1, r.2.1, r.2.2.1)) =
    some (1, some [⟨300, some 0, 0, 0⟩, ⟨9, none, 9, 9⟩], some [241, 238, 237, 0, 1, 1]) := by
  decide +kernel

example : ∃ cs, WildCalls (WildFound engSample [112, 42]) cs ∧
    wideFindMatch idCodec (List.replicate (0x200 * 0x30) 0) (fun cl s => findMatch (engBuild engSample).images [0] (List.replicate 48 0) cl s)
      (fun _ => 3) [80, 42] = some (if cs = [] then 0 else 3, cs.map (wideCall id)) :=
  C40_findMatch idCodec_ok engSample_ok engSample_wild [0] (List.replicate 48 0) (by decide) (by decide) _ List.length_replicate (fun _ => 3) [80, 42]
    (by decide) (by decide) (by decide +kernel)

end Libmorph
